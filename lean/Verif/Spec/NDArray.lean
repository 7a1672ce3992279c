import Verif.Py
/-
SPECIFICATION SIDE.  N-dimensional arrays and NumPy-style *orthogonal* indexing, written
independently of biggus.  Nothing in this file models biggus code.
-/
namespace Biggus

/-- An indexing key as written by a user of `array[...]`.
`tuple`, `list`, `iarr` are a Python tuple / another iterable (list) / a 1-d NumPy integer array of
integers; `barr` is a 1-d NumPy boolean array; `bad` is any other object (str, float, ...). -/
inductive Key
  | int (i : Int)
  | slice (s : PySlice)
  | tuple (l : List Int)
  | list (l : List Int)
  | iarr (l : List Int)
  | barr (l : List Bool)
  | newaxis
  | ellipsis
  | bad
deriving DecidableEq, Repr

/-- The key `:`. -/
def Key.full : Key := .slice PySlice.full

/-- An n-dimensional array: a shape and the element at every index. -/
structure NDA (β : Type _) where
  shape : List Nat
  get : List Nat → β

/-- `idx` is a valid (full-length, non-negative) index for `shape`. -/
def InB : List Nat → List Nat → Prop
  | [], [] => True
  | n :: ns, i :: is => i < n ∧ InB ns is
  | _, _ => False

instance decInB : ∀ s i, Decidable (InB s i)
  | [], [] => isTrue trivial
  | _ :: ns, _ :: is => @instDecidableAnd _ _ _ (decInB ns is)
  | [], _ :: _ => isFalse (fun h => h)
  | _ :: _, [] => isFalse (fun h => h)

/-- Two arrays are the same array: same shape and same element at every valid index. -/
def NDA.Eqv {β : Type _} (a b : NDA β) : Prop :=
  a.shape = b.shape ∧ ∀ idx, InB a.shape idx → a.get idx = b.get idx

@[inherit_doc] infix:50 " ≈ₐ " => NDA.Eqv

/-- What one key selects on one axis: a single position (dimension dropped), a list of positions, or a
new dimension of length one. -/
inductive Sel
  | at (i : Nat)
  | pick (l : List Nat)
  | new
deriving DecidableEq, Repr

/-- Positions of `true` in a boolean mask. -/
def truePositions (l : List Bool) : List Nat :=
  (List.range l.length).filter (fun i => l.getD i false)

/-- Selection made by one key on an axis of length `n` (NumPy: bounds checked, negatives wrap).
A boolean mask may be shorter than the axis (NumPy < 1.13), never longer. -/
def resolve1 (k : Key) (n : Nat) : Res Sel :=
  match k with
  | .int i => if inRange i n then .ok (.at (normIdx i n)) else .error .index
  | .slice s => do
      let r ← s.range n
      return .pick (r.map Int.toNat)
  | .tuple l | .list l | .iarr l =>
      if l.all (inRange · n) then .ok (.pick (l.map (normIdx · n))) else .error .index
  | .barr l => if l.length ≤ n then .ok (.pick (truePositions l)) else .error .index
  | .newaxis => .ok .new
  | .ellipsis | .bad => .error .type

/-- Selections made by a full key list (one non-newaxis key per axis) on a shape. -/
def resolve : List Key → List Nat → Res (List Sel)
  | [], [] => .ok []
  | .newaxis :: ks, ns => do
      let r ← resolve ks ns
      return .new :: r
  | k :: ks, n :: ns => do
      let s ← resolve1 k n
      let r ← resolve ks ns
      return s :: r
  | _, _ => .error .index

/-- Shape of an orthogonal selection. -/
def selShape : List Sel → List Nat
  | [] => []
  | .at _ :: s => selShape s
  | .pick l :: s => l.length :: selShape s
  | .new :: s => 1 :: selShape s

/-- Source index of the element at `idx` of an orthogonal selection. -/
def selSrc : List Sel → List Nat → List Nat
  | [], _ => []
  | .at i :: s, idx => i :: selSrc s idx
  | .pick l :: s, j :: idx => l.getD j 0 :: selSrc s idx
  | .new :: s, _ :: idx => selSrc s idx
  | _, [] => []

/-- Orthogonal selection: every axis is selected independently. -/
def NDA.ortho {β : Type _} (a : NDA β) (s : List Sel) : NDA β :=
  ⟨selShape s, fun idx => a.get (selSrc s idx)⟩

def Key.isNewaxis : Key → Bool
  | .newaxis => true
  | _ => false

def Key.isEllipsis : Key → Bool
  | .ellipsis => true
  | _ => false

/-- Number of keys that consume a dimension (everything but `newaxis`). -/
def nConsuming (ks : List Key) : Nat := (ks.filter (fun k => !k.isNewaxis)).length

/-- NumPy's expansion of a key tuple with at most one `Ellipsis` to one key per dimension:
the `Ellipsis` (or else the end of the tuple) stands for as many `:` as are missing.
`IndexError` if there are too many keys; `TypeError` here means "two ellipses", which NumPy rejects. -/
def expandKeys (ks : List Key) (ndim : Nat) : Res (List Key) :=
  let pre := ks.takeWhile (fun k => !k.isEllipsis)
  match ks.dropWhile (fun k => !k.isEllipsis) with
  | [] =>
      if nConsuming pre ≤ ndim then
        .ok (pre ++ List.replicate (ndim - nConsuming pre) Key.full)
      else .error .index
  | _ :: post =>
      if post.any Key.isEllipsis then .error .type
      else if nConsuming pre + nConsuming post ≤ ndim then
        .ok (pre ++ List.replicate (ndim - (nConsuming pre + nConsuming post)) Key.full ++ post)
      else .error .index

/-- `x[keys]` for NumPy-like data `x` under orthogonal indexing. -/
def npIndex {β : Type _} (a : NDA β) (ks : List Key) : Res (NDA β) := do
  let fk ← expandKeys ks a.shape.length
  let s ← resolve fk a.shape
  return a.ortho s

/-- All valid indices of a shape, last dimension fastest (`np.ndindex`). -/
def ndindex : List Nat → List (List Nat)
  | [] => [[]]
  | n :: ns => (List.range n).flatMap (fun i => (ndindex ns).map (i :: ·))

/-- Flat list of the elements in row-major order (for examples and tests). -/
def NDA.toList {β : Type _} (a : NDA β) : List β := (ndindex a.shape).map a.get

/-- An array given by a flat row-major list (for examples and tests). -/
def flatIndex : List Nat → List Nat → Nat
  | _ :: ns, i :: is => i * ns.prod + flatIndex ns is
  | _, _ => 0

def NDA.ofList {β : Type _} [Inhabited β] (shape : List Nat) (l : List β) : NDA β :=
  ⟨shape, fun idx => l.getD (flatIndex shape idx) default⟩

/-- Elementwise map. -/
def NDA.map {β γ : Type _} (f : β → γ) (a : NDA β) : NDA γ := ⟨a.shape, fun i => f (a.get i)⟩

end Biggus

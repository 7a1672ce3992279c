import Verif.Spec.NDArray
/-
EXTERNAL BEHAVIOUR (trusted base): the parts of NumPy that biggus calls and whose rules biggus has to
work around.  One-dimensional index arrays only (biggus never uses others).
-/
namespace Biggus

/-- Keys NumPy treats as index *arrays* ("advanced" indices on their own). -/
def Key.isArr : Key → Bool
  | .tuple _ | .list _ | .iarr _ | .barr _ => true
  | _ => false

def Sel.lenOf : Sel → Nat
  | .pick l => l.length
  | _ => 1

/-- Broadcast length of the index arrays: all of equal length, length 1 stretches. -/
def bcastLen : List Nat → Option Nat
  | [] => some 1
  | n :: ns => match bcastLen ns with
    | none => none
    | some m => if n = m then some m else if n = 1 then some m else if m = 1 then some n else none

/-- Are all advanced positions (true) contiguous? -/
def contiguousAdv (adv : List Bool) : Bool :=
  !(((adv.dropWhile (!·)).dropWhile (·)).any (·))

/-- Value of an advanced selection at position `b` of the broadcast index. -/
def advVal : Sel → Nat → Nat
  | .at i, _ => i
  | .pick l, b => if l.length = 1 then l.getD 0 0 else l.getD b 0
  | .new, _ => 0

/-- Source index of a mixed selection: advanced axes read position `b`, basic axes read `idx`. -/
def mixedSrc : List (Bool × Sel) → Nat → List Nat → List Nat
  | [], _, _ => []
  | (true, s) :: r, b, idx => advVal s b :: mixedSrc r b idx
  | (false, .pick l) :: r, b, j :: idx => l.getD j 0 :: mixedSrc r b idx
  | (false, _) :: _, _, _ => []

/-- Dimensions of the basic (slice) axes of a mixed selection. -/
def basicDims : List (Bool × Sel) → List Nat
  | [] => []
  | (true, _) :: r => basicDims r
  | (false, s) :: r => s.lenOf :: basicDims r

/-- Keys NumPy treats as advanced when an index array is present. -/
def Key.isAdv : Key → Bool
  | .int _ => true
  | k => k.isArr

/-- `x[keys]` for a NumPy array `x` and keys without newaxis/Ellipsis (missing trailing keys are `:`).
Without an index array this is basic indexing.  With at least one index array, integers count as index
arrays too, all index arrays are broadcast against each other (zipped) and give ONE result dimension: in
place if all of them are adjacent, otherwise FIRST (NumPy manual, "Combining advanced and basic
indexing"). -/
def npFancy {β : Type _} (a : NDA β) (keys : List Key) : Res (NDA β) :=
  if a.shape.length < keys.length then .error .index
  else do
    let keys := keys ++ List.replicate (a.shape.length - keys.length) Key.full
    let sels ← resolve keys a.shape
    if keys.any Key.isArr then
      let adv := keys.map Key.isAdv
      let items := adv.zip sels
      match bcastLen ((items.filter (·.1)).map (·.2.lenOf)) with
      | none => .error .index
      | some L =>
        let p := if contiguousAdv adv then (adv.takeWhile (!·)).length else 0
        let dims := basicDims items
        .ok ⟨dims.take p ++ [L] ++ dims.drop p,
             fun idx => a.get (mixedSrc items (idx.getD p 0) (idx.eraseIdx p))⟩
    else .ok (a.ortho sels)

/-- `np.take(x, indices, axis)`: orthogonal selection on one axis. -/
def npTake {β : Type _} (a : NDA β) (l : List Int) (axis : Nat) : Res (NDA β) :=
  match a.shape[axis]? with
  | none => .error .index
  | some n =>
    if l.all (inRange · n) then
      .ok ⟨a.shape.set axis l.length, fun idx =>
        a.get (idx.set axis ((l.map (normIdx · n)).getD (idx.getD axis 0) 0))⟩
    else .error .index

/-- `x.transpose(axes)` for a NumPy array and a permutation `axes`: result dimension `i` is source
dimension `axes[i]`. -/
def npTranspose {β : Type _} (a : NDA β) (axes : List Nat) : Res (NDA β) :=
  if axes.isPerm (List.range a.shape.length) then
    .ok ⟨axes.map (fun j => a.shape.getD j 0),
         fun idx => a.get ((List.range a.shape.length).map (fun j => idx.getD (axes.idxOf j) 0))⟩
  else .error .value

/-- NumPy's broadcasting of two shapes (right-aligned; equal, or one of them 1), on reversed shapes. -/
def bcastRev : List Nat → List Nat → Option (List Nat)
  | [], t => some t
  | s, [] => some s
  | m :: s, n :: t =>
    match bcastRev s t with
    | none => none
    | some r => if m = n then some (m :: r) else if m = 1 then some (n :: r)
                else if n = 1 then some (m :: r) else none

/-- NumPy's broadcast shape of two shapes, `none` if they do not broadcast. -/
def bcastShape (s t : List Nat) : Option (List Nat) :=
  (bcastRev s.reverse t.reverse).map List.reverse

/-- Index into an array of shape `shape` of the element seen at `idx` of a broadcast of it:
drop the extra leading coordinates, use 0 on length-1 axes. -/
def bcastIdx (shape idx : List Nat) : List Nat :=
  List.zipWith (fun n i => if n = 1 then 0 else i) shape (idx.drop (idx.length - shape.length))

/-- `np.broadcast_to(x, shape)` (without check). -/
def NDA.bcastTo {β : Type _} (a : NDA β) (shape : List Nat) : NDA β :=
  ⟨shape, fun idx => a.get (bcastIdx a.shape idx)⟩

end Biggus

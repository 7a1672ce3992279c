import Verif.Spec.Den
/-
SPECIFICATION SIDE.  The keys for which indexing a biggus expression is claimed to behave like NumPy
(`Arr.keysOk`).  Outside these keys biggus raises an exception or (in the cases shown by the negative examples in
`Props/`) returns wrong data.
-/
namespace Biggus

variable {α : Type}

/-- The keys that fall on existing (not new) dimensions: `c` new axes come first, then one dimension, then the
new axes of `ns`, ... -/
def containedKeys : Nat → List Nat → List Key → List Key
  | _, _, [] => []
  | c, ns, .newaxis :: ks => containedKeys c ns ks
  | c + 1, ns, _ :: ks => containedKeys c ns ks
  | 0, n :: ns, k :: ks => k :: containedKeys n ns ks
  | 0, [], _ :: _ => []

/-- Does a key on a new axis ask for a length other than one (or is it a tuple)? -/
def stretchesNew (k : Key) : Bool :=
  match k with
  | .slice s => match s.range 1 with
    | .ok r => decide (r.length ≠ 1)
    | .error _ => false
  | .tuple _ => true
  | _ => false

/-- Guard for `NewAxesArray`: on a new axis only ints, slices and tuples are accepted, and a slice that does not
keep length one (or a tuple) is only accepted while no earlier key is an int (`seen`). -/
def naKeysOk : Bool → Nat → List Nat → List Key → Prop
  | _, _, _, [] => True
  | seen, c, ns, .newaxis :: ks => naKeysOk seen c ns ks
  | seen, c + 1, ns, k :: ks =>
    ((∃ i, k = .int i) ∨ (∃ s, k = .slice s) ∨ (∃ l, k = .tuple l)) ∧
    (stretchesNew k = true → seen = false) ∧ naKeysOk (seen || k.isScalar) c ns ks
  | seen, 0, n :: ns, k :: ks => naKeysOk (seen || k.isScalar) n ns ks
  | _, 0, [], _ :: _ => True

/-- Guard: what a `BroadcastArray` accepts on its own (non-leading) axes: on a broadcast axis only ints and
slices; elsewhere no NumPy array of length other than 1 (their comparison with `slice(None)` is ambiguous). -/
def bcastKeysOk (dict : List (Nat × Nat)) : Nat → List Key → Prop
  | _, [] => True
  | ax, k :: ks =>
    (if dict.any (fun p => p.1 == ax) then (∃ i, k = .int i) ∨ (∃ s, k = .slice s)
     else (∀ l, k = .iarr l → l.length ≤ 1) ∧ (∀ l, k = .barr l → l.length ≤ 1)) ∧ bcastKeysOk dict (ax + 1) ks

/-- The keys a `BroadcastArray` gives to its array: `:` for a slice and 0 for an int on broadcast axes. -/
def bcastInner (dict : List (Nat × Nat)) : Nat → List Key → List Key
  | _, [] => []
  | ax, k :: ks =>
    (if dict.any (fun p => p.1 == ax) then (match k with | .int _ => .int 0 | _ => Key.full) else k) ::
      bcastInner dict (ax + 1) ks

/-- Keys for which NumPy's (fancy) indexing of an array is orthogonal: no index array, or exactly one with all
integers adjacent to it. -/
def fancySafe (ks : List Key) : Prop :=
  ks.any Key.isArr = false ∨ (ks.filter Key.isArr).length = 1 ∧ contiguousAdv (ks.map Key.isAdv) = true

/-- The keys a mosaic of tiles with lengths `lens` along `axis` can be indexed with, given which keys (`G`) each
tile can be indexed with: nothing but `:` from the axis on; or on the axis a non-negative integer, a non-empty slice
(going backwards only within one tile), or a non-empty sequence of non-negative integers. -/
def mosaicKeysOk (lens : List Nat) (axis : Nat) (G : Nat → List Key → Prop) (fk : List Key) : Prop :=
  let many (is : List Int) : Prop := is ≠ [] ∧ (∀ i ∈ is, 0 ≤ i) ∧ ∀ g ∈ groupTiles lens is,
    G g.1 (fk.set axis (tileKey ((tileOffsets lens).getD g.1 0) g.2))
  if (trimKeys fk).length ≤ axis then ∀ t, t < lens.length → G t fk
  else match fk.getD axis Key.full with
    | .int i => 0 ≤ i ∧
        G (tileIndex lens i) (fk.set axis (.int (i - (tileOffsets lens).getD (tileIndex lens i) 0)))
    | .slice s => ∀ r, s.range lens.sum = .ok r → many r ∧ (s.negStep = true → (groupTiles lens r).length = 1)
    | .tuple l | .list l | .iarr l => many l
    | _ => False

/-- The keys without `newaxis`. -/
def dropNew (fk : List Key) : List Key := fk.filter (fun k => !k.isNewaxis)

/-- `fk`, a list with one key for each dimension of the array and any number of `newaxis` (what
`expandKeys` gives), is a list of keys the expression supports.
* an adapter supports every key unless it holds a boolean array from an earlier indexing
* a constant: no list (a tuple or an array instead)
* new axes: `naKeysOk`, and the array inside supports the keys on its dimensions
* a broadcast: leading dimensions keep a positive length and are not indexed by a list; `bcastKeysOk`
* a stack: the keys on the stacked dimensions select at least one item, not by a list, with at most one index
  array, which must be adjacent to every integer there (`fancySafe`)
* a mosaic: `mosaicKeysOk`
* everything else: the arguments support the keys they get -/
def Arr.keysOk : Arr α → List Key → Prop
  | .adapter _ _ stored, _ => ∀ k ∈ stored, ∀ l, k ≠ .barr l
  | .const _ _ _, fk => ∀ l, Key.list l ∉ fk
  | .newAxes _ [], _ => False
  | .newAxes a (c :: ns), fk => naKeysOk false c ns fk ∧ a.keysOk (containedKeys c ns fk)
  | .bcast a d lead, fk =>
      (∀ l, Key.list l ∉ (dropNew fk).take lead.length) ∧
      (∀ σ, resolve ((dropNew fk).take lead.length) lead = .ok σ → ∀ l ∈ selShape σ, 1 ≤ l) ∧
      bcastKeysOk d 0 ((dropNew fk).drop lead.length) ∧
      a.keysOk (bcastInner d 0 ((dropNew fk).drop lead.length))
  | .transposed a axes, fk => ∀ rem, axesInverse axes (dropNew fk) = .ok rem → a.keysOk rem
  | .stack ss items, fk =>
      (∀ l, Key.list l ∉ (dropNew fk).take ss.length) ∧ fancySafe ((dropNew fk).take ss.length) ∧
      (∀ σ, resolve ((dropNew fk).take ss.length) ss = .ok σ → (selShape σ).prod ≠ 0) ∧
      ∀ i, InB ss i → (items i).keysOk ((dropNew fk).drop ss.length)
  | .mosaic n tiles axis, fk =>
      mosaicKeysOk ((List.range n).map (fun i => (okOr (tiles i).shape []).getD axis 0)) axis
        (fun t ks => (tiles t).keysOk ks) (dropNew fk)
  | .asType a _, fk => a.keysOk fk
  | .maskVal a _, fk => a.keysOk fk
  | .agg a axis _, fk => a.keysOk ((dropNew fk).take axis ++ [Key.full] ++ (dropNew fk).drop axis)
  | .elem1 a _, fk => a.keysOk (dropNew fk)
  | .elem2 a b _, fk => a.keysOk (dropNew fk) ∧ b.keysOk (dropNew fk)

/-- The keys `ks`, written by a user, are supported by `a`. -/
def Arr.supports (a : Arr α) (ks : List Key) : Prop :=
  ∀ s fk, a.shape = .ok s → expandKeys ks s.length = .ok fk → a.keysOk fk

/-- A key that is an integer, a slice with a non-zero step, a sequence of integers or a boolean array. -/
def Key.wellTyped : Key → Prop
  | .int _ | .tuple _ | .list _ | .iarr _ | .barr _ => True
  | .slice s => s.step ≠ some 0
  | _ => False

end Biggus

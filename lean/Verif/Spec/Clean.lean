import Verif.Spec.EvalGuards
/-
SPECIFICATION SIDE.  Which keys leave an expression evaluable (`Arr.clean`): after indexing with such keys the
expression is still one whose evaluation is claimed to be right (`Arr.Ok`).
-/
namespace Biggus

variable {α V : Type}

/-- A key that selects nothing twice (a sequence of integers: non-negative and distinct). -/
def Key.distinct : Key → Prop
  | .tuple l | .list l | .iarr l => l.Nodup ∧ ∀ i ∈ l, 0 ≤ i
  | _ => True

/-- The keys `fk` (as given by `expandKeys`) leave the expression evaluable, when it may be cut afterwards as `cut` says:
* an adapter: no boolean mask if it is cut later (or if `nm`); a NumPy source can read the combined keys orthogonally (`takeSafe`);
  they do not select a single, possibly masked element (`zeroDimSafe`)
* a stack or mosaic that is cut later may be indexed by integers only if its items are not computed from streams
* an aggregation whose handler depends on the chunking must not be given repeated indices (its source could grow beyond
  one chunk), nor an element-wise operation on sources streamed in different ways
* the arguments are left evaluable by the keys they get -/
def Arr.clean (m : Mode α V) (nm : Bool) : Cut → Arr α → List Key → Prop
  | cut, .adapter o c stored, fk => ∀ ks', adapterLoop stored c.data.shape (dropNew fk) = .ok ks' →
      (cut ≠ .whole ∨ nm = true → ∀ l, Key.barr l ∉ ks') ∧ (o = false → takeSafe ks') ∧ m.zeroDimSafe c ks'
  | _, .const _ _ _, _ => True
  | _, .newAxes _ [], _ => False
  | cut, .newAxes a (c :: ns), fk => a.clean m nm cut (containedKeys c ns fk)
  | cut, .bcast a d lead, fk => a.clean m nm cut (bcastInner d 0 ((dropNew fk).drop lead.length))
  | cut, .transposed a axes, fk => ∀ rem, axesInverse axes (dropNew fk) = .ok rem → a.clean m nm cut rem
  | cut, .stack ss items, fk =>
      (cut ≠ .whole → ((dropNew fk).take ss.length).all Key.isScalar = true → ∀ i, InB ss i → (items i).isProd = true) ∧
      ∀ i, InB ss i → (items i).clean m nm cut ((dropNew fk).drop ss.length)
  | cut, .mosaic n tiles axis, fk =>
      (cut ≠ .whole → ((dropNew fk).getD axis Key.full).isScalar = true → ∀ i, i < n → (tiles i).isProd = true) ∧
      mosaicKeysOk ((List.range n).map (fun i => (okOr (tiles i).shape []).getD axis 0)) axis
        (fun t ks => (tiles t).clean m nm (if cut = .whole then .whole else .arrays) ks) (dropNew fk)
  | cut, .asType a _, fk => a.clean m nm cut fk
  | cut, .maskVal a _, fk => a.clean m nm cut fk
  | cut, .agg a axis k, fk => ((m.handler k).Lawful ∨ ∀ x ∈ fk, x.distinct) ∧
      a.clean m nm cut.streamed ((dropNew fk).take axis ++ [Key.full] ++ (dropNew fk).drop axis)
  | cut, .elem1 a _, fk => a.clean m nm cut.streamed (dropNew fk)
  | cut, .elem2 a b _, fk => (cut ≠ .whole → a.skel = b.skel ∨ ∀ x ∈ fk, x.distinct) ∧
      a.clean m nm cut.streamed (dropNew fk) ∧ b.clean m nm cut.streamed (dropNew fk)

/-- A simple key for a dimension of length `n`: an integer in range, or a slice that selects something unless `n = 0`;
with `fwd` no negative integer and no negative step; with `arr` also an array or tuple of integers in range: distinct and non-negative, or with `rep`
any (but non-negative with `fwd`). -/
def SimpleKeyR (rep fwd arr : Bool) (k : Key) (n : Nat) : Prop :=
  (∃ i : Int, k = .int i ∧ inRange i n = true ∧ (fwd = true → 0 ≤ i)) ∨
  (∃ s r, k = .slice s ∧ (fwd = true → s.negStep = false) ∧ s.range n = .ok r ∧ (n ≠ 0 → r ≠ [])) ∨
  (arr = true ∧ ∃ l : List Int, (k = .iarr l ∨ k = .tuple l) ∧ (n ≠ 0 → l ≠ []) ∧ (rep = false → l.Nodup) ∧
    ∀ i ∈ l, inRange i n = true ∧ (rep = false ∨ fwd = true → 0 ≤ i))

/-- A simple key without repetitions. -/
abbrev SimpleKey (fwd arr : Bool) (k : Key) (n : Nat) : Prop := SimpleKeyR false fwd arr k n

/-- Simple keys for an array of shape `s`, as written by a user: every dimension gets a simple key (`:` if the user wrote
none for it); any number of `newaxis` besides. -/
def SimpleKeys (fwd : Bool) (ks : List Key) (s : List Nat) : Prop :=
  ∃ fk, expandKeys ks s.length = .ok fk ∧ List.Forall₂ (SimpleKey fwd false) (dropNew fk) s

/-- Simple keys applied one after the other to an array of shape `s`. -/
def SimpleHistory (fwd : Bool) : List (List Key) → List Nat → Prop
  | [], _ => True
  | ks :: kss, s => SimpleKeys fwd ks s ∧
      ∀ fk σ, expandKeys ks s.length = .ok fk → resolve fk s = .ok σ → SimpleHistory fwd kss (selShape σ)

/-- Keys for an array of shape `s`, as written by a user: every dimension gets an integer in range, a slice that selects something, or a tuple or array of
distinct non-negative indices, with `rep` of any indices in range (`:` if the user wrote none for it); no `newaxis`. -/
def PickKeysR (rep fwd : Bool) (ks : List Key) (s : List Nat) : Prop :=
  ∃ fk, expandKeys ks s.length = .ok fk ∧ List.Forall₂ (SimpleKeyR rep fwd true) fk s

/-- Such keys applied one after the other to an array of shape `s`. -/
def PickHistoryR (rep fwd : Bool) : List (List Key) → List Nat → Prop
  | [], _ => True
  | ks :: kss, s => PickKeysR rep fwd ks s ∧
      ∀ fk σ, expandKeys ks s.length = .ok fk → resolve fk s = .ok σ → PickHistoryR rep fwd kss (selShape σ)

/-- Such keys without repetitions. -/
abbrev PickKeys (fwd : Bool) (ks : List Key) (s : List Nat) : Prop := PickKeysR false fwd ks s

/-- Such keys without repetitions, one after the other. -/
abbrev PickHistory (fwd : Bool) (kss : List (List Key)) (s : List Nat) : Prop := PickHistoryR false fwd kss s

/-- Expressions that can be indexed any number of times with simple keys and evaluated afterwards.  Everything is
allowed except
* data sources that show a masked element differently when it is read alone (`sourceSafe`)
* a boolean mask stored in an adapter, and a NumPy adapter created with explicit keys for some dimensions only
* (with `arr`: in the tiles of a mosaic) NumPy adapters that have not been indexed, new axes, broadcasts and
  multi-dimensional stacks
* mosaics that are empty along their axis; mosaics need `fwd` keys
* below an aggregation or element-wise operation: stacks and mosaics of aggregations or element-wise operations
* with `rep` (indices may be repeated, so that arrays may grow): aggregations whose handler depends on the chunking, and binary
  operations on arrays that are chunked differently -/
def Arr.PlainR (rep : Bool) (m : Mode α V) (fwd : Bool) : Bool → Cut → Arr α → Prop
  | arr, _, .adapter o c stored => m.sourceSafe c ∧ (∀ l, Key.barr l ∉ stored) ∧
      (o = true ∨ stored.length = c.data.shape.length ∨ arr = false ∧ stored = [])
  | _, _, .const _ _ _ => True
  | arr, cut, .newAxes a _ => arr = false ∧ a.PlainR rep m fwd arr cut
  | arr, cut, .bcast a _ _ => arr = false ∧ a.PlainR rep m fwd arr cut
  | arr, cut, .transposed a _ => a.PlainR rep m fwd arr cut
  | arr, cut, .stack ss items => (arr = true → ss.length ≤ 1) ∧ (cut ≠ .whole → ∀ i, InB ss i → (items i).isProd = true) ∧
      ∀ i, InB ss i → (items i).PlainR rep m fwd arr cut
  | _, cut, .mosaic n tiles axis => fwd = true ∧
      0 < ((List.range n).map (fun i => (okOr (tiles i).shape []).getD axis 0)).sum ∧
      (cut ≠ .whole → ∀ i, i < n → (tiles i).isProd = true) ∧
      ∀ i, i < n → (tiles i).PlainR rep m fwd true (if cut = .whole then .whole else .arrays)
  | arr, cut, .asType a _ => a.PlainR rep m fwd arr cut
  | arr, cut, .maskVal a _ => a.PlainR rep m fwd arr cut
  | arr, cut, .agg a _ k => (rep = true → (m.handler k).Lawful) ∧ a.PlainR rep m fwd arr cut.streamed
  | arr, cut, .elem1 a _ => a.PlainR rep m fwd arr cut.streamed
  | arr, cut, .elem2 a b _ => (rep = true → a.skel = b.skel) ∧ a.PlainR rep m fwd arr cut.streamed ∧ b.PlainR rep m fwd arr cut.streamed

/-- No aggregation in the expression depends on the chunking: every handler is `Lawful` (count, sum and mean; also std and var of masked data);
and the operands of binary operations are chunked in the same way. -/
def Arr.lawfulAggs (m : Mode α V) : Arr α → Prop
  | .adapter _ _ _ | .const _ _ _ => True
  | .newAxes a _ | .bcast a _ _ | .transposed a _ | .asType a _ | .maskVal a _ | .elem1 a _ => a.lawfulAggs m
  | .stack ss items => ∀ i, InB ss i → (items i).lawfulAggs m
  | .mosaic n tiles _ => ∀ i, i < n → (tiles i).lawfulAggs m
  | .agg a _ k => (m.handler k).Lawful ∧ a.lawfulAggs m
  | .elem2 a b _ => a.skel = b.skel ∧ a.lawfulAggs m ∧ b.lawfulAggs m

/-- Expressions that can be indexed any number of times with simple keys without repetitions. -/
abbrev Arr.Plain (m : Mode α V) (fwd arr : Bool) (cut : Cut) (a : Arr α) : Prop := a.PlainR false m fwd arr cut

end Biggus

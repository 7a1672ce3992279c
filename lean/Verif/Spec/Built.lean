import Verif.Spec.Clean
import Verif.Spec.Returns
/-
SPECIFICATION SIDE.  A grammar of user expressions: what can be written with the public constructors so that indexing
(with simple keys, any number of times) and evaluating are claimed to agree with NumPy.
-/
namespace Biggus

variable {α V : Type}

/-- Expressions built with the public constructors.  `fwd`: whether they are going to be indexed with non-negative
integers and steps only (needed as soon as a mosaic occurs).  `tile`: the expression is going to be a tile of a
mosaic.  `cut`: how it is going to be cut by the engine - `whole` at top level, `sliced` below an aggregation or
element-wise operation.
Restrictions: data sources show a masked element in the same way when it is read alone (`sourceSafe`); tiles are not NumPy sources, new axes, broadcasts or multi-dimensional stacks; below an aggregation or
element-wise operation no stack or mosaic of aggregations or element-wise operations; an aggregation whose handler
depends on the chunking (min, max, std) needs columns that are not cut (`Arr.cutSafe`; std: whose first piece has two values); the operands of a binary operation have
the same shape and, if the operation is going to be cut by the engine, are chunked in the same way (as far as the shapes they are
read from tell) or each fit in one chunk. -/
inductive Arr.Built [Inhabited α] (m : Mode α V) (limit : Nat) (fwd : Bool) : Bool → Cut → Arr α → Prop
  | source (tile cut) (o : Bool) (c : Concrete α) : m.sourceSafe c → (tile = true → o = true) → Built m limit fwd tile cut (.adapter o c [])
  | const (tile cut s v dt) : Built m limit fwd tile cut (.const s v dt)
  | newAxes {cut a na b} : cut ≠ .arrays → Built m limit fwd false cut a → mkNewAxes a na = .ok b → Built m limit fwd false cut b
  | bcast {cut a d lead b} : cut ≠ .arrays → Built m limit fwd false cut a → a.noLead → (d.map Prod.fst).Nodup →
      mkBcast a d lead = .ok b → Built m limit fwd false cut b
  | transposed {tile cut a axes s b} : Built m limit fwd tile cut a → a.shape = .ok s → axes.Perm (List.range s.length) →
      mkTransposed a axes = .ok b → Built m limit fwd tile cut b
  | stack {tile cut ss items b} : (tile = true ∨ cut = .arrays → ss.length ≤ 1) →
      (cut ≠ .whole → ss ≠ [] ∧ ∀ i, InB ss i → (items i).isProd = true) →
      (∀ i, InB ss i → Built m limit fwd tile cut (items i)) → mkStack ss items = .ok b → Built m limit fwd tile cut b
  | mosaic {tile cut axis b} {tiles : List (Arr α)} : fwd = true → (cut ≠ .whole → ∀ t ∈ tiles, t.isProd = true) →
      (∀ t ∈ tiles, Built m limit fwd true (if cut = .whole then .whole else .arrays) t) → mkMosaic tiles axis = .ok b →
      (∀ s, b.shape = .ok s → 0 < s.getD axis 0) → Built m limit fwd tile cut b
  | asType {tile cut a} (dt) : Built m limit fwd tile cut a → Built m limit fwd tile cut (.asType a dt)
  | maskVal {tile cut a} (v) : Built m limit fwd tile cut a → Built m limit fwd tile cut (.maskVal a v)
  | agg {tile cut a s axis k} : Built m limit fwd tile cut.streamed a → a.shape = .ok s → axis < s.length →
      (s.getD axis 0 ≠ 0 ∨ (m.handler k).emptyErr = none) → a.cutSafe limit axis (m.handler k) →
      Built m limit fwd tile cut (.agg a axis k)
  | elem1 {tile cut a op} : Built m limit fwd tile cut.streamed a → (m.op1 op).isSome = true →
      Built m limit fwd tile cut (.elem1 a op)
  | elem2 {tile cut a b op} : Built m limit fwd tile cut.streamed a → Built m limit fwd tile cut.streamed b →
      (m.op2 op).isSome = true → a.shape = b.shape → (cut = .whole ∨ a.skel = b.skel ∨ a.skel.fits limit ∧ b.skel.fits limit) →
      Built m limit fwd tile cut (.elem2 a b op)

end Biggus

import Verif.Spec.Guards
/-
SPECIFICATION SIDE.  Indices out of range (C78).
-/
namespace Biggus

variable {α : Type}

/-- A key for a dimension of length `n` that contains an index out of range: an integer; with `seq` also a tuple, list or array of integers. -/
def Key.outside (seq : Bool) (k : Key) (n : Nat) : Prop :=
  (∃ i, k = .int i ∧ (i < -n ∨ n ≤ i)) ∨
  (seq = true ∧ ∃ l, (k = .tuple l ∨ k = .list l ∨ k = .iarr l) ∧ ∃ i ∈ l, i < -n ∨ (n : Int) ≤ i)

/-- Indices out of range for dimension `p` are never accepted: every dimension except those of a `ConstantArray`, the leading dimensions of a broadcast,
and (for sequences of indices) the dimension along which a mosaic is put together. -/
def Arr.refuses (seq : Bool) : Arr α → Nat → Prop
  | .adapter _ _ _, _ => True
  | .const _ _ _, _ => False
  | .newAxes a na, p => match (naInsert true na (List.replicate (na.length - 1) false))[p]? with
      | some true => True
      | some false => a.refuses seq (((naInsert true na (List.replicate (na.length - 1) false)).take p).count false)
      | none => False
  | .bcast a d lead, p => lead.length ≤ p ∧ ((∃ l, (p - lead.length, l) ∈ d) ∨ a.refuses seq (p - lead.length))
  | .transposed a axes, p => ∃ q, axes[p]? = some q ∧ a.refuses seq q
  | .stack ss items, p => p < ss.length ∨ ∀ i, InB ss i → (items i).refuses seq (p - ss.length)
  | .mosaic n tiles axis, p => (p = axis → seq = false) ∧ ∀ i, i < n → (tiles i).refuses seq p
  | .asType a _, p => a.refuses seq p
  | .maskVal a _, p => a.refuses seq p
  | .agg a axis _, p => a.refuses seq (if p < axis then p else p + 1)
  | .elem1 a _, p => a.refuses seq p
  | .elem2 a b _, p => a.refuses seq p ∨ b.refuses seq p

end Biggus

import Verif.Model.Arrays
namespace Biggus

variable {α : Type}

/-- Dimension `p` of the array is a dimension of a data source (not indexed with a boolean mask before), of which the array is made by casts, masked values, transposition, aggregation and
element-wise operations (of an operation between arrays the first operand is meant). -/
def Arr.overSource : Arr α → Nat → Prop
  | .adapter _ _ keys, _ => ∀ l, Key.barr l ∉ keys
  | .transposed a axes, p => ∃ q, axes[p]? = some q ∧ a.overSource q
  | .asType a _, p => a.overSource p
  | .maskVal a _, p => a.overSource p
  | .agg a axis _, p => a.overSource (if p < axis then p else p + 1)
  | .elem1 a _, p => a.overSource p
  | .elem2 a _ _, p => a.overSource p
  | _, _ => False

end Biggus

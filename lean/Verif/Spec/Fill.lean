import Verif.Model.FillEval
import Verif.Spec.Meta
/-
SPECIFICATION SIDE.  Expressions with one fill value throughout.
-/
namespace Biggus

variable {α : Type}

/-- The expression has the fill value `f` throughout: a data source with it, a stack or mosaic all of whose parts have it throughout, or any other
expression over a dtype whose default it is. -/
def Arr.HasFill (T : DTypes α) (F : Fills α) (f : α) : Arr α → Prop
  | .adapter _ c _ => c.fill = f
  | .stack ss items => ss.prod ≠ 0 ∧ ∀ i, InB ss i → (items i).HasFill T F f
  | .mosaic n tiles _ => 0 < n ∧ ∀ i, i < n → (tiles i).HasFill T F f
  | a => F.default (a.dtype T) = f

/-- The expression is not a view (new axes, transposition), cast or masking of another one. -/
def Arr.ownFill : Arr α → Bool
  | .newAxes _ _ | .transposed _ _ | .asType _ _ | .maskVal _ _ => false
  | _ => true

end Biggus

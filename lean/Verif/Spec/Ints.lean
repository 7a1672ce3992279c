import Verif.Model.Ints
import Mathlib.Data.Int.ModEq
/-
SPECIFICATION SIDE: the range of an integer dtype, and what a value kept in it is.
-/
namespace Biggus
namespace Spec

/-- `x` is a value of the dtype. -/
def Fits (t : IntType) (x : Int) : Prop :=
  if t.signed then -2 ^ (t.bits - 1) ≤ x ∧ x < 2 ^ (t.bits - 1) else 0 ≤ x ∧ x < 2 ^ t.bits

/-- `r` is what the dtype holds in place of the integer `x`: the value of the dtype that differs from `x` by a multiple of `2 ^ bits`. -/
def HeldAs (t : IntType) (x r : Int) : Prop := Fits t r ∧ r ≡ x [ZMOD 2 ^ t.bits]

end Spec
end Biggus

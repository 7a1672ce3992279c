import Verif.Model.Racing
import Verif.Spec.Den
/-
SPECIFICATION SIDE.  The items of a stack at each moment of an evaluation during which other threads assign to it.
-/
namespace Biggus

variable {α : Type}

/-- What the stack holds after the first `k` groups of assignments; access number `k` sees `heldAfter other items (k + 1)`. -/
def heldAfter (other : Nat → List (Assignment α)) (items : List Nat → Arr α) : Nat → List Nat → Arr α
  | 0 => items
  | k + 1 => fun i => ((other k).reverse.find? (fun w => w.index == i)).elim (heldAfter other items k i) Assignment.value

end Biggus

import Verif.Model.InPlace
import Verif.Spec.Built
/-
SPECIFICATION SIDE.  Expressions that read the array they are going to be saved to.
-/
namespace Biggus

variable {α V : Type}

/-- Expressions over "the target" in which every element is computed from the same element of the target and of other arrays: the
target itself, any array that does not read the target, `astype`, masking, element-wise operations. -/
inductive Pointwise (α : Type) where
  | target (ortho : Bool)
  | other (a : Arr α)
  | asType (e : Pointwise α) (dt : Nat)
  | maskVal (e : Pointwise α) (v : α)
  | elem1 (e : Pointwise α) (op : Op1 α)
  | elem2 (e e' : Pointwise α) (op : Op2 α)

/-- The expression while the target holds `c`. -/
def Pointwise.arr (c : Concrete α) : Pointwise α → Arr α
  | .target o => .adapter o c []
  | .other a => a
  | .asType e dt => .asType (e.arr c) dt
  | .maskVal e v => .maskVal (e.arr c) v
  | .elem1 e op => .elem1 (e.arr c) op
  | .elem2 e e' op => .elem2 (e.arr c) (e'.arr c) op

/-- An unmasked array as a data source. -/
def plainSource (fill : α) (dt : Nat) (t : NDA α) : Concrete α := ⟨t.map some, fill, dt⟩

/-- A masked array as a data source. -/
def maskedSource (fill : α) (dt : Nat) (t : NDA (Option α)) : Concrete α := ⟨t, fill, dt⟩

end Biggus

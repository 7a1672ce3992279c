import Verif.Model.Changing
import Verif.Spec.Den
/-
SPECIFICATION SIDE.  What an expression over changing sources is worth.
-/
namespace Biggus

variable {α V : Type} [Inhabited V]

/-- The array an expression stands for if the node of source `i` delivers the array `T i`: aggregations of columns and element-wise operations, as in `Arr.den`. -/
def Over.value (m : Mode α V) (T : Nat → NDA V) : Over α → NDA V
  | .src i => T i
  | .agg e axis k => (e.value m T).reduce axis (fun col => (m.handler k).run ((e.value m T).shape.getD axis 0) [col])
  | .elem1 e op => (e.value m T).map ((m.op1 op).getD id)
  | .elem2 e e' op => (e.value m T).zip (e'.value m T) ((m.op2 op).getD (fun x _ => x))

/-- Which sources an expression reads, and in which orders of dimensions, if it is asked for in the given order. -/
def Over.asks : Over α → List Nat → List (Nat × List Nat)
  | .src i, order => [(i, order)]
  | .agg e axis _, order => e.asks (aggOrder axis order)
  | .elem1 e _, order => e.asks order
  | .elem2 e e' _, order => e.asks order ++ e'.asks order

/-- Every source is asked for in one order only. -/
def Over.oneOrder (e : Over α) (order : List Nat) : Prop :=
  ∀ i o o', (i, o) ∈ e.asks order → (i, o') ∈ e.asks order → o = o'

end Biggus

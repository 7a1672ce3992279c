import Verif.Model.Misc
import Verif.Spec.Built
/-
SPECIFICATION SIDE for C31, C33, C40.
-/
namespace Biggus

namespace Spec

/-- Bytes in a unit. -/
def unitBytes : SizeUnit → Nat
  | .B => 1
  | .KiB => 1024
  | .MiB => 1024 ^ 2
  | .GiB => 1024 ^ 3
  | .TiB => 1024 ^ 4

/-- The NumPy function behind each Python operator. -/
def numpyFunction : PyOp → Ufunc
  | .add => .add
  | .sub => .subtract
  | .mul => .multiply
  | .floordiv => .floor_divide
  | .truediv => .true_divide
  | .pow => .power

end Spec

variable {α V : Type}

/-- The operand stands for the NumPy array `x`: a biggus array that evaluates to `x`, the NumPy array `x` itself, or a scalar (`x` is
then 0-dimensional). -/
inductive Operand.Means [Inhabited α] [Inhabited V] (m : Mode α V) (limit : Nat) (fwd : Bool) : Operand α → NDA V → Prop
  | arr {a x} : a.Built m limit fwd false .sliced → a.noLead → a.Yields m limit x → Means m limit fwd (.arr a) x
  | numpy (c) : m.sourceSafe c → Means m limit fwd (.numpy c) (c.data.map (m.leaf c.fill))
  | scalar (v dt) : Means m limit fwd (.scalar v dt) ⟨[], fun _ => m.const v⟩

/-- `x` or `y` is a biggus array, and `x` is not a NumPy array (for which NumPy decides what happens). -/
def BiggusOperator (x y : Operand α) : Prop :=
  match x with
  | .arr _ => True
  | .numpy _ => False
  | _ => ∃ b, y = .arr b

end Biggus

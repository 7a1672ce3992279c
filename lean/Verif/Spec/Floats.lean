import Mathlib.Algebra.Order.Field.Basic
import Mathlib.Algebra.BigOperators.Group.List.Basic
import Mathlib.Tactic.Ring
/-
SPECIFICATION SIDE.  Floating-point values as NumPy's arithmetic treats them: exact numbers, the two infinities and NaN.  (No rounding, no signed zeros: every
zero divisor below is `+0.0`.)
-/
namespace Biggus

/-- A float: a finite number, an infinity (`neg`: the negative one) or NaN. -/
inductive Fl (α : Type)
  | num (x : α)
  | inf (neg : Bool)
  | nan
deriving DecidableEq, Repr

namespace Fl

variable {α : Type}

instance [Inhabited α] : Inhabited (Fl α) := ⟨.num default⟩

/-- Not an infinity and not NaN. -/
def finite : Fl α → Bool
  | num _ => true
  | _ => false

section
variable [Field α] [LinearOrder α]

instance : Zero (Fl α) := ⟨num 0⟩
instance : NatCast (Fl α) := ⟨fun n => num n⟩

/-- `x + y`: `inf - inf` is NaN. -/
def add : Fl α → Fl α → Fl α
  | num x, num y => num (x + y)
  | nan, _ => nan
  | _, nan => nan
  | inf s, num _ => inf s
  | num _, inf s => inf s
  | inf s, inf t => if s = t then inf s else nan

instance : Add (Fl α) := ⟨add⟩

def neg : Fl α → Fl α
  | num x => num (-x)
  | inf s => inf (!s)
  | nan => nan

instance : Sub (Fl α) := ⟨fun x y => x + neg y⟩

/-- `x * y`: `inf * 0` is NaN. -/
def mul : Fl α → Fl α → Fl α
  | num x, num y => num (x * y)
  | nan, _ => nan
  | _, nan => nan
  | inf s, num y => if y = 0 then nan else inf (s != decide (y < 0))
  | num x, inf s => if x = 0 then nan else inf (s != decide (x < 0))
  | inf s, inf t => inf (s != t)

instance : Mul (Fl α) := ⟨mul⟩

/-- `x / c` for a finite divisor: `0 / 0` is NaN, any other `x / 0` an infinity. -/
def divNum : Fl α → α → Fl α
  | num x, c => if c = 0 then (if x = 0 then nan else inf (decide (x < 0))) else num (x / c)
  | inf s, c => inf (s != decide (c < 0))
  | nan, _ => nan

/-- `np.sqrt`, given the square root `f` of the finite numbers: NaN for negative numbers. -/
def sqrt (f : α → α) : Fl α → Fl α
  | num x => if x < 0 then nan else num (f x)
  | inf false => inf false
  | inf true => nan
  | nan => nan

/-- `np.minimum`: NaN if an operand is NaN. -/
instance : Min (Fl α) := ⟨fun x y => match x, y with
  | nan, _ => nan
  | _, nan => nan
  | num x, num y => num (min x y)
  | inf true, _ => inf true
  | _, inf true => inf true
  | inf false, y => y
  | x, inf false => x⟩

/-- `np.maximum`: NaN if an operand is NaN. -/
instance : Max (Fl α) := ⟨fun x y => match x, y with
  | nan, _ => nan
  | _, nan => nan
  | num x, num y => num (max x y)
  | inf false, _ => inf false
  | _, inf false => inf false
  | inf true, y => y
  | x, inf true => x⟩

/-- `x ≤ y` between values that are not NaN. -/
def le : Fl α → Fl α → Prop
  | num x, num y => x ≤ y
  | inf true, nan => False
  | inf true, _ => True
  | nan, _ => False
  | _, inf false => True
  | _, _ => False

end
end Fl

namespace Spec
variable {α : Type} [Field α] [LinearOrder α]
open Fl

/-- The finite values of a column. -/
def finites (col : List (Fl α)) : List α := col.filterMap (fun x => match x with | num x => some x | _ => none)

/-- The sum of a column, described without adding up: NaN if there is a NaN or there are infinities of both signs, else an infinity if there is one, else the
sum of the numbers. -/
def flSum (col : List (Fl α)) : Fl α :=
  if nan ∈ col ∨ (inf true ∈ col ∧ inf false ∈ col) then nan
  else if inf true ∈ col then inf true
  else if inf false ∈ col then inf false
  else num (finites col).sum

/-- `np.mean`. -/
def flMean (col : List (Fl α)) : Fl α := (flSum col).divNum (col.length : α)

/-- `np.var`, in two passes. -/
def flVar (ddof : Int) (col : List (Fl α)) : Fl α :=
  (flSum (col.map (fun x => (x - flMean col) * (x - flMean col)))).divNum ((col.length : α) - (ddof : α))

/-- `np.std`. -/
def flStd (f : α → α) (ddof : Int) (col : List (Fl α)) : Fl α := (flVar ddof col).sqrt f

/-- `m` is `np.min(col)`: NaN if there is one, else the least value. -/
def IsFlMin (col : List (Fl α)) (m : Fl α) : Prop :=
  (nan ∈ col → m = nan) ∧ (nan ∉ col → m ∈ col ∧ ∀ x ∈ col, m.le x)

/-- `m` is `np.max(col)`. -/
def IsFlMax (col : List (Fl α)) (m : Fl α) : Prop :=
  (nan ∈ col → m = nan) ∧ (nan ∉ col → m ∈ col ∧ ∀ x ∈ col, x.le m)

end Spec
end Biggus

namespace Biggus.Spec
variable {α : Type} [Field α] [LinearOrder α]

/-- What is left of a result after NumPy's masked arithmetic: infinite and NaN quotients and roots are masked. -/
def unlessBad (x : Fl α) : Option (Fl α) := if x.finite = true then some x else none

/-- `np.ma.mean` of a column (`none` = masked): of the unmasked values; masked if there is none or the mean is not finite. -/
def maFlMean (l : List (Fl α)) : Option (Fl α) := if l = [] then none else unlessBad (flMean l)

/-- `np.ma.std` of a column with the unmasked values `l`: masked if there is none, if there are no more of them than `ddof`, or if the deviation is not
finite. -/
def maFlStd (f : α → α) (ddof : Int) (l : List (Fl α)) : Option (Fl α) :=
  if (l.length : Int) ≤ ddof ∨ l = [] then none else unlessBad (flStd f ddof l)

/-- `np.ma.var` likewise. -/
def maFlVar (ddof : Int) (l : List (Fl α)) : Option (Fl α) :=
  if (l.length : Int) ≤ ddof ∨ l = [] then none else unlessBad (flVar ddof l)

end Biggus.Spec

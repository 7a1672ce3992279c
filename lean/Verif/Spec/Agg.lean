import Mathlib.Algebra.Field.Basic
import Mathlib.Order.Lattice
/-
SPECIFICATION SIDE.  Textbook aggregates of a column of values.
-/
namespace Biggus.Spec

variable {α : Type}

/-- Arithmetic mean. -/
def mean [Field α] (l : List α) : α := l.sum / (l.length : α)

/-- Two-pass sum of squared deviations from the mean. -/
def ssd [Field α] (l : List α) : α := (l.map (fun x => (x - mean l) * (x - mean l))).sum

/-- Two-pass variance with `ddof` delta degrees of freedom. -/
def var [Field α] (ddof : Int) (l : List α) : α := ssd l / ((l.length : α) - (ddof : α))

/-- `m` is the least element of `l`. -/
def IsMin [LE α] (l : List α) (m : α) : Prop := m ∈ l ∧ ∀ x ∈ l, m ≤ x

/-- `m` is the greatest element of `l`. -/
def IsMax [LE α] (l : List α) (m : α) : Prop := m ∈ l ∧ ∀ x ∈ l, x ≤ m

/-- The unmasked values of a column (`none` = masked). -/
def valid (col : List (Option α)) : List α := col.filterMap id

/-- `chunks` is a way of cutting the column `col` into consecutive pieces. -/
def CutOf {V : Type} (col : List V) (chunks : List (List V)) : Prop := chunks.flatten = col

end Biggus.Spec

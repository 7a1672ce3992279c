import Mathlib.Algebra.Order.Field.Basic
import Mathlib.Algebra.Order.BigOperators.Group.List
import Verif.Spec.Agg
/-
SPECIFICATION SIDE.  Floating-point arithmetic with rounding errors, and sums in any order.
-/
namespace Biggus.Spec

variable {α : Type} [Field α] [LinearOrder α]

/-- `fl` rounds to the nearest number of a format with unit roundoff `u` (no overflow, no underflow): the relative error is at most `u`, and numbers of the format (the
values of `fl`) are not changed. -/
structure Rounding (fl : α → α) (u : α) : Prop where
  nonneg : 0 ≤ u
  error : ∀ z, |fl z - z| ≤ u * |z|
  idem : ∀ z, fl (fl z) = fl z

/-- `v` is obtained by adding up the numbers of the list, in some order and bracketing, rounding after each addition. -/
inductive SumsTo (fl : α → α) : List α → α → Prop
  | nil : SumsTo fl [] 0
  | single (x : α) : SumsTo fl [x] x
  | add {l₁ l₂ : List α} {v₁ v₂ : α} : SumsTo fl l₁ v₁ → SumsTo fl l₂ v₂ → SumsTo fl (l₁ ++ l₂) (fl (v₁ + v₂))
  | perm {l l' : List α} {v : α} : l.Perm l' → SumsTo fl l v → SumsTo fl l' v

/-- What NumPy's `sum` of a list may be: the numbers are added up in some order. -/
def NpSum (fl : α → α) (npSum : List α → α) : Prop := ∀ l, SumsTo fl l (npSum l)

/-- All numbers of the list are numbers of the format. -/
def Floats (fl : α → α) (l : List α) : Prop := ∀ x ∈ l, fl x = x

/-- The sum of the absolute values. -/
def sumAbs (l : List α) : α := (l.map (fun x => |x|)).sum

/-- All values of the list are the same. -/
def AllEqual {β : Type} (l : List β) : Prop := ∀ x ∈ l, ∀ y ∈ l, x = y

/-- A square root, rounded or not: not negative, and 0 exactly at 0. -/
def RootLike (sqrt : α → α) : Prop := ∀ z, 0 ≤ z → 0 ≤ sqrt z ∧ (sqrt z = 0 ↔ z = 0)

/-- `v` may be a measure of the spread of the list: not negative, and 0 exactly if all values are the same. -/
def Spread (l : List α) (v : α) : Prop := 0 ≤ v ∧ (v = 0 ↔ AllEqual l)

/-- The same for a column with masked values: masked exactly if all values are masked. -/
def MaskedSpread (col : List (Option α)) : Option α → Prop
  | none => valid col = []
  | some v => valid col ≠ [] ∧ Spread (valid col) v

/-- A rounded square root: the square has at most the error of two roundings. -/
def RootRounding (sqrt : α → α) (u : α) : Prop := ∀ z, 0 ≤ z → |sqrt z * sqrt z - z| ≤ ((1 + u) ^ 2 - 1) * z

/-- `v` is the variance of the list up to an error of `4 M² (n - 1) / (n - ddof)` times `(1 + u) ^ (8 (n - 1) + e) - 1` (for small `u` about `(8 (n - 1) + e) u`), where `n`
is the number of values and `M` bounds their absolute values. -/
def VarError (u : α) (e : Nat) (ddof : Int) (l : List α) (v : α) : Prop :=
  ∀ M, (∀ x ∈ l, |x| ≤ M) → |v - var ddof l| ≤ 4 * M ^ 2 * ((l.length : α) - 1) / ((l.length : α) - (ddof : α)) * ((1 + u) ^ (8 * (l.length - 1) + e) - 1)

/-- The numbers up to `n`, and `n - ddof`, are numbers of the format. -/
def CountsExact (fl : α → α) (n : Nat) (ddof : Int) : Prop := (∀ j : Nat, j ≤ n → fl (j : α) = (j : α)) ∧ fl ((n : α) - (ddof : α)) = (n : α) - (ddof : α)

end Biggus.Spec

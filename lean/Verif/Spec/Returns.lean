import Verif.Spec.EvalGuards
import Verif.Spec.Agg
/-
SPECIFICATION SIDE.  What it means that evaluating a biggus array returns a given NumPy array, and that a value is an
aggregate of a column.
-/
namespace Biggus

variable {α V : Type}

/-- `a.ndarray()` (or `a.masked_array()`, according to the mode) returns the array `r`, with chunks of at most `limit`
elements.  (Nested engine evaluations beyond a certain depth never arise; for every larger bound the result is the
same.) -/
def Arr.Returns [Inhabited α] [Inhabited V] (m : Mode α V) (limit : Nat) (a : Arr α) (r : NDA V) : Prop :=
  ∃ N, ∀ n, N ≤ n → ∃ r', a.eval m limit n = .ok r' ∧ r' ≈ₐ r

/-- `engine.ndarrays(a)` (or `engine.masked_arrays(a)`) returns the array `r`. -/
def Arr.EngineReturns [Inhabited α] [Inhabited V] (m : Mode α V) (limit : Nat) (a : Arr α) (r : NDA V) : Prop :=
  ∃ N, ∀ n, N ≤ n → ∃ r', engineEval m limit n a = .ok r' ∧ r' ≈ₐ r

/-- `a` announces the shape of `x`, and evaluating it returns `x`. -/
def Arr.Yields [Inhabited α] [Inhabited V] (m : Mode α V) (limit : Nat) (a : Arr α) (x : NDA V) : Prop :=
  a.shape = .ok x.shape ∧ a.Returns m limit x

/-- `a` yields `x`; and if `a` is a broadcast, it has no leading dimensions and the array it broadcasts can be evaluated. -/
def Arr.YieldsFlat [Inhabited α] [Inhabited V] (m : Mode α V) (limit : Nat) (a : Arr α) (x : NDA V) : Prop :=
  a.notBcast = true ∧ a.Yields m limit x ∨
  ∃ a' d y, a = .bcast a' d [] ∧ a'.Yields m limit y ∧ (d.map Prod.fst).Nodup ∧ (∀ p ∈ d, y.shape[p.1]? = some 1) ∧
    y.stretch d [] ≈ₐ x

namespace Spec

/-- `v` is the aggregate of the column `col`. -/
def IsAgg [Field α] [LinearOrder α] (sqrt : α → α) : AggKind α → List α → α → Prop
  | .count, col, v => v = (col.length : α)
  | .min, col, v => IsMin col v
  | .max, col, v => IsMax col v
  | .sum, col, v => v = col.sum
  | .mean _, col, v => v = mean col
  | .std ddof, col, v => v = sqrt (var ddof col)
  | .var ddof, col, v => 0 ≤ var ddof col → v = var ddof col

/-- `v` is the aggregate of the column `col` of masked data (`none` = masked). -/
def IsAggMasked [Field α] [LinearOrder α] (sqrt : α → α) : AggKind α → List (Option α) → Option α → Prop
  | .count, col, v => v = some ((valid col).length : α)
  | .min, col, v => match v with
    | none => valid col = []
    | some x => IsMin (valid col) x
  | .max, col, v => match v with
    | none => valid col = []
    | some x => IsMax (valid col) x
  | .sum, col, v => v = if valid col = [] then none else some (valid col).sum
  | .mean mdtol, col, v => v = if valid col = [] ∨
      (mdtol < 1 ∧ mdtol < ((col.length - (valid col).length : Nat) : α) / (col.length : α)) then none else some (mean (valid col))
  | .std ddof, col, v => v = if valid col = [] ∨ ((valid col).length : α) - (ddof : α) = 0 ∨ var ddof (valid col) < 0 then none
      else some (sqrt (var ddof (valid col)))
  | .var ddof, col, v => v = if valid col = [] ∨ ((valid col).length : α) - (ddof : α) = 0 ∨ var ddof (valid col) < 0 then none
      else some (var ddof (valid col))

/-- `r` is the aggregate of `x` along `axis`: `isAgg col v` says that `v` is the aggregate of the column `col`. -/
def AggregateOf {V : Type} (isAgg : List V → V → Prop) (x : NDA V) (axis : Nat) (r : NDA V) : Prop :=
  r.shape = x.shape.eraseIdx axis ∧ ∀ idx, InB r.shape idx → isAgg (x.column axis idx) (r.get idx)

/-- `x[k1][k2]...[kn]`. -/
def indexAll {β : Type} (x : NDA β) (kss : List (List Key)) : Res (NDA β) := kss.foldlM npIndex x

end Spec
end Biggus

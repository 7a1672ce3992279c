import Verif.Spec.EvalGuards
/-
SPECIFICATION SIDE.  In which pieces the engine reads a column.
-/
namespace Biggus.Spec

variable {V : Type}

/-- The column cut into consecutive pieces of `step` values; the last one may be shorter. -/
def inPieces (step : Nat) (col : List V) : List (List V) :=
  (List.range ((col.length + step - 1) / step)).map (fun k => (col.drop (k * step)).take step)

/-- How a column is cut along an axis with `p` elements per value (the dimensions to the right of the axis), for chunks of at most `limit` elements: not at all if
everything fits, else into pieces of as many values as fit, but at least one. -/
def enginePieces (limit p : Nat) (col : List V) : List (List V) :=
  if col.length * p ≤ limit then [col] else inPieces (max 1 (limit / p)) col

/-- The values that `std` and `var` of unmasked data take into account: leading pieces of one value are forgotten, except the last piece. -/
def stdValues : List (List V) → List V
  | [] => []
  | [c] => c
  | c :: d :: cs => if c.length = 1 then stdValues (d :: cs) else (c :: d :: cs).flatten

end Biggus.Spec

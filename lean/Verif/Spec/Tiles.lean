import Mathlib.Init
/-
SPECIFICATION SIDE: positions along a concatenation.
-/
namespace Biggus
namespace Spec

/-- The positions `r` along the concatenation of parts of lengths `lens`, rearranged part by part: first those in the first part (in the order of `r`), then those in the second... -/
def byTile (lens : List Nat) (r : List Int) : List Int :=
  (List.range lens.length).flatMap (fun t => r.filter (fun p => decide (((lens.take t).sum : Int) ≤ p ∧ p < ((lens.take (t + 1)).sum : Int))))

end Spec

end Biggus

import Verif.Spec.Clean
/-
SPECIFICATION SIDE.  Keys on the dimensions of length 1 that a `NewAxesArray` inserted (C08): which dimensions are new, which keys ask for a length
other than one there, and at which dimension of the result.
-/
namespace Biggus

/-- Which dimensions of `x.insertAxes na` are new: `na[0]` new ones, the first of `x`, `na[1]` new ones, the second of `x`, ... -/
def newDims : List Nat → List Bool
  | [] => []
  | [c] => List.replicate c true
  | c :: ns => List.replicate c true ++ false :: newDims ns

/-- The keys on new dimensions are integers, slices or tuples. -/
def NewKeys : List Bool → List Key → Prop
  | _, [] => True
  | fs, .newaxis :: ks => NewKeys fs ks
  | true :: fs, k :: ks => ((∃ i, k = .int i) ∨ (∃ s, k = .slice s) ∨ (∃ l, k = .tuple l)) ∧ NewKeys fs ks
  | false :: fs, _ :: ks => NewKeys fs ks
  | [], _ :: _ => True

/-- The same keys with `:` for every slice or tuple on a new dimension. -/
def keepNew : List Bool → List Key → List Key
  | _, [] => []
  | fs, .newaxis :: ks => .newaxis :: keepNew fs ks
  | true :: fs, k :: ks => (if k.isScalar then k else Key.full) :: keepNew fs ks
  | false :: fs, k :: ks => k :: keepNew fs ks
  | [], k :: ks => k :: ks

/-- How many elements a key asks for on a dimension of length 1: a slice, unless it is one; a tuple. -/
def Key.asks : Key → Option Nat
  | .slice s => match s.range 1 with
    | .ok r => if r.length = 1 then none else some r.length
    | .error _ => none
  | .tuple l => some l.length
  | _ => none

/-- What the keys ask for on the new dimensions, as (dimension, length), where the dimension is `p` plus the number of earlier keys with `counts`. -/
def cutsNew (counts : Key → Bool) : Nat → List Bool → List Key → List (Nat × Nat)
  | _, _, [] => []
  | p, fs, .newaxis :: ks => cutsNew counts (p + 1) fs ks
  | p, true :: fs, k :: ks => k.asks.toList.map (fun n => (p, n)) ++ cutsNew counts (if counts k then p + 1 else p) fs ks
  | p, false :: fs, k :: ks => cutsNew counts (if counts k then p + 1 else p) fs ks
  | _, [], _ :: _ => []

/-- What the keys ask for, at the dimensions of the result of NumPy: an integer key makes no dimension. -/
def cutsNumpy (na : List Nat) (fk : List Key) : List (Nat × Nat) := cutsNew (fun k => !k.isScalar) 0 (newDims na) fk

/-- What the keys ask for, at the positions of the keys themselves. -/
def cutsAtKeys (na : List Nat) (fk : List Key) : List (Nat × Nat) := cutsNew (fun _ => true) 0 (newDims na) fk

end Biggus

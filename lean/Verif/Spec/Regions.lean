import Verif.Spec.NDArray
/-
SPECIFICATION SIDE.  Regions of an array addressed by one key per dimension.
-/
namespace Biggus

/-- The positions selected by one key on an axis of length `n` (empty if the key is invalid). -/
def keyPos (k : Key) (n : Nat) : List Nat :=
  match resolve1 k n with
  | .ok (.at i) => [i]
  | .ok (.pick l) => l
  | _ => []

/-- Is the element `idx` of an array of the given shape in the region addressed by the keys? -/
def inRegion : List Key → List Nat → List Nat → Bool
  | [], [], [] => true
  | k :: ks, n :: ns, i :: is => decide (i ∈ keyPos k n) && inRegion ks ns is
  | _, _, _ => false

/-- Number of elements in the region addressed by the keys. -/
def regionSize : List Key → List Nat → Nat
  | k :: ks, n :: ns => (keyPos k n).length * regionSize ks ns
  | _, _ => 1

/-- Start position of a key on an axis of length `n`. -/
def keyStart (k : Key) (n : Nat) : Nat := (keyPos k n).headD 0

end Biggus

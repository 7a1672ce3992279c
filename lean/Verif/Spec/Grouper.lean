import Verif.Py
import Mathlib.Data.List.Forall2
/-
SPECIFICATION for the key grouper: what it means for slices to partition a dimension, and for groups of slices to refine it.
Everything is said in terms of the positions `sel n k` that Python selects when a sequence of length `n` is indexed with the slice `k`.
-/
namespace Biggus

/-- The positions selected by a slice in a dimension of length `n`. -/
def sel (n : Nat) (k : PySlice) : List Int :=
  match k.range n with
  | .ok l => l
  | .error _ => []

/-- A slice as produced by chunking: it selects something, its step is 1 and its bounds are within the dimension (from either end). -/
structure Proper (n : Nat) (k : PySlice) : Prop where
  step : k.step = none ∨ k.step = some 1
  start : ∀ x, k.start = some x → -(n : Int) ≤ x ∧ x ≤ n
  stop : ∀ x, k.stop = some x → -(n : Int) ≤ x ∧ x ≤ n
  some : sel n k ≠ []

/-- The slices partition the dimension, in any order; the same part may be listed several times (the keys of a multi-dimensional array repeat the slices
of one dimension). -/
structure Partition (n : Nat) (keys : List PySlice) : Prop where
  proper : ∀ k ∈ keys, Proper n k
  cover : ∀ q : Nat, q < n → ∃ k ∈ keys, (q : Int) ∈ sel n k
  disjoint : ∀ k ∈ keys, ∀ k' ∈ keys, ∀ q, q ∈ sel n k → q ∈ sel n k' → sel n k = sel n k'

/-- The slice of a group. -/
def asSlice (t : Option Int × Option Int × Option Int) : PySlice := ⟨t.1, t.2.1, t.2.2⟩

/-- A grouping of the slices of several inputs. -/
structure Grouping (n : Nat) (inputs : List (List PySlice)) (g : List ((Option Int × Option Int × Option Int) × List (List PySlice))) : Prop where
  /-- the groups follow each other and tile the dimension -/
  tile : g.flatMap (fun x => sel n (asSlice x.1)) = (List.range n).map Int.ofNat
  /-- no group is empty -/
  nonempty : ∀ x ∈ g, sel n (asSlice x.1) ≠ []
  /-- a group has a list for every input: the slices of the input that lie within the group -/
  entries : ∀ x ∈ g, List.Forall₂ (fun (keys entry : List PySlice) =>
    (entry.map (sel n)).Perm ((keys.filter (fun k => decide (∀ q ∈ sel n k, q ∈ sel n (asSlice x.1)))).map (sel n))) inputs x.2
  /-- these slices cover the group -/
  covers : ∀ x ∈ g, ∀ entry ∈ x.2, ∀ q ∈ sel n (asSlice x.1), ∃ k ∈ entry, q ∈ sel n k
  /-- no slice is lost, and none is repeated -/
  all : ∀ j, j < inputs.length →
    (g.flatMap (fun x => (x.2.getD j []).map (sel n))).Perm ((inputs.getD j []).map (sel n))
  /-- the groups are as small as possible: wherever every input has a slice that ends, a group ends -/
  finest : ∀ x ∈ g, ∀ q ∈ sel n (asSlice x.1), (∀ keys ∈ inputs, ∃ k ∈ keys, (sel n k).getLast? = some q) →
    (sel n (asSlice x.1)).getLast? = some q

/-- The slice of dimension `d` of a key. -/
abbrev dimOf (key : List PySlice) (d : Nat) : PySlice := key.getD d PySlice.full

/-- A point of an array of the given shape. -/
def InShape (shape pt : List Nat) : Prop := pt.length = shape.length ∧ ∀ d, d < shape.length → pt.getD d 0 < shape.getD d 0

/-- The point lies in the region that the key selects. -/
def InKey (shape : List Nat) (key : List PySlice) (pt : List Nat) : Prop :=
  ∀ d, d < shape.length → (pt.getD d 0 : Int) ∈ sel (shape.getD d 0) (dimOf key d)

/-- The region of one key lies within the region of the other. -/
def Within (shape : List Nat) (key region : List PySlice) : Prop :=
  ∀ d, d < shape.length → ∀ q ∈ sel (shape.getD d 0) (dimOf key d), q ∈ sel (shape.getD d 0) (dimOf region d)

instance (shape : List Nat) (key : List PySlice) (pt : List Nat) : Decidable (InKey shape key pt) := by unfold InKey; infer_instance
instance (shape : List Nat) (key region : List PySlice) : Decidable (Within shape key region) := by unfold Within; infer_instance

/-- The keys of a chunked array, in any order: boxes that cover the array, such that in every dimension two of them select the same or disjoint positions. -/
structure Grid (shape : List Nat) (keys : List (List PySlice)) : Prop where
  rank : ∀ key ∈ keys, key.length = shape.length
  proper : ∀ key ∈ keys, ∀ d, d < shape.length → Proper (shape.getD d 0) (dimOf key d)
  disjoint : ∀ key ∈ keys, ∀ key' ∈ keys, ∀ d, d < shape.length → ∀ q, q ∈ sel (shape.getD d 0) (dimOf key d) →
    q ∈ sel (shape.getD d 0) (dimOf key' d) → sel (shape.getD d 0) (dimOf key d) = sel (shape.getD d 0) (dimOf key' d)
  cover : ∀ pt, InShape shape pt → ∃ key ∈ keys, InKey shape key pt

/-- A grouping of the keys of several inputs: a dictionary from regions to a list of keys for each input. -/
structure KeyGrouping (shape : List Nat) (inputs : List (List (List PySlice)))
    (g : List (List (Option Int × Option Int × Option Int) × List (List (List PySlice)))) : Prop where
  /-- a region has a slice for each dimension -/
  rank : ∀ x ∈ g, x.1.length = shape.length
  /-- the regions are the keys of a dictionary -/
  distinct : (g.map Prod.fst).Nodup
  /-- the regions tile the array: every point is in exactly one of them -/
  tile : ∀ pt, InShape shape pt → g.countP (fun x => decide (InKey shape (x.1.map asSlice) pt)) = 1
  /-- the lists of a group are, for each input, the keys within the region, in their original order -/
  entries : ∀ x ∈ g, x.2 = inputs.map (fun keys => keys.filter (fun key => decide (Within shape key (x.1.map asSlice))))
  /-- they cover the region -/
  covers : ∀ x ∈ g, ∀ keys ∈ x.2, ∀ pt, InShape shape pt → InKey shape (x.1.map asSlice) pt → ∃ key ∈ keys, InKey shape key pt
  /-- each key is in exactly one group -/
  once : ∀ keys ∈ inputs, ∀ key ∈ keys, g.countP (fun x => decide (Within shape key (x.1.map asSlice))) = 1
  /-- the groups are as small as possible: wherever every input has a key that ends in a dimension, the groups end -/
  finest : ∀ x ∈ g, ∀ d, d < shape.length → ∀ q ∈ sel (shape.getD d 0) (dimOf (x.1.map asSlice) d),
    (∀ keys ∈ inputs, ∃ key ∈ keys, (sel (shape.getD d 0) (dimOf key d)).getLast? = some q) →
    (sel (shape.getD d 0) (dimOf (x.1.map asSlice) d)).getLast? = some q

end Biggus

import Verif.Model.Group
import Verif.Spec.Schedules
import Verif.Spec.EvalGuards
/-
SPECIFICATION SIDE.  Groups of array objects evaluated together (`biggus.ndarrays([...])`).
-/
namespace Biggus

variable {α V : Type}

/-- Objects with the same `id` are the same object: `heap` has the object with a given `id`. -/
def AObj.inHeap (heap : Nat → AObj α) : AObj α → Prop
  | .prod i a => heap i = .prod i a
  | .agg i x axis k => heap i = .agg i x axis k ∧ x.inHeap heap
  | .elem1 i x op => heap i = .elem1 i x op ∧ x.inHeap heap
  | .elem2 i x y op => heap i = .elem2 i x y op ∧ x.inHeap heap ∧ y.inHeap heap

/-- Producers are arrays without a `streams_handler`. -/
def AObj.Proper : AObj α → Prop
  | .prod _ a => a.isProd = true
  | .agg _ x _ _ => x.Proper
  | .elem1 _ x _ => x.Proper
  | .elem2 _ x y _ => x.Proper ∧ y.Proper

/-- If the array is asked for its chunks in the order `o`, every object in it is asked for its chunks in the order which `ord`
has for its `id`. -/
def AObj.ordered (ord : Nat → List Nat) : AObj α → List Nat → Prop
  | .prod i _, o => ord i = o
  | .agg i x axis _, o => ord i = o ∧ x.ordered ord (aggOrder axis o)
  | .elem1 i x _, o => ord i = o ∧ x.ordered ord o
  | .elem2 i x y _, o => ord i = o ∧ x.ordered ord o ∧ y.ordered ord o

/-- The `id`s of an array object and everything it is computed from. -/
def AObj.ids : AObj α → List Nat
  | .prod i _ => [i]
  | .agg i x _ _ => x.ids ++ [i]
  | .elem1 i x _ => x.ids ++ [i]
  | .elem2 i x y _ => x.ids ++ y.ids ++ [i]

/-- Consecutive repetitions removed. -/
def dropRepeats : List (List Key) → List (List Key)
  | k :: k' :: r => if k = k' then dropRepeats (k' :: r) else k :: dropRepeats (k' :: r)
  | l => l

/-- The keys of the chunks of a stream, in order. -/
def Skel.keys (limit : Nat) : Skel → List Nat → List (List Key)
  | .prod s, o => chunkIndexGen limit s o
  | .agg s axis, o => dropRepeats ((s.keys limit (aggOrder axis o)).map (fun k => k.eraseIdx axis))

/-- The operands of every element-wise operation are cut in equally many chunks. -/
def Arr.aligned (limit : Nat) : Arr α → List Nat → Prop
  | .agg a axis _, o => a.aligned limit (aggOrder axis o)
  | .elem1 a _, o => a.aligned limit o
  | .elem2 a b _, o => a.aligned limit o ∧ b.aligned limit o ∧ (a.skel.keys limit o).length = (b.skel.keys limit o).length
  | _, _ => True

/-- The operands of every element-wise operation are streamed in the same way. -/
def Arr.samePace : Arr α → Prop
  | .agg a _ _ => a.samePace
  | .elem1 a _ => a.samePace
  | .elem2 a b _ => a.samePace ∧ b.samePace ∧ a.skel = b.skel
  | _ => True

/-- Everything the array is streamed from is read in one chunk: no producer needs to be split for chunks of at most `limit`
elements. -/
def Arr.oneChunk (limit : Nat) : Arr α → Prop
  | .agg a _ _ => a.oneChunk limit
  | .elem1 a _ => a.oneChunk limit
  | .elem2 a b _ => a.oneChunk limit ∧ b.oneChunk limit
  | a => ∀ i, ((okOr a.shape []).drop i).prod ≤ limit

/-- The array objects `xs` can be evaluated together: `id`s identify objects, and every object is asked for its chunks in one
order only. -/
structure Compatible (xs : List (AObj α)) : Prop where
  proper : ∀ x ∈ xs, x.Proper
  coherent : ∃ heap, ∀ x ∈ xs, x.inHeap heap
  ordered : ∃ ord, ∀ x ∈ xs, x.ordered ord (List.range (okOr x.toArr.shape []).length)

/-- `engine.ndarrays(*xs)` / `engine.masked_arrays(*xs)` (with queues of size `cap`) has the outcome `out` in some complete
execution: `some (.ok results)`, `some (.error e)` (an exception), or `none` (it hangs). -/
def GroupOutcome [Inhabited α] [Inhabited V] (m : Mode α V) (limit cap : Nat) (evalP : Arr α → Res (NDA V)) (xs : List (AObj α))
    (out : Option (Res (List (NDA V)))) : Prop :=
  match buildGroup m limit evalP xs ⟨[], []⟩ with
  | .error e => out = some (.error e)
  | .ok (rs, b) => ∃ n c, b.nodes.Steps b.nodes.outs cap n b.nodes.init c ∧ b.nodes.Stuck b.nodes.outs cap c ∧ out = groupOutcome rs c

end Biggus

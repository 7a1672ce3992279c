import Verif.Model.Threads
import Verif.Spec.Groups
import Verif.Spec.Built
/-
SPECIFICATION SIDE.  Executions of `.ndarray()` / `.masked_array()` with threads: at every call of the engine any schedule of its
threads is possible, and so it is at every call that a producer thread makes in turn to read one of its chunks.
-/
namespace Biggus

variable {α V : Type}

/-- One call `engine.ndarrays(*xs)` / `engine.masked_arrays(*xs)` has the result `res`: for some array objects `ys` with `P ys` that
are the arrays `xs` (`P` says what they may share), and some complete execution of the threads.  `R b r`: evaluating `b` can give
`r`; the producer threads evaluate their chunks in this way.  A call that hangs is represented by an error (any one). -/
def EngineCall [Inhabited α] [Inhabited V] (m : Mode α V) (limit : Nat) (P : List (AObj α) → Prop) (R : Arr α → Res (NDA V) → Prop)
    (xs : List (Arr α)) (res : Res (List (NDA V))) : Prop :=
  ∃ (evalP : Arr α → Res (NDA V)) (ys : List (AObj α)) (out : Option (Res (List (NDA V)))), (∀ b, R b (evalP b)) ∧
    ys.map AObj.toArr = xs ∧ P ys ∧ GroupOutcome m limit queueSize evalP ys out ∧
    (out = some res ∨ out = none ∧ ∃ e, res = .error e)

/-- `a.ndarray()` / `a.masked_array()` has the result `r` in some execution.  The first number bounds how deeply calls of the engine
are nested (Python's recursion limit). -/
def Arr.Runs [Inhabited α] [Inhabited V] (m : Mode α V) (limit : Nat) (P : List (AObj α) → Prop) : Nat → Arr α → Res (NDA V) → Prop
  | 0, a, r => r = a.evalBy m (fun _ => .error .runtime)
  | n + 1, a, r => ∃ engs : List (Arr α) → Res (List (NDA V)), (∀ xs, EngineCall m limit P (Arr.Runs m limit P n) xs (engs xs)) ∧
      r = a.evalBy m engs

/-- What the arrays of one call of the engine may share: nothing; or anything, as long as every object is asked for its chunks in one
order only and operands are streamed in the same way; or anything, if everything is read in one chunk. -/
def WellShared (limit : Nat) (ys : List (AObj α)) : Prop :=
  Compatible ys ∧ ((ys.flatMap AObj.ids).Nodup ∨ (∀ y ∈ ys, y.toArr.samePace) ∨ ∀ y ∈ ys, y.toArr.oneChunk limit)

end Biggus

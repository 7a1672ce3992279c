import Verif.Model.Dask
import Verif.Spec.Groups
/-
SPECIFICATION SIDE.  How dask executes a graph, and for which arrays the graph is claimed to be right.
-/
namespace Biggus

variable {α V : Type}

/-- What dask has computed so far: the values of some tasks. -/
abbrev Done (V : Type) := Nat → Option (DVal V)

/-- Task `i` can be executed now (it has not been executed, its dependencies have) and gives `r`. -/
def DaskReady [Inhabited V] (m : Mode α V) (evalP : Arr α → Res (NDA V)) (tasks : List (DTask α)) (d : Done V) (i : Nat) (r : Res (DVal V)) : Prop :=
  ∃ t args, tasks[i]? = some t ∧ d i = none ∧ t.deps.mapM d = some args ∧ t.run m evalP args = r

/-- Executing a graph: dask executes tasks that can be executed, in whatever order (or at the same time: tasks only see the values of their dependencies). -/
inductive DaskSteps [Inhabited V] (m : Mode α V) (evalP : Arr α → Res (NDA V)) (tasks : List (DTask α)) : Nat → Done V → Done V → Prop
  | refl (d : Done V) : DaskSteps m evalP tasks 0 d d
  | step {n : Nat} {d e : Done V} {i : Nat} {w : DVal V} : DaskReady m evalP tasks d i (.ok w) → DaskSteps m evalP tasks n (fun j => if j = i then some w else d j) e →
      DaskSteps m evalP tasks (n + 1) d e

/-- `dask_getter(graph, ids)`: the values of the tasks `ids` once they have been computed, or the exception of a task. -/
def DaskGets [Inhabited V] (m : Mode α V) (evalP : Arr α → Res (NDA V)) (tasks : List (DTask α)) (ids : List Nat) (out : Res (List (DVal V))) : Prop :=
  ∃ n d, DaskSteps m evalP tasks n (fun _ => none) d ∧
    match out with
    | .ok rs => ids.mapM d = some rs
    | .error e => ∃ i, DaskReady m evalP tasks d i (.error e)

/-- `DaskEngine.ndarrays(*xs)` / `masked_arrays(*xs)` (dask_engine.py:408-414) has the outcome `out` in some execution. -/
def DaskOutcome [Inhabited α] [Inhabited V] (m : Mode α V) (limit : Nat) (evalP : Arr α → Res (NDA V)) (xs : List (AObj α)) (out : Res (List (DVal V))) : Prop :=
  match daskGraph m limit xs ⟨[], []⟩ [] with
  | .error e => out = .error e
  | .ok (ids, b) => DaskGets m evalP b.tasks ids out

/-- `key_grouper` gives up after 10000 rounds (key_grouper.py:67-69): the result of every aggregation and element-wise operation is cut into at most 9999 parts
along each dimension. -/
def Arr.fewChunks (limit : Nat) : Arr α → Prop
  | .agg a axis _ => (∀ c ∈ (a.skel.cuts limit).eraseIdx axis, c.length ≤ 9999) ∧ a.fewChunks limit
  | .elem1 a _ => (∀ c ∈ a.skel.cuts limit, c.length ≤ 9999) ∧ a.fewChunks limit
  | .elem2 a b _ => (∀ c ∈ a.skel.cuts limit, c.length ≤ 9999) ∧ a.fewChunks limit ∧ b.fewChunks limit
  | _ => True

end Biggus

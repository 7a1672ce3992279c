import Verif.Model.Engine
/-
SPECIFICATION SIDE.  Executions of the threaded engine under all schedules.
-/
namespace Biggus

variable {C R : Type}

/-- `n` steps, of arbitrary threads, lead from one state to another. -/
inductive Graph.Steps (G : Graph C R) (outs : Nat → List QId) (cap : Nat) : Nat → Conf C R → Conf C R → Prop
  | refl (c) : Graph.Steps G outs cap 0 c c
  | step {n c d e} (i : Nat) : G.step outs cap i c = some d → Graph.Steps G outs cap n d e → Graph.Steps G outs cap (n + 1) c e

/-- No thread can make a step: everything has terminated, or what has not hangs for ever. -/
def Graph.Stuck (G : Graph C R) (outs : Nat → List QId) (cap : Nat) (c : Conf C R) : Prop := ∀ i, G.step outs cap i c = none

/-- Sources are numbered before the nodes that use them; a consumer has at least one. -/
def Graph.Valid (G : Graph C R) : Prop :=
  (∀ i, ∀ s ∈ G.sources i, s < i) ∧ ∀ (i : Nat) (s : List Nat) (o : Obj C R), G[i]? = some (.cons s o) → s ≠ []

/-- `outs j` are the queues that node `j` feeds, in any order. -/
def Graph.Wired (G : Graph C R) (outs : Nat → List QId) : Prop :=
  ∀ j, (outs j).Nodup ∧ ∀ q : QId, q ∈ outs j ↔ q.2 < (G.sources q.1).length ∧ G.writer q = j

/-- Every node feeds at most one queue (no array is used twice). -/
def Graph.Tree (G : Graph C R) : Prop := ∀ q q' : QId, q.2 < (G.sources q.1).length → q'.2 < (G.sources q'.1).length →
  G.writer q = G.writer q' → q = q'

/-- Thread `i` has returned from `run`. -/
def Conf.halted (c : Conf C R) (i : Nat) : Prop := c.loc i = .aborted ∨ ∃ o, c.loc i = .finished o

/-! ### The sequential meaning of a graph -/

/-- The tokens a producer puts on its output queues, all in all. -/
def prodTokens : List (Res C) → List (Tok C)
  | [] => [.finished]
  | .ok c :: r => .chunk c :: prodTokens r
  | .error _ :: _ => [.abort]

/-- How a producer ends. -/
def prodEnd : List (Res C) → Thread C R
  | [] => .finished none
  | .ok _ :: r => prodEnd r
  | .error _ :: _ => .aborted

/-- The rounds of a consumer: one token from every input. -/
def rounds {β : Type} : List (List β) → List (List β)
  | [] => []
  | [l] => l.map (fun t => [t])
  | l :: ls => List.zipWith List.cons l (rounds ls)

/-- The tokens a consumer puts on its output queues, all in all, and how it ends, given its rounds. -/
def consRun (o : Obj C R) : List (List (Tok C)) → List (Tok C) × Thread C R
  | [] => ([], .consumer o [])
  | r :: rs =>
    if r.any Tok.isAbort then ([.abort], .aborted)
    else if r.any Tok.isFinished then
      match o.finalise o.st with
      | .error _ => ([.abort], .aborted)
      | .ok c => (outTok c ++ [.finished], .finished (some o))
    else
      match o.process o.st (r.filterMap Tok.chunk?) with
      | .error _ => ([.abort], .aborted)
      | .ok (st', c) => (outTok c ++ (consRun { o with st := st' } rs).1, (consRun { o with st := st' } rs).2)

/-- The tokens of a node and its end, given the tokens of its sources. -/
def nodeRun (toks : Nat → List (Tok C)) : GNode C R → List (Tok C) × Thread C R
  | .prod todo => (prodTokens todo, prodEnd todo)
  | .cons s o => consRun o (rounds (s.map toks))

/-- Tokens and end of the nodes of a graph, evaluated one after the other. -/
def runAll : List (GNode C R) → List (List (Tok C) × Thread C R) → List (List (Tok C) × Thread C R)
  | [], acc => acc
  | g :: gs, acc => runAll gs (acc ++ [nodeRun (fun i => (acc[i]?.map Prod.fst).getD []) g])

/-- All tokens put by node `i`, if the nodes are evaluated one after the other. -/
def Graph.tokens (G : Graph C R) (i : Nat) : List (Tok C) := ((runAll G [])[i]?.map Prod.fst).getD []

/-- The state in which node `i` ends, if the nodes are evaluated one after the other. -/
def Graph.final (G : Graph C R) (i : Nat) : Thread C R := ((runAll G [])[i]?.map Prod.snd).getD .aborted

/-! ### Clocks -/

/-- The output of a consumer with times: a chunk has the time of the round in which it is put, so has the end, but one later if
`finalise` gives a chunk. -/
def consTimed (o : Obj C R) : List (List (Tok C)) → List Nat → List (Tok C × Nat)
  | r :: rs, τ :: τs =>
    if r.any Tok.isAbort then [(.abort, τ)]
    else if r.any Tok.isFinished then
      match o.finalise o.st with
      | .error _ => [(.abort, τ)]
      | .ok c => (outTok c).map (fun t => (t, τ)) ++ [(.finished, τ + (outTok c).length)]
    else
      match o.process o.st (r.filterMap Tok.chunk?) with
      | .error _ => [(.abort, τ)]
      | .ok (st', c) => (outTok c).map (fun t => (t, τ)) ++ consTimed { o with st := st' } rs τs
  | _, _ => []

/-- A clock: every token of every node has a time, such that the times of a node's tokens increase, the tokens a consumer reads in
one round have the same time, and its output has the time of the round (`QUEUE_FINISHED` one later, after a last chunk).  Nothing is assumed about
the real time at which anything happens; a clock shows that the nodes of the graph can proceed at the same pace. -/
structure Graph.Clocked (G : Graph C R) (T : Nat → List Nat) : Prop where
  prod : ∀ (i : Nat) (todo : List (Res C)), G[i]? = some (.prod todo) → (T i).length = (prodTokens todo).length ∧ (T i).Pairwise (· < ·)
  same : ∀ (i : Nat) (s : List Nat) (o : Obj C R), G[i]? = some (.cons s o) → ∀ j ∈ s, T j = T (s.headD 0)
  cons : ∀ (i : Nat) (s : List Nat) (o : Obj C R), G[i]? = some (.cons s o) → T i = (consTimed o (rounds (s.map G.tokens)) (T (s.headD 0))).map Prod.snd

/-- No node fails. -/
def Graph.NoFailure (G : Graph C R) : Prop := ∀ i, Tok.abort ∉ G.tokens i

end Biggus

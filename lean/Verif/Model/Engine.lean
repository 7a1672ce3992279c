import Verif.Model.Eval
/-
MODEL of the threaded engine (_init.py:89-446): one thread per node of the expression graph, connected by bounded
queues.  A step of the system is one step of one thread: taking a token from a queue (blocking while it is empty),
putting a token on a queue (blocking while it is full), or a local computation.  Any thread that can move may move next.

Simplifications: `task_done` has no effect (nobody joins a queue); a local computation (reading data, processing a chunk) is one
step and cannot be interrupted, which is immaterial because threads share nothing but the queues; `queue.put`/`get` do not
raise; data sources give the same data whenever they are read.
-/
namespace Biggus

/-- What travels on a queue: a chunk, `QUEUE_FINISHED` or `QUEUE_ABORT` (_init.py:89-93). -/
inductive Tok (C : Type)
  | chunk (c : C)
  | finished
  | abort
deriving DecidableEq

/-- A queue is identified by the node that reads it and the number of that node's input (`add_input_nodes` creates one queue
for every input, _init.py:222-232). -/
abbrev QId := Nat × Nat

/-- What a thread does next. -/
inductive Act (S : Type 1) (C : Type) : Type 1
  | get (q : QId) (k : Tok C → S)
  | put (q : QId) (t : Tok C) (s : S)
  | tau (s : S)
  | halt

/-- The object behind a `ConsumerNode`: its current state, `process_chunks` (new state and the chunk to be output, if
any), `finalise`, and (for an `NdarrayNode`) the `result`.  `stored` has no effect on executions: it is the number of elements of the
partial results kept in the state (the arrays an aggregation sets up by `bootstrap(shape)`, 2289-2290; a variance has three numbers per element), for statements about memory. -/
structure Obj (C R : Type) : Type 1 where
  σ : Type
  st : σ
  process : σ → List C → Res (σ × Option C)
  finalise : σ → Res (Option C)
  result : σ → Option R
  stored : σ → Nat := fun _ => 0

/-- Where a thread is in its `run` method.
* `producer todo`: at the head of the loop of `ProducerNode.run` (_init.py:175-204); `todo` is what reading the remaining
  chunks will give
* `consumer o got`: in the loop of `ConsumerNode.run` (261-263); `got` are the tokens read in this round
* `sending toks k next`: putting each of `toks` on all output queues (`output` 115-124, `abort` 102-105, 201-204, 277-278); the
  first of them has already been put on the first `k` queues
* `finished o`, `aborted`: `run` has returned (or raised); after an abort the `result` of an `NdarrayNode` is `None` (318-319) -/
inductive Thread (C R : Type) : Type 1
  | producer (todo : List (Res C))
  | consumer (o : Obj C R) (got : List (Tok C))
  | sending (toks : List (Tok C)) (k : Nat) (next : Thread C R)
  | finished (o : Option (Obj C R))
  | aborted

variable {C R : Type}

/-- `QUEUE_ABORT` and `QUEUE_FINISHED` tests. -/
def Tok.isAbort : Tok C → Bool
  | .abort => true
  | _ => false

def Tok.isFinished : Tok C → Bool
  | .finished => true
  | _ => false

def Tok.chunk? : Tok C → Option C
  | .chunk c => some c
  | _ => none

/-- The tokens that put a chunk on the output queues, nothing for `None` (`output`, _init.py:115-124). -/
def outTok : Option C → List (Tok C)
  | some c => [.chunk c]
  | none => []

/-- The body of the loop of `ConsumerNode.run` after one token from every input has been read (_init.py:253-278). -/
def react (o : Obj C R) (got : List (Tok C)) : Thread C R :=
  if got.any Tok.isAbort then .sending [.abort] 0 .aborted
  else if got.any Tok.isFinished then
    match o.finalise o.st with
    | .error _ => .sending [.abort] 0 .aborted
    | .ok c => .sending (outTok c ++ [.finished]) 0 (.finished (some o))
  else
    match o.process o.st (got.filterMap Tok.chunk?) with
    | .error _ => .sending [.abort] 0 .aborted
    | .ok (st', c) => .sending (outTok c) 0 (.consumer { o with st := st' } [])

/-- The next step of a thread with the given input and output queues. -/
def threadAct (ins outs : List QId) : Thread C R → Act (Thread C R) C
  | .producer [] => .tau (.sending [.finished] 0 (.finished none))                 -- 202-204
  | .producer (.ok c :: r) => .tau (.sending [.chunk c] 0 (.producer r))           -- 193-198
  | .producer (.error _ :: _) => .tau (.sending [.abort] 0 .aborted)               -- 199-201
  | .consumer o got => match ins[got.length]? with
    | some q => .get q (fun t => .consumer o (got ++ [t]))                         -- 264
    | none => .tau (react o got)
  | .sending [] _ next => .tau next
  | .sending (t :: ts) k next => match outs[k]? with
    | some q => .put q t (.sending (t :: ts) (k + 1) next)
    | none => .tau (.sending ts 0 next)
  | .finished _ => .halt
  | .aborted => .halt

/-- A node of the graph: a data producer (what reading its chunks gives), or a consumer with its input nodes. -/
inductive GNode (C R : Type) : Type 1
  | prod (todo : List (Res C))
  | cons (sources : List Nat) (o : Obj C R)

def GNode.sources : GNode C R → List Nat
  | .prod _ => []
  | .cons s _ => s

/-- The expression evaluation graph: nodes are numbered, sources come first. -/
abbrev Graph (C R : Type) := List (GNode C R)

def Graph.sources (G : Graph C R) (i : Nat) : List Nat := (G[i]?.map GNode.sources).getD []

/-- The input queues of node `i` (_init.py:230). -/
def Graph.ins (G : Graph C R) (i : Nat) : List QId := (List.range (G.sources i).length).map (fun k => (i, k))

/-- The node a queue is an output of (_init.py:231-232). -/
def Graph.writer (G : Graph C R) (q : QId) : Nat := (G.sources q.1).getD q.2 0

/-- How a thread starts (`thread`, _init.py:130-135). -/
def GNode.start : GNode C R → Thread C R
  | .prod todo => .producer todo
  | .cons _ o => .consumer o []

/-- A state of the whole system: where every thread is and what is on every queue. -/
structure Conf (C R : Type) : Type 1 where
  loc : Nat → Thread C R
  que : QId → List (Tok C)

/-- All threads at their start, all queues empty. -/
def Graph.init (G : Graph C R) : Conf C R :=
  ⟨fun i => (G[i]?.map GNode.start).getD .aborted, fun _ => []⟩

/-- Thread `i` makes a step, if it can.  `outs j` are the `output_queues` of node `j`; `cap` is the capacity of the queues. -/
def Graph.step (G : Graph C R) (outs : Nat → List QId) (cap : Nat) (i : Nat) (c : Conf C R) : Option (Conf C R) :=
  match threadAct (G.ins i) (outs i) (c.loc i) with
  | .halt => none
  | .tau s => some ⟨Function.update c.loc i s, c.que⟩
  | .get q k => match c.que q with
    | [] => none
    | t :: r => some ⟨Function.update c.loc i (k t), Function.update c.que q r⟩
  | .put q t s => if (c.que q).length < cap then
      some ⟨Function.update c.loc i s, Function.update c.que q (c.que q ++ [t])⟩ else none

/-- `queue.Queue(maxsize=3)` (_init.py:230). -/
def queueSize : Nat := 3

/-- `output_queues` of node `j` when the inputs of all nodes are added in the order of the nodes (`add_output_queue`, 106). -/
def Graph.outs (G : Graph C R) (j : Nat) : List QId :=
  ((List.range G.length).flatMap G.ins).filter (fun q => G.writer q == j)

/-- The `result` of an `NdarrayNode` whose thread is in the given state: `none` while it is running, `some none` is
Python's `None`. -/
def Thread.result : Thread C R → Option (Option R)
  | .finished (some o) => some (o.result o.st)
  | .finished none => some none
  | .aborted => some none
  | _ => none

end Biggus

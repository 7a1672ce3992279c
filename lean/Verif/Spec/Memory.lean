import Verif.Spec.Groups
/-
SPECIFICATION SIDE.  How much data the threads and queues of the engine hold at a moment.

Counted: the chunks a consumer has read in its current round, the chunk a thread is putting on its output queues, the chunks waiting on
the queues (a chunk waiting on two queues counts twice), the partial results of aggregations.  Not counted: the final results, and what
reading a chunk of a source needs while it is read.  (Python's local variables keep the chunks of the previous round
alive until the next one has been read: at most one more chunk per node and per connection.)
-/
namespace Biggus

variable {C R : Type}

/-- The weight of a token: that of its chunk; the end markers weigh nothing. -/
def Tok.weight (w : C → Nat) : Tok C → Nat
  | .chunk c => w c
  | _ => 0

/-- The tokens a thread holds: those of the round it is reading, or what it is sending. -/
def Thread.toks : Thread C R → List (Tok C)
  | .consumer _ got => got
  | .sending toks _ next => toks ++ next.toks
  | _ => []

/-- The number of elements of the partial results of a thread. -/
def Thread.stored : Thread C R → Nat
  | .consumer o _ => o.stored o.st
  | .sending _ _ next => next.stored
  | .finished (some o) => o.stored o.st
  | _ => 0

/-- Everything a thread holds. -/
def Thread.held (w : C → Nat) (s : Thread C R) : Nat := (s.toks.map (Tok.weight w)).sum + s.stored

/-- What waits on a queue. -/
def Conf.queued (w : C → Nat) (c : Conf C R) (q : QId) : Nat := ((c.que q).map (Tok.weight w)).sum

/-- Everything in flight: held by the threads or waiting on their input queues. -/
def Graph.inFlight (w : C → Nat) (G : Graph C R) (c : Conf C R) : Nat :=
  ((List.range G.length).map (fun i => (c.loc i).held w + ((G.ins i).map (c.queued w)).sum)).sum

/-- The number of connections between nodes (one queue each). -/
def Graph.connections (G : Graph C R) : Nat := ((List.range G.length).map (fun i => (G.sources i).length)).sum

/-- Node `i` puts no chunk on any queue. -/
def Graph.Silent (G : Graph C R) (i : Nat) : Prop := ∀ s (o : Obj C R), G[i]? = some (.cons s o) →
  (∀ st cs r, o.process st cs = .ok r → r.2 = none) ∧ ∀ st r, o.finalise st = .ok r → r = none

/-- The partial results of node `i` have at most `L` elements, whatever chunks it gets from its sources. -/
def Graph.Stores (G : Graph C R) (L : Nat) (i : Nat) : Prop := ∀ s (o : Obj C R), G[i]? = some (.cons s o) → o.stored o.st ≤ L ∧
  ∀ st cs r, o.stored st ≤ L → (∀ c ∈ cs, ∃ j ∈ s, Tok.chunk c ∈ G.tokens j) → o.process st cs = .ok r → o.stored r.1 ≤ L

variable {α V : Type}

/-- No aggregation is along an axis of length 0. -/
def Arr.solid : Arr α → Prop
  | .agg a axis _ => (okOr a.shape []).getD axis 0 ≠ 0 ∧ a.solid
  | .elem1 a _ => a.solid
  | .elem2 a b _ => a.solid ∧ b.solid
  | _ => True

/-- At some moment of some execution of `engine.ndarrays(*xs)` / `engine.masked_arrays(*xs)` (with queues of size `cap`), there are
`e` array elements in flight. -/
def GroupInFlight [Inhabited α] [Inhabited V] (m : Mode α V) (limit cap : Nat) (evalP : Arr α → Res (NDA V)) (xs : List (AObj α)) (e : Nat) : Prop :=
  ∃ rs b k c, buildGroup m limit evalP xs ⟨[], []⟩ = .ok (rs, b) ∧ b.nodes.Steps b.nodes.outs cap k b.nodes.init c ∧
    e = b.nodes.inFlight (fun ch => ch.2.shape.prod) c

end Biggus

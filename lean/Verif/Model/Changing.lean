import Verif.Model.Eval
/-
MODEL of the engine evaluating expressions over sources whose contents change during the evaluation: another thread (or another process, for a file)
writes to them.  What a thread of the engine does with a source is to read it chunk by chunk.
-/
namespace Biggus

variable {α V : Type}

/-- The loop of `ProducerNode.run` (_init.py:175-204) from chunk `k` on.  `A k` is the array as it is when chunk `k` is read: the same expression over the
contents the reader then finds. -/
def readChanging [Inhabited α] [Inhabited V] (m : Mode α V) (limit n : Nat) (A : Nat → Arr α) : Nat → List (List Key) → Res (List (Chunk V))
  | _, [] => .ok []
  | k, key :: rest => do
      let b ← (A k).getitem key
      let d ← b.eval m limit n
      let cs ← readChanging m limit n A (k + 1) rest
      return (key, d) :: cs

/-- Aggregations (_init.py:2622-2676) and element-wise operations (2936-3049) over producers (369-385); `src i` is the object number `i`, which may occur
several times. -/
inductive Over (α : Type)
  | src (i : Nat)
  | agg (e : Over α) (axis : Nat) (k : AggKind α)
  | elem1 (e : Over α) (op : Op1 α)
  | elem2 (e e' : Over α) (op : Op2 α)

/-- The expression over given arrays. -/
def Over.plug (S : Nat → Arr α) : Over α → Arr α
  | .src i => S i
  | .agg e axis k => .agg (e.plug S) axis k
  | .elem1 e op => .elem1 (e.plug S) op
  | .elem2 e e' op => .elem2 (e.plug S) (e'.plug S) op

/-- The chunks of the node of an expression (`Arr.stream`; _init.py:369-385, 175-204, 281-299).  `read i order` are the chunks of the node of object `i`, which all its
consumers share (`_node_cache`, 369-384).  The node is made for the order its first consumer asks for and the others get the same chunks: what follows describes expressions that ask
for every object in one order only (the code goes wrong otherwise, C28).  Only shapes of `S` are used. -/
def Over.stream (m : Mode α V) (read : Nat → List Nat → Res (List (Chunk V))) (S : Nat → Arr α) : Over α → List Nat → Res (List (Chunk V))
  | .src i, order => read i order
  | .agg e axis k, order => do
      let s ← (e.plug S).shape
      let cs ← e.stream m read S (aggOrder axis order)
      aggStream (m.handler k) axis (s.getD axis 0) cs
  | .elem1 e op, order =>
      match m.op1 op with
      | none => .error .type
      | some f => do
        let cs ← e.stream m read S order
        return cs.map (fun c => (c.1, c.2.map f))
  | .elem2 e e' op, order =>
      match m.op2 op with
      | none => .error .type
      | some f => do
        let ca ← e.stream m read S order
        let cb ← e'.stream m read S order
        elem2Stream f ca cb

/-- `engine.ndarrays(e)` / `engine.masked_arrays(e)` (_init.py:387-446).  `A i k` is object `i` as it is when the thread of its node reads chunk number `k`; each thread reads at
its own moments.  Shapes (announced before the evaluation) do not change: `A i 0` is taken for them. -/
def engineReading [Inhabited α] [Inhabited V] (m : Mode α V) (limit n : Nat) (A : Nat → Nat → Arr α) (e : Over α) : Res (NDA V) := do
  let sh ← (e.plug (fun i => A i 0)).shape
  let cs ← e.stream m (fun i order => do
      let s ← (A i 0).shape
      readChanging m limit n (A i) 0 (chunkIndexGen limit s order)) (fun i => A i 0) (List.range sh.length)
  assemble sh cs

/-- A source as the reader of a chunk finds it.  `data t` are the contents at moment `t`; copying a chunk takes time (NumPy does not hold the interpreter lock while
it copies numbers, and a file is read piecewise): `moment idx` is the moment when the element `idx` is copied. -/
def sourceAt (s : List Nat) (data : Nat → NDA (Option α)) (moment : List Nat → Nat) (fill : α) (dtype : Nat) : Concrete α :=
  ⟨⟨s, fun idx => (data (moment idx)).get idx⟩, fill, dtype⟩

/-- The loop of `save([a], [target])` (_init.py:2190-2196) from block `k` on: `array[keys]` and its evaluation (2193, 2195) see the array as it is when block `k` is read. -/
def saveChanging [Inhabited α] [Inhabited V] (m : Mode α V) (limit n : Nat) (A : Nat → Arr α) : Nat → List (List Key) → NDA V → Res (NDA V)
  | _, [], t => .ok t
  | k, keys :: rest, t => do
      let b ← (A k).getitem keys
      let d ← b.eval m limit n
      let w ← npAssignments t.shape keys d
      saveChanging m limit n A (k + 1) rest (w.foldl NDA.update t)

end Biggus

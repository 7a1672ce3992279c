import Verif.Model.Engine
/-
MODEL of `AllThreadedEngine.Group` (_init.py:338-430): from array objects to the graph of nodes, and the outcome of `evaluate`.

Arrays are objects with an identity (`id(array)`), because `_make_node` keeps one node per object.  Only the objects with a
`streams_handler` (aggregations, element-wise operations) have sources here; everything else is a data producer.
-/
namespace Biggus

/-- An array object: its `id` and, for arrays with a `streams_handler`, its source objects (`sources`: 2638, 2977). -/
inductive AObj (α : Type) where
  | prod (id : Nat) (a : Arr α)
  | agg (id : Nat) (src : AObj α) (axis : Nat) (k : AggKind α)
  | elem1 (id : Nat) (src : AObj α) (op : Op1 α)
  | elem2 (id : Nat) (src1 src2 : AObj α) (op : Op2 α)

variable {α V : Type}

/-- `id(array)`. -/
def AObj.id : AObj α → Nat
  | .prod i _ | .agg i _ _ _ | .elem1 i _ _ | .elem2 i _ _ _ => i

/-- The array, forgetting which parts are the same object. -/
def AObj.toArr : AObj α → Arr α
  | .prod _ a => a
  | .agg _ x axis k => .agg x.toArr axis k
  | .elem1 _ x op => .elem1 x.toArr op
  | .elem2 _ x y op => .elem2 x.toArr y.toArr op

/-- `StreamsHandlerNode` with an `_AggregationStreamsHandler` (2227-2301): `process_chunks` of one chunk, `finalise`. -/
def aggObj (h : Handler V) (axis n : Nat) : Obj (Chunk V) (NDA V) where
  σ := AggState V h
  st := none
  process st cs := match cs with
    | [c] => do
      let (st', out) ← aggProcessChunk h axis n st c
      return (st', out.head?)
    | _ => .error .value
  finalise st := match st with
    | some (cur, s) => .ok (some (aggFinalise h n cur s))
    | none => .error .attribute
  result _ := none
  stored st := match st with
    | some (_, s) => s.shape.prod
    | none => 0

/-- `StreamsHandlerNode` with an `_ElementwiseStreamsHandler` (2919-2934), one operand. -/
def elem1Obj (f : V → V) : Obj (Chunk V) (NDA V) where
  σ := Unit
  st := ()
  process _ cs := match cs with
    | [c] => .ok ((), some (c.1, c.2.map f))
    | _ => .error .type
  finalise _ := .ok none
  result _ := none

/-- Two operands: the keys are those of the first chunk. -/
def elem2Obj (f : V → V → V) : Obj (Chunk V) (NDA V) where
  σ := Unit
  st := ()
  process _ cs := match cs with
    | [c1, c2] => do
      let d ← npOp2 f c1.2 c2.2
      return ((), some (c1.1, d))
    | _ => .error .type
  finalise _ := .ok none
  result _ := none

/-- `NdarrayNode` (302-335). -/
def resultObj [Inhabited V] (shape : List Nat) : Obj (Chunk V) (NDA V) where
  σ := NDA V
  st := ⟨shape, fun _ => default⟩
  process r cs := match cs with
    | [c] => do
      let r' ← storeChunk r c
      return (r', none)
    | _ => .error .value
  finalise _ := .ok none
  result r := some r

/-- The nodes created so far, in the order of creation, and `_node_cache` (`id` to number of the node). -/
structure Build (V : Type) : Type 1 where
  nodes : Graph (Chunk V) (NDA V)
  cache : List (Nat × Nat)

/-- `self._node_cache[cache_key] = node` (384). -/
def Build.add (b : Build V) (id : Nat) (g : GNode (Chunk V) (NDA V)) : Nat × Build V :=
  (b.nodes.length, ⟨b.nodes ++ [g], (id, b.nodes.length) :: b.cache⟩)

/-- What reading the chunks of a producer gives (`ProducerNode.run`, 185-198). -/
def readChunks [Inhabited α] (limit : Nat) (evalP : Arr α → Res (NDA V)) (a : Arr α) (s order : List Nat) : List (Res (Chunk V)) :=
  (chunkIndexGen limit s order).map (fun key => do
    let b ← a.getitem key
    let d ← evalP b
    return (key, d))

/-- Sequencing (`Res` values of different universes). -/
def andThen {β : Type} {γ : Type 1} (r : Res β) (k : β → Res γ) : Res γ :=
  match r with
  | .ok x => k x
  | .error e => .error e

/-- `Group._make_node(array, iteration_order, masked)` (369-385): a cached node is returned whatever the iteration order.
`assert array.ndim == len(iteration_order)` is line 148. -/
def makeNode [Inhabited α] (m : Mode α V) (limit : Nat) (evalP : Arr α → Res (NDA V)) : AObj α → List Nat → Build V → Res (Nat × Build V)
  | .prod id a, order, b => match b.cache.lookup id with
    | some n => .ok (n, b)
    | none => andThen a.shape fun s =>
      if s.length ≠ order.length then .error .assertion
      else .ok (b.add id (.prod (readChunks limit evalP a s order)))
  | .agg id x axis k, order, b => match b.cache.lookup id with
    | some n => .ok (n, b)
    | none => andThen x.toArr.shape fun s => do
      let (i, b) ← makeNode m limit evalP x (aggOrder axis order) b
      return b.add id (.cons [i] (aggObj (m.handler k) axis (s.getD axis 0)))
  | .elem1 id x op, order, b => match b.cache.lookup id with
    | some n => .ok (n, b)
    | none => match m.op1 op with
      | none => .error .type
      | some f => do
        let (i, b) ← makeNode m limit evalP x order b
        return b.add id (.cons [i] (elem1Obj f))
  | .elem2 id x y op, order, b => match b.cache.lookup id with
    | some n => .ok (n, b)
    | none => match m.op2 op with
      | none => .error .type
      | some f => do
        let (i, b) ← makeNode m limit evalP x order b
        let (j, b) ← makeNode m limit evalP y order b
        return b.add id (.cons [i, j] (elem2Obj f))

/-- The first loop of `Group.evaluate` (402-411): a node and a result node for every array.  Returns the numbers of the result
nodes. -/
def buildGroup [Inhabited α] [Inhabited V] (m : Mode α V) (limit : Nat) (evalP : Arr α → Res (NDA V)) :
    List (AObj α) → Build V → Res (List Nat × Build V)
  | [], b => .ok ([], b)
  | x :: xs, b => andThen x.toArr.shape fun s => do
    let (i, b) ← makeNode m limit evalP x (List.range s.length) b
    let (rs, b') ← buildGroup m limit evalP xs ⟨b.nodes ++ [.cons [i] (resultObj s)], b.cache⟩
    return (b.nodes.length :: rs, b')

/-- The second half of `Group.evaluate` (413-424): `none` while a result thread has not terminated; an exception if a result is
`None`; otherwise the results. -/
def groupOutcome (rs : List Nat) (c : Conf (Chunk V) (NDA V)) : Option (Res (List (NDA V))) :=
  (rs.mapM (fun r => (c.loc r).result)).map (fun results => match results.mapM id with
    | some l => .ok l
    | none => .error .other)

end Biggus

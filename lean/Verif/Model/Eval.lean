import Verif.Model.Arrays
import Verif.Model.Chunks
import Verif.Spec.Den
/-
MODEL of evaluation: `ndarray()` / `masked_array()` of every class, and the streams of chunks the engine pushes
through an expression (as a sequential program; the threads are in `Model/Engine.lean`).

The same code serves `ndarray()` and `masked_array()`: a `Mode` says what an element is.
-/
namespace Biggus

variable {α V : Type}

/-! ### Adapters -/

/-- `isinstance(key, tuple)`. -/
def Key.isTuple : Key → Bool
  | .tuple _ => true
  | _ => false

/-- `cut_keys` (_init.py:1529-1533): tuples replaced by `slice(None)`. -/
def cutKeys (keys : List Key) : List Key := keys.map (fun k => if k.isTuple then Key.full else k)

/-- One iteration of the loop over the tuple keys (_init.py:1541-1542); `dimensions[i] = i - cumsum(is_scalar)[i]`
(1527, 1534-1535). -/
def takeStep {β : Type} (keys : List Key) (array : NDA β) (p : Key × Nat) : Res (NDA β) :=
  match p.1 with
  | .tuple l => npTake array l (p.2 - (((cutKeys keys).take (p.2 + 1)).filter Key.isScalar).length)
  | _ => .ok array

/-- `NumpyArrayAdapter._apply_keys` (_init.py:1506-1545).  If all keys are tuples the code uses `self.concrete[...]`
(1539), the same selection as `cut_keys`, which are then all `:`. -/
def numpyApplyKeys {β : Type} (data : NDA β) (keys : List Key) : Res (NDA β) :=
  if (keys.filter Key.isTuple).length > 1 then do
    let array ← npFancy data (cutKeys keys)
    keys.zipIdx.foldlM (takeStep keys) array
  else npFancy data keys

/-- `_apply_keys`: 1506-1545 (NumPy sources) and 1571-1573 (sources with orthogonal indexing). -/
def applyKeys {β : Type} (ortho : Bool) (data : NDA β) (keys : List Key) : Res (NDA β) :=
  if ortho then npIndex data keys else numpyApplyKeys data keys

/-! ### Streams of chunks -/

/-- `Chunk(keys, data)` (_init.py:89-93). -/
abbrev Chunk (V : Type) := List Key × NDA V

/-- State of an `_AggregationStreamsHandler`: `current_keys` and the running state of every output element. -/
abbrev AggState (V : Type) (h : Handler V) := Option (List Key × NDA h.σ)

/-- `finalise` of the aggregation handlers: a chunk at `current_keys` (e.g. 2313-2315). -/
def aggFinalise (h : Handler V) (n : Nat) (keys : List Key) (st : NDA h.σ) : Chunk V :=
  (keys, st.map (h.fin n))

/-- `process_data` on the running state (2296): every output element gets its column.  Unequal shapes do not
broadcast here (`ValueError`). -/
def aggProcessData (h : Handler V) (axis : Nat) (st : NDA h.σ) (data : NDA V) : Res (NDA h.σ) :=
  if data.shape.eraseIdx axis ≠ st.shape then .error .value
  else if data.shape.getD axis 0 = 0 then
    match h.emptyErr with
    | some e => .error e
    | none => .ok ⟨st.shape, fun idx => h.step (st.get idx) []⟩
  else .ok ⟨st.shape, fun idx => h.step (st.get idx) (data.column axis idx)⟩

/-- `_AggregationStreamsHandler.process_chunks` (_init.py:2275-2293). Returns the new state and the emitted chunk. -/
def aggProcessChunk (h : Handler V) (axis n : Nat) (st : AggState V h) (c : Chunk V) :
    Res (AggState V h × List (Chunk V)) :=
  let keys := c.1.eraseIdx axis
  match st with
  | some (cur, s) =>
    if keys ≠ cur then do
      let s' ← aggProcessData h axis ⟨c.2.shape.eraseIdx axis, fun _ => h.boot⟩ c.2
      return (some (keys, s'), [aggFinalise h n cur s])
    else do
      let s' ← aggProcessData h axis s c.2
      return (some (cur, s'), [])
  | none => do
    let s' ← aggProcessData h axis ⟨c.2.shape.eraseIdx axis, fun _ => h.boot⟩ c.2
    return (some (keys, s'), [])

/-- `ConsumerNode.run` (_init.py:253-278) around an aggregation handler: all chunks, then `finalise`.
Without any chunk the handler has no state to finalise (`AttributeError`). -/
def aggLoop (h : Handler V) (axis n : Nat) : AggState V h → List (Chunk V) → Res (List (Chunk V))
  | st, [] => match st with
    | some (cur, s) => .ok [aggFinalise h n cur s]
    | none => .error .attribute
  | st, c :: cs => do
    let (st', out) ← aggProcessChunk h axis n st c
    let rest ← aggLoop h axis n st' cs
    return out ++ rest

/-- The stream of chunks of an aggregation over the stream of its source. -/
def aggStream (h : Handler V) (axis n : Nat) (cs : List (Chunk V)) : Res (List (Chunk V)) :=
  aggLoop h axis n none cs

/-- A NumPy binary ufunc: operands are broadcast against each other. -/
def npOp2 (f : V → V → V) (a b : NDA V) : Res (NDA V) :=
  match bcastShape a.shape b.shape with
  | none => .error .value
  | some s => .ok ⟨s, fun idx => f ((a.bcastTo s).get idx) ((b.bcastTo s).get idx)⟩

/-- `_ElementwiseStreamsHandler.process_chunks` (_init.py:2931-2934) on streams taken in lock-step until one is
finished (261-272): the keys are those of the *first* source's chunk. -/
def elem2Stream (f : V → V → V) : List (Chunk V) → List (Chunk V) → Res (List (Chunk V))
  | c1 :: r1, c2 :: r2 => do
    let d ← npOp2 f c1.2 c2.2
    let rest ← elem2Stream f r1 r2
    return (c1.1, d) :: rest
  | _, _ => .ok []

/-- `_AggregationStreamsHandler.input_iteration_order` (_init.py:2250-2253). -/
def aggOrder (axis : Nat) (order : List Nat) : List Nat :=
  order.map (fun i => if i < axis then i else i + 1) ++ [axis]

/-- Chunks emitted by the node of an array asked for `order` (`_make_node` 369-385, `ProducerNode.run` 175-204,
`StreamsHandlerNode` 281-299).  `limit` is `MAX_CHUNK_SIZE`; `evalP` is `.ndarray()`/`.masked_array()`, used by
producers on `self.array[key]`. -/
def Arr.stream [Inhabited α] (m : Mode α V) (limit : Nat) (evalP : Arr α → Res (NDA V)) :
    Arr α → List Nat → Res (List (Chunk V))
  | .agg a axis k, order => do
      let s ← a.shape
      let cs ← a.stream m limit evalP (aggOrder axis order)
      aggStream (m.handler k) axis (s.getD axis 0) cs
  | .elem1 a op, order =>
      match m.op1 op with
      | none => .error .type                                     -- 3042-3044
      | some f => do
        let cs ← a.stream m limit evalP order
        return cs.map (fun c => (c.1, c.2.map f))
  | .elem2 a b op, order =>
      match m.op2 op with
      | none => .error .type
      | some f => do
        let ca ← a.stream m limit evalP order
        let cb ← b.stream m limit evalP order
        elem2Stream f ca cb
  | a, order => do
      let s ← a.shape
      (chunkIndexGen limit s order).mapM (fun key => do
        let b ← a.getitem key
        let d ← evalP b
        return (key, d))

/-- One store `self.result[chunk.keys] = chunk.data` (_init.py:324-334; `[...]` for a 0-d result). -/
def storeChunk (result : NDA V) (c : Chunk V) : Res (NDA V) := do
  let ws ← npAssignments result.shape c.1 c.2
  return ws.foldl NDA.update result

/-- `NdarrayNode` (_init.py:302-335): the result array filled from a stream; `np.empty` has arbitrary content. -/
def assemble [Inhabited V] (shape : List Nat) (cs : List (Chunk V)) : Res (NDA V) :=
  cs.foldlM storeChunk ⟨shape, fun _ => default⟩

/-- `engine.ndarrays(x)` / `engine.masked_arrays(x)` for one array (_init.py:387-446), as a sequential program. -/
def engineOne [Inhabited α] [Inhabited V] (m : Mode α V) (limit : Nat) (evalP : Arr α → Res (NDA V)) (x : Arr α) :
    Res (NDA V) := do
  let s ← x.shape
  let cs ← x.stream m limit evalP (List.range s.length)
  assemble s cs

/-! ### `.ndarray()` / `.masked_array()` -/

/-- `BroadcastArray._broadcast_numpy_array` (_init.py:1092-1108): a view with stride 0 on the broadcast axes and the
leading dimensions. -/
def bcastNumpy {β : Type} (r : NDA β) (d : List (Nat × Nat)) (lead : List Nat) : Res (NDA β) := do
  let s ← shapeFromDict d r.shape
  return ⟨lead ++ s, fun idx => r.get ((List.range r.shape.length).map (fun ax =>
    if d.any (fun p => p.1 == ax) then 0 else idx.getD (ax + lead.length) 0))⟩

/-- One iteration of `ArrayStack.ndarray` (_init.py:1826-1827): `data[index] = item`. -/
def stackStore (data : NDA V) (index : List Nat) (item : NDA V) : Res (NDA V) :=
  storeChunk data (index.map (fun (i : Nat) => Key.int i) ++ List.replicate (data.shape.length - index.length) Key.full, item)

/-- One iteration of `LinearMosaic.ndarray` (_init.py:2061-2065): `data[..., offset:next_offset, ...] = tile`. -/
def mosaicStore (axis : Nat) (data : NDA V) (offset len : Nat) (tile : NDA V) : Res (NDA V) :=
  storeChunk data ((List.replicate data.shape.length Key.full).set axis (Key.span offset (offset + len)), tile)

/-- `.ndarray()` / `.masked_array()` of every class: 855-861 (new axes), 1105-1118 (broadcast), 1151-1157 (astype),
1179-1181 (masking; `ndarray` of a masked array ignores the mask), 1255-1263 (constant), 1473-1491 (adapter), 1709-1715
(transposed), 1824-1836 (stack), 2056-2079 (mosaic), 2662-2668 (aggregation), 3028-3039 (element-wise).
`eng x` is `engine.ndarrays([x])` / `engine.masked_arrays([x])`. -/
def Arr.evalWith [Inhabited α] [Inhabited V] (m : Mode α V) (eng : Arr α → Res (NDA V)) : Arr α → Res (NDA V)
  | .adapter o c keys => do
      let r ← applyKeys o c.data keys
      return r.map (if r.shape = [] then m.leaf0 c.fill else m.leaf c.fill)
  | .const s v _ => .ok ⟨s, fun _ => m.const v⟩
  | .newAxes a na => do
      let s ← a.shape
      let r ← a.evalWith m eng
      npIndex r (naInsert Key.newaxis na (List.replicate s.length Key.full))
  | .bcast a d lead => do
      let r ← a.evalWith m eng
      bcastNumpy r d lead
  | .transposed a axes => do
      let r ← a.evalWith m eng
      npTranspose r axes
  | .stack ss items => do
      let s ← (Arr.stack ss items).shape
      (ndindex ss).foldlM (fun data i => do
        let d ← (items i).evalWith m eng
        stackStore data i d) ⟨s, fun _ => default⟩
  | .mosaic n tiles axis => do
      let s ← (Arr.mosaic n tiles axis).shape
      let r ← (List.range n).foldlM (fun (st : NDA V × Nat) i => do
        let ts ← (tiles i).shape
        let d ← (tiles i).evalWith m eng
        let data ← mosaicStore axis st.1 st.2 (ts.getD axis 0) d
        return (data, st.2 + ts.getD axis 0)) (⟨s, fun _ => default⟩, 0)
      return r.1
  | .asType a dt => do
      let r ← a.evalWith m eng
      return r.map (m.cast dt)
  | .maskVal a v => do
      let r ← a.evalWith m eng
      return r.map (m.maskEq v)
  | .agg a axis k => eng (.agg a axis k)
  | .elem1 a op =>
      match m.op1 op with
      | none => .error .type
      | some f => do
        let r ← eng a
        return r.map f
  | .elem2 a b op =>
      match m.op2 op with
      | none => .error .type
      | some f => do
        let ra ← eng a
        let rb ← eng b
        npOp2 f ra rb

/-- `.ndarray()` / `.masked_array()`.  The first argument bounds how deeply engine evaluations are nested (an
aggregation of a stack of aggregations of ...); Python's recursion limit in the original. -/
def Arr.eval [Inhabited α] [Inhabited V] (m : Mode α V) (limit : Nat) : Nat → Arr α → Res (NDA V)
  | 0 => Arr.evalWith m (fun _ => .error .runtime)
  | n + 1 => Arr.evalWith m (engineOne m limit (Arr.eval m limit n))

/-- `engine.ndarrays(x)` / `engine.masked_arrays(x)` (_init.py:387-446). -/
def engineEval [Inhabited α] [Inhabited V] (m : Mode α V) (limit n : Nat) (x : Arr α) : Res (NDA V) :=
  engineOne m limit (Arr.eval m limit n) x

/-- The handler used in ndarray mode: `_CountStreamsHandler` ... (_init.py:2723, 2753, 2783, 2813, 2851, 2883, 2915).
`sqrt` is `np.sqrt`. -/
def plainHandler [Field α] [LinearOrder α] (sqrt : α → α) : AggKind α → Handler α
  | .count => countH
  | .min => minH
  | .max => maxH
  | .sum => sumH
  | .mean _ => meanH
  | .std ddof => stdH sqrt ddof
  | .var ddof => varH sqrt ddof

/-- The handler used in masked mode. -/
def maskedHandler [Field α] [LinearOrder α] (sqrt : α → α) : AggKind α → Handler (Option α)
  | .count => countMH
  | .min => minMH
  | .max => maxMH
  | .sum => sumMH
  | .mean mdtol => meanMH mdtol
  | .std ddof => stdMH sqrt ddof
  | .var ddof => varMH sqrt ddof

/-- `ndarray()`: masked source elements become the fill value (1482-1483), except that a single masked element (`ma.masked`)
is turned into `np.array(ma.masked)`, which is 0.0, before the mask is looked at (1480-1481); masking is ignored, `numpy_op` is used.
`cast d x` is the value of `x` as dtype `d`. -/
def ndMode [Field α] [LinearOrder α] (sqrt : α → α) (cast : Nat → α → α) : Mode α α where
  leaf fill x := x.getD fill
  leaf0 _ x := x.getD 0
  const v := v
  cast := cast
  maskEq _ x := x
  handler := plainHandler sqrt
  op1 op := some op.np
  op2 op := some op.np

/-- `masked_array()`: `none` is a masked element; `masked_equal` masks the elements equal to the value; `ma_op` is used
(`TypeError` if there is none). -/
def maMode [Field α] [LinearOrder α] (sqrt : α → α) (cast : Nat → α → α) : Mode α (Option α) where
  leaf _ x := x
  leaf0 _ x := x
  const v := some v
  cast d x := x.map (cast d)
  maskEq v x := if x = some v then none else x
  handler := maskedHandler sqrt
  op1 op := op.ma
  op2 op := op.ma

end Biggus

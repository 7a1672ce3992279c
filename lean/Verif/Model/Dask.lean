import Verif.Model.Group
import Verif.Model.Grouper
/-
MODEL of biggus/experimental/dask_engine.py: the task graph made from array objects, and what its tasks compute.

`dsk_graph` is the list of its tasks in the order in which they are added; the number of a task stands for its (unique, `uuid4`) identifier.
Only the names of tasks, which are not used for computing, are left out.  How dask executes a graph is in `Spec/Dask.lean`.
-/
namespace Biggus

variable {α V : Type}

/-- A task of the graph. -/
inductive DTask (α : Type)
  /-- `(biggus_chunk, chunk_key, biggus_array, masked)` (dask_engine.py:345) -/
  | read (keys : List Key) (a : Arr α)
  /-- `(produce_chunks, t_keys) + source_chunks` (276): `sub` is `array[t_keys]`, whose handler is used (251-252) -/
  | handle (keys : List Key) (sub : Arr α) (deps : List Nat)
  /-- `(gather,) + dependencies` (383-384) -/
  | gather (shape : List Nat) (deps : List Nat)

/-- `task[1]`, the keys of a task (dask_engine.py:202; `collect` tasks are not asked). -/
def DTask.keys : DTask α → List Key
  | .read keys _ => keys
  | .handle keys _ _ => keys
  | .gather _ _ => []

/-- The identifiers among the arguments of a task. -/
def DTask.deps : DTask α → List Nat
  | .read _ _ => []
  | .handle _ _ deps => deps
  | .gather _ deps => deps

/-- The tasks made so far, and `_node_cache` (`id` of an array object to the identifiers of its tasks; 320-323, 350). -/
structure DBuild (α : Type) where
  tasks : List (DTask α)
  cache : List (Nat × List Nat)

/-- The keys of chunks are tuples of slices (`normalize_slice` fails for anything else). -/
def sliceKey : Key → Res PySlice
  | .slice s => .ok s
  | _ => .error .attribute

/-- `input_keys_transform(array, task[1])` (dask_engine.py:175-184, 202-204): for an aggregation the aggregated axis is removed. -/
def sourceKey (tasks : List (DTask α)) (axis : Option Nat) (i : Nat) : Res (KeyTuple × Nat) := do
  let keys := match tasks[i]? with
    | some t => t.keys
    | none => []
  let keys := match axis with
    | some axis => keys.eraseIdx axis
    | none => keys
  let ks ← keys.mapM sliceKey
  return (ks, i)

/-- `normalize_keys(keys, shape)` (dask_engine.py:228-233). -/
def normalizeKeys (keys : KeyTuple) (shape : List Nat) : KeyTuple := List.zipWith normalizeSlice keys shape

/-- `_unique_everseen` (dask_engine.py:68-83). -/
def uniqueEverseen : List Nat → List Nat → List Nat
  | _, [] => []
  | seen, x :: r => if x ∈ seen then uniqueEverseen seen r else x :: uniqueEverseen (x :: seen) r

/-- The identifiers of one source's chunks for a group (dask_engine.py:219-247).  If the chunks are not those of the group, `uuid.uuid()` fails, once
`array[t_keys]` has been computed. -/
def groupDeps [Inhabited α] (arr : Arr α) (shape : List Nat) (tkeys : KeyTuple) (p : List KeyTuple × List (KeyTuple × Nat)) : Res (List Nat) :=
  let ids := p.1.flatMap (fun k => (p.2.filter (fun q => decide (q.1 = k))).map Prod.snd)
  if p.1.all (fun k => decide (tkeys = normalizeKeys k shape)) then .ok (uniqueEverseen [] ids)
  else do
    let _ ← arr.getitem (tkeys.map Key.slice)
    .error .attribute

/-- The task of one group (dask_engine.py:212-283). -/
def addGroup [Inhabited α] (arr : Arr α) (shape : List Nat) (srcs : List (List (KeyTuple × Nat))) (st : List Nat × List (DTask α))
    (g : List SliceTuple × List (List KeyTuple)) : Res (List Nat × List (DTask α)) := do
  let tkeys := g.1.map (fun t => (⟨t.1, t.2.1, t.2.2⟩ : PySlice))
  let deps ← (g.2.zip srcs).mapM (groupDeps arr shape tkeys)
  let sub ← arr.getitem (tkeys.map Key.slice)
  return (st.1 ++ [st.2.length], st.2 ++ [.handle (tkeys.map Key.slice) sub deps.flatten])

/-- `_make_stream_handler_nodes` after the tasks of the sources have been made (dask_engine.py:186-284). -/
def streamNodes [Inhabited α] (arr : Arr α) (axis : Option Nat) (sources : List (List Nat)) (tasks : List (DTask α)) :
    Res (List Nat × List (DTask α)) := do
  let shape ← arr.shape
  let srcs ← sources.mapM (fun ids => ids.mapM (sourceKey tasks axis))
  let g ← groupKeys shape (srcs.map (fun s => s.map Prod.fst)) (List.range srcs.length)
  g.1.foldlM (addGroup arr shape srcs) ([], tasks)

/-- `self._node_cache[cache_key] = nodes` (350). -/
def DBuild.put (b : DBuild α) (id : Nat) (r : List Nat × List (DTask α)) : List Nat × DBuild α := (r.1, ⟨r.2, (id, r.1) :: b.cache⟩)

/-- `_make_nodes` (dask_engine.py:310-351): a cached node is returned whatever the iteration order. -/
def makeDask [Inhabited α] (m : Mode α V) (limit : Nat) : AObj α → List Nat → DBuild α → Res (List Nat × DBuild α)
  | .prod id a, order, b => match b.cache.lookup id with
    | some ids => .ok (ids, b)
    | none => do
      let s ← a.shape
      let ts ← (chunkIndexGen limit s order.reverse).mapM (fun key => do
        let c ← a.getitem key
        return DTask.read key c)
      return b.put id (List.range' b.tasks.length ts.length, b.tasks ++ ts)
  | .agg id x axis k, order, b => match b.cache.lookup id with
    | some ids => .ok (ids, b)
    | none => do
      let r ← makeDask m limit x (aggOrder axis order) b
      let n ← streamNodes (.agg x.toArr axis k) (some axis) [r.1] r.2.tasks
      return r.2.put id n
  | .elem1 id x op, order, b => match b.cache.lookup id with
    | some ids => .ok (ids, b)
    | none => match m.op1 op with
      | none => .error .type
      | some _ => do
        let r ← makeDask m limit x order b
        let n ← streamNodes (.elem1 x.toArr op) none [r.1] r.2.tasks
        return r.2.put id n
  | .elem2 id x y op, order, b => match b.cache.lookup id with
    | some ids => .ok (ids, b)
    | none => match m.op2 op with
      | none => .error .type
      | some _ => do
        let r ← makeDask m limit x order b
        let r' ← makeDask m limit y order r.2
        let n ← streamNodes (.elem2 x.toArr y.toArr op) none [r.1, r'.1] r'.2.tasks
        return r'.2.put id n

/-- `DaskGroup.dask` (dask_engine.py:375-389): a `collect` task for every array object (made once per object; `tops` are those made already).
Returns the identifiers of the `collect` tasks. -/
def daskGraph [Inhabited α] (m : Mode α V) (limit : Nat) : List (AObj α) → DBuild α → List (Nat × Nat) → Res (List Nat × DBuild α)
  | [], b, _ => .ok ([], b)
  | x :: xs, b, tops => do
    let s ← x.toArr.shape
    let r ← makeDask m limit x (List.range s.length) b
    match tops.lookup x.id with
    | some t => do
      let q ← daskGraph m limit xs r.2 tops
      return (t :: q.1, q.2)
    | none => do
      let t := r.2.tasks.length
      let q ← daskGraph m limit xs ⟨r.2.tasks ++ [.gather s r.1], r.2.cache⟩ ((x.id, t) :: tops)
      return (t :: q.1, q.2)

/-! ### What the tasks compute -/

/-- What a task returns: a chunk, or (`collect`) an array. -/
inductive DVal (V : Type)
  | chunk (c : Chunk V)
  | array (a : NDA V)

/-- Anything but a chunk has no `keys` and `data`. -/
def DVal.toChunk : DVal V → Res (Chunk V)
  | .chunk c => .ok c
  | .array _ => .error .attribute

/-- `produce_chunks` (dask_engine.py:143-158) for two sources: the chunks in groups of two, completed by `None`; the last result is returned. -/
def pairsLast (f : V → V → V) : Option (Chunk V) → List (Chunk V) → Res (Chunk V)
  | some c, [] => .ok c
  | none, [] => .error .runtime
  | _, [_] => .error .attribute
  | _, c1 :: c2 :: cs => do
    let d ← npOp2 f c1.2 c2.2
    pairsLast f (some (c1.1, d)) cs

/-- `produce_chunks` (dask_engine.py:143-158) with the handler of `sub`: chunks that an aggregation finishes on the way are lost, the result is that of
`finalise` or, for element-wise operations, of the last `process_chunks`. -/
def produceChunks (m : Mode α V) (sub : Arr α) (cs : List (Chunk V)) : Res (Chunk V) :=
  match sub with
  | .agg a axis k => do
    let s ← a.shape
    let st ← cs.foldlM (fun st c => do
      let r ← aggProcessChunk (m.handler k) axis (s.getD axis 0) st c
      return r.1) none
    match st with
    | some (cur, q) => .ok (aggFinalise (m.handler k) (s.getD axis 0) cur q)
    | none => .error .attribute
  | .elem1 _ op => match m.op1 op with
    | none => .error .type
    | some f => match cs.getLast? with
      | some c => .ok (c.1, c.2.map f)
      | none => .error .runtime
  | .elem2 _ _ op => match m.op2 op with
    | none => .error .type
    | some f => pairsLast f none cs
  | _ => .error .attribute

/-- Executing a task, given the values of its dependencies: `biggus_chunk` (dask_engine.py:294-308), `produce_chunks`, `gather` (354-373). -/
def DTask.run [Inhabited V] (m : Mode α V) (evalP : Arr α → Res (NDA V)) (t : DTask α) (args : List (DVal V)) : Res (DVal V) :=
  match t with
  | .read keys a => do
    let d ← evalP a
    return .chunk (keys, d)
  | .handle _ sub _ => do
    let cs ← args.mapM DVal.toChunk
    let c ← produceChunks m sub cs
    return .chunk c
  | .gather shape _ => do
    let cs ← args.mapM DVal.toChunk
    let r ← assemble shape cs
    return .array r

end Biggus

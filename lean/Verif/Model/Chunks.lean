import Verif.Spec.NDArray
/-
MODEL of chunk generation (`_all_slices_inner`, `ProducerNode.chunk_index_gen`) and `save`.
-/
namespace Biggus

/-- `slice(start, stop)` with non-negative bounds. -/
def Key.span (start stop : Nat) : Key := .slice ⟨some start, some stop, none⟩

/-- The slices of one dimension (loop body of `_all_slices_inner`, _init.py:2136-2156): `limit` is
`MAX_CHUNK_SIZE`, `nElems` the running product of the sizes of the dimensions to the right. -/
def dimSlices (limit : Nat) (alwaysSlices : Bool) (nElems size : Nat) : List Key :=
  if size * nElems ≤ limit then [Key.full]                                     -- 2139-2140
  else if nElems > limit then                                                  -- 2144-2148
    if alwaysSlices then (List.range size).map (fun i => Key.span i (i + 1))
    else (List.range size).map (fun (i : Nat) => Key.int i)
  else                                                                         -- 2152-2156
    let step := limit / nElems
    (pyRange 0 size step).map (fun s => Key.span s.toNat (min (s.toNat + step) size))

/-- `_all_slices_inner` (_init.py:2120-2159): walk the dimensions from the right, keeping `n_elems`.
Returns `(n_elems, all_slices)`. -/
def allSlicesGo (limit : Nat) (alwaysSlices : Bool) : List Nat → Nat × List (List Key)
  | [] => (1, [])
  | size :: rest =>
    let (nElems, sl) := allSlicesGo limit alwaysSlices rest
    (nElems * size, dimSlices limit alwaysSlices nElems size :: sl)

/-- `_all_slices_inner(shape, always_slices)` (_init.py:2120-2159). -/
def allSlicesInner (limit : Nat) (alwaysSlices : Bool) (shape : List Nat) : List (List Key) :=
  (allSlicesGo limit alwaysSlices shape).2

/-- `tuple(cuts[i] for cuts, i in zip(all_cuts, cut_indices))` (_init.py:171, 2192). -/
def pickCuts (cuts : List (List Key)) (ci : List Nat) : List Key :=
  List.zipWith (fun c i => c.getD i Key.full) cuts ci

/-- The traversal part of `ProducerNode.chunk_index_gen` (_init.py:166-173), for any list of cuts:
permute the cuts, iterate with `np.ndindex`, undo the permutation. -/
def chunkKeysOf (allCuts : List (List Key)) (order : List Nat) : List (List Key) :=
  let cuts := order.map (fun i => allCuts.getD i [])
  let inverse := (List.range order.length).map (fun i => order.idxOf i)
  (ndindex (cuts.map List.length)).map (fun ci =>
    let key := pickCuts cuts ci
    inverse.map (fun i => key.getD i Key.full))

/-- `ProducerNode.chunk_index_gen(shape, iteration_order)` (_init.py:155-173). -/
def chunkIndexGen (limit : Nat) (shape order : List Nat) : List (List Key) :=
  chunkKeysOf (allSlicesInner limit true shape) order

/-- The keys used by `save` (_init.py:2190-2192). -/
def saveKeys (limit : Nat) (shape : List Nat) : List (List Key) :=
  let cuts := allSlicesInner limit false shape
  (ndindex (cuts.map List.length)).map (pickCuts cuts)

/-- `target[keys] = data` for an ndarray-like target: every selected element is assigned once, in
row-major order of the selection; `ValueError` if the shapes differ (broadcasting of `data` is not modelled,
biggus always assigns data of the selected shape).  Returns the assignments made. -/
def npAssignments {β : Type} (shape : List Nat) (keys : List Key) (data : NDA β) :
    Res (List (List Nat × β)) := do
  let sels ← resolve keys shape
  if data.shape = selShape sels then
    return (ndindex (selShape sels)).map (fun j => (selSrc sels j, data.get j))
  else .error .value

/-- Perform one assignment. -/
def NDA.update {β : Type} (t : NDA β) (w : List Nat × β) : NDA β :=
  ⟨t.shape, fun idx => if idx = w.1 then w.2 else t.get idx⟩

/-- `save([array], [target], masked)` (_init.py:2163-2196).  `read keys` is `array[keys].ndarray()`
(or `.masked_array()`).  Returns the assignments performed on `target` and the key tuples read, in order;
an exception leaves the loop. -/
def saveLoop {β : Type} (tshape : List Nat) (read : List Key → Res (NDA β)) :
    List (List Key) → Res (List (List Nat × β))
  | [] => .ok []
  | ks :: rest => do
    let d ← read ks
    let w ← npAssignments tshape ks d
    let ws ← saveLoop tshape read rest
    return w ++ ws

/-- `save`: assignments for the whole source. -/
def saveWrites {β : Type} (limit : Nat) (shape tshape : List Nat) (read : List Key → Res (NDA β)) :
    Res (List (List Nat × β)) :=
  saveLoop tshape read (saveKeys limit shape)

/-- State of the target after `save` returned normally. -/
def save {β : Type} (limit : Nat) (shape : List Nat) (read : List Key → Res (NDA β)) (target : NDA β) :
    Res (NDA β) := do
  let ws ← saveWrites limit shape target.shape read
  return ws.foldl NDA.update target

/-- The loop of `save` (_init.py:2190-2196) as it changes the target: the target and the exception that ended the loop, if any.
An exception of `array[keys].ndarray()` or of `target[keys] = ...` (taken to change nothing) ends the loop; what has been
assigned stays. -/
def saveRun {β : Type} (read : List Key → Res (NDA β)) : List (List Key) → NDA β → NDA β × Option PyErr
  | [], t => (t, none)
  | ks :: rest, t =>
    match read ks with
    | .error e => (t, some e)
    | .ok d =>
      match npAssignments t.shape ks d with
      | .error e => (t, some e)
      | .ok w => saveRun read rest (w.foldl NDA.update t)

end Biggus

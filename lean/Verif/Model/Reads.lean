import Verif.Model.Eval
/-
MODEL of evaluation with a log of what is read from the data sources: the programs of `Model/Eval.lean`, each returning
also the list of source elements it has been given by the sources (in the order of reading).
-/
namespace Biggus

variable {α V : Type}

/-- `_apply_keys` (_init.py:1506-1545, 1571-1573) with the elements read.  With several tuples the source is asked for
`cut_keys` (1529-1533, 1539) and the tuples are applied to what it returned. -/
def applyKeysL {β : Type} (ortho : Bool) (data : NDA β) (keys : List Key) : Res (NDA β × List β) :=
  if ortho then do
    let r ← npIndex data keys
    return (r, r.toList)
  else if (keys.filter Key.isTuple).length > 1 then do
    let array ← npFancy data (cutKeys keys)
    let r ← keys.zipIdx.foldlM (takeStep keys) array
    return (r, array.toList)
  else do
    let r ← npFancy data keys
    return (r, r.toList)

/-- The stream of chunks of an array (see `Arr.stream`), with the elements read: producers read (_init.py:175-204). -/
def Arr.streamL [Inhabited α] (m : Mode α V) (limit : Nat) (evalP : Arr α → Res (NDA V × List (Option α))) :
    Arr α → List Nat → Res (List (Chunk V) × List (Option α))
  | .agg a axis k, order => do
      let s ← a.shape
      let r ← a.streamL m limit evalP (aggOrder axis order)
      let out ← aggStream (m.handler k) axis (s.getD axis 0) r.1
      return (out, r.2)
  | .elem1 a op, order =>
      match m.op1 op with
      | none => .error .type
      | some f => do
        let r ← a.streamL m limit evalP order
        return (r.1.map (fun c => (c.1, c.2.map f)), r.2)
  | .elem2 a b op, order =>
      match m.op2 op with
      | none => .error .type
      | some f => do
        let ra ← a.streamL m limit evalP order
        let rb ← b.streamL m limit evalP order
        let out ← elem2Stream f ra.1 rb.1
        return (out, ra.2 ++ rb.2)
  | a, order => do
      let s ← a.shape
      let l ← (chunkIndexGen limit s order).mapM (fun key => do
        let b ← a.getitem key
        let d ← evalP b
        return ((key, d.1), d.2))
      return (l.map Prod.fst, l.flatMap Prod.snd)

/-- `engine.ndarrays(x)` / `engine.masked_arrays(x)` (_init.py:387-446) with the elements read. -/
def engineOneL [Inhabited α] [Inhabited V] (m : Mode α V) (limit : Nat) (evalP : Arr α → Res (NDA V × List (Option α)))
    (x : Arr α) : Res (NDA V × List (Option α)) := do
  let s ← x.shape
  let r ← x.streamL m limit evalP (List.range s.length)
  let out ← assemble s r.1
  return (out, r.2)

/-- `.ndarray()` / `.masked_array()` of every class (see `Arr.evalWith`), with the elements read. -/
def Arr.evalWithL [Inhabited α] [Inhabited V] (m : Mode α V) (eng : Arr α → Res (NDA V × List (Option α))) :
    Arr α → Res (NDA V × List (Option α))
  | .adapter o c keys => do
      let r ← applyKeysL o c.data keys
      return (r.1.map (if r.1.shape = [] then m.leaf0 c.fill else m.leaf c.fill), r.2)
  | .const s v _ => .ok (⟨s, fun _ => m.const v⟩, [])
  | .newAxes a na => do
      let s ← a.shape
      let r ← a.evalWithL m eng
      let x ← npIndex r.1 (naInsert Key.newaxis na (List.replicate s.length Key.full))
      return (x, r.2)
  | .bcast a d lead => do
      let r ← a.evalWithL m eng
      let x ← bcastNumpy r.1 d lead
      return (x, r.2)
  | .transposed a axes => do
      let r ← a.evalWithL m eng
      let x ← npTranspose r.1 axes
      return (x, r.2)
  | .stack ss items => do
      let s ← (Arr.stack ss items).shape
      (ndindex ss).foldlM (fun (st : NDA V × List (Option α)) i => do
        let d ← (items i).evalWithL m eng
        let data ← stackStore st.1 i d.1
        return (data, st.2 ++ d.2)) (⟨s, fun _ => default⟩, [])
  | .mosaic n tiles axis => do
      let s ← (Arr.mosaic n tiles axis).shape
      let r ← (List.range n).foldlM (fun (st : (NDA V × Nat) × List (Option α)) i => do
        let ts ← (tiles i).shape
        let d ← (tiles i).evalWithL m eng
        let data ← mosaicStore axis st.1.1 st.1.2 (ts.getD axis 0) d.1
        return ((data, st.1.2 + ts.getD axis 0), st.2 ++ d.2)) ((⟨s, fun _ => default⟩, 0), [])
      return (r.1.1, r.2)
  | .asType a dt => do
      let r ← a.evalWithL m eng
      return (r.1.map (m.cast dt), r.2)
  | .maskVal a v => do
      let r ← a.evalWithL m eng
      return (r.1.map (m.maskEq v), r.2)
  | .agg a axis k => eng (.agg a axis k)
  | .elem1 a op =>
      match m.op1 op with
      | none => .error .type
      | some f => do
        let r ← eng a
        return (r.1.map f, r.2)
  | .elem2 a b op =>
      match m.op2 op with
      | none => .error .type
      | some f => do
        let ra ← eng a
        let rb ← eng b
        let x ← npOp2 f ra.1 rb.1
        return (x, ra.2 ++ rb.2)

/-- `.ndarray()` / `.masked_array()` (see `Arr.eval`) with the elements read. -/
def Arr.evalL [Inhabited α] [Inhabited V] (m : Mode α V) (limit : Nat) : Nat → Arr α → Res (NDA V × List (Option α))
  | 0 => Arr.evalWithL m (fun _ => .error .runtime)
  | n + 1 => Arr.evalWithL m (engineOneL m limit (Arr.evalL m limit n))

/-- `engine.ndarrays(x)` / `engine.masked_arrays(x)` with the elements read. -/
def engineEvalL [Inhabited α] [Inhabited V] (m : Mode α V) (limit n : Nat) (x : Arr α) : Res (NDA V × List (Option α)) :=
  engineOneL m limit (Arr.evalL m limit n) x

/-- `save` (_init.py:2163-2196; see `saveLoop`) with the elements read; `read keys` is `array[keys].ndarray()` (or
`.masked_array()`) with the elements it reads. -/
def saveLoopL {β γ : Type} (tshape : List Nat) (read : List Key → Res (NDA β × List γ)) :
    List (List Key) → Res (List (List Nat × β) × List γ)
  | [] => .ok ([], [])
  | ks :: rest => do
    let d ← read ks
    let w ← npAssignments tshape ks d.1
    let r ← saveLoopL tshape read rest
    return (w ++ r.1, d.2 ++ r.2)

/-- `save` (_init.py:2163-2196; see `save`): the target afterwards, and the elements read. -/
def saveL {β γ : Type} (limit : Nat) (shape : List Nat) (read : List Key → Res (NDA β × List γ)) (target : NDA β) :
    Res (NDA β × List γ) := do
  let r ← saveLoopL target.shape read (saveKeys limit shape)
  return (r.1.foldl NDA.update target, r.2)

end Biggus

import Verif.Model.Eval
/-
MODEL of the mutable part of biggus/_init.py: `ArrayStack` objects, whose items can be assigned (`__setitem__`, 1817-1822) and which can be
copied deeply (`__deepcopy__`, 1764-1785), and of the lazy expressions over them.

An `ArrayStack` refers to a NumPy object array (`self._stack`); the heap has the object arrays (`cells`) and the `ArrayStack` objects
(`stackObjs`).  All other array objects never change after their construction: an object is described by an expression with stacks at its
leaves (`ArrRef`); expressions without any mutable stack are the `Arr` of Model/Arrays.  Indexing is written a second time here, because it
creates new stacks: every function takes the heap and returns a new one.  dtypes and fill values are left out (Model/Meta).  The number `n` in
the recursive functions stands for Python's recursion limit: how deeply stacks are nested (a stack can even be assigned to itself).
-/
namespace Biggus

variable {α V : Type}

/-- A reference to an array object: an immutable expression, an `ArrayStack` object, or one of the other classes over such objects (the lines of the
classes are given at `Arr`).  A `LinearMosaic` has `n + 1` tiles. -/
inductive ArrRef (α : Type)
  | arr (a : Arr α)
  | stack (id : Nat)
  | asType (o : ArrRef α) (dt : Nat)
  | maskVal (o : ArrRef α) (v : α)
  | newAxes (o : ArrRef α) (na : List Nat)
  | bcast (o : ArrRef α) (dict : List (Nat × Nat)) (lead : List Nat)
  | transposed (o : ArrRef α) (axes : List Nat)
  | mosaic (n : Nat) (tiles : Fin (n + 1) → ArrRef α) (axis : Nat)
  | agg (o : ArrRef α) (axis : Nat) (k : AggKind α)
  | elem1 (o : ArrRef α) (op : Op1 α)
  | elem2 (o o' : ArrRef α) (op : Op2 α)

instance [Inhabited α] : Inhabited (ArrRef α) := ⟨.arr default⟩

/-- A NumPy object array of references to arrays. -/
structure Cell (α : Type) where
  shape : List Nat
  items : List Nat → ArrRef α

/-- The attributes `_stack` and `_item_shape` of an `ArrayStack` (_init.py:1754-1755). -/
structure StackObj where
  cell : Nat
  itemShape : List Nat
deriving DecidableEq

structure Heap (α : Type) where
  cells : List (Cell α)
  stackObjs : List StackObj

/-- The `ArrayStack` with the given identity, and its object array. -/
def Heap.find (H : Heap α) (id : Nat) : Res (StackObj × Cell α) :=
  match H.stackObjs[id]? with
  | none => .error .runtime
  | some s =>
    match H.cells[s.cell]? with
    | none => .error .runtime
    | some c => .ok (s, c)

/-- `shape` (_init.py:1796-1797 for stacks; see `Arr.shape` for the other classes).  Some classes compute it in the constructor and keep it
(903-905, 1933-1964); it never changes (C73). -/
def Heap.shape (H : Heap α) : ArrRef α → Res (List Nat)
  | .arr a => a.shape
  | .stack id => do
      let p ← H.find id
      return p.2.shape ++ p.1.itemShape
  | .asType o _ => H.shape o
  | .maskVal o _ => H.shape o
  | .newAxes o na => do
      let s ← H.shape o
      return naInsert 1 na s
  | .bcast o d lead => do
      let s ← H.shape o
      let s' ← shapeFromDict d s
      return lead ++ s'
  | .transposed o axes => do
      let s ← H.shape o
      axesForward axes s
  | .mosaic n tiles axis => do
      let s ← H.shape (tiles 0)
      let lens ← (List.finRange (n + 1)).mapM (fun i => do let t ← H.shape (tiles i); return t.getD axis 0)
      return s.set axis lens.sum
  | .agg o axis _ => do
      let s ← H.shape o
      return s.eraseIdx axis
  | .elem1 o _ => H.shape o
  | .elem2 o _ _ => H.shape o

/-! ### Constructors -/

/-- `NewAxesArray.__init__` (_init.py:730-757). -/
def Heap.mkNewAxes (H : Heap α) (o : ArrRef α) (na : List Nat) : Res (ArrRef α) := do
  let s ← H.shape o
  if s.length + 1 ≠ na.length then .error .value else .ok (.newAxes o na)

/-- The part of `BroadcastArray.__init__` after flattening (_init.py:895-905). -/
def Heap.mkBcastFlat (H : Heap α) (o : ArrRef α) (dict : List (Nat × Nat)) (lead : List Nat) : Res (ArrRef α) := do
  let s ← H.shape o
  let _ ← shapeFromDict dict s
  if lead.any (· < 1) then .error .value else .ok (.bcast o dict lead)

/-- `BroadcastArray.__init__` (_init.py:885-905): a broadcast of a broadcast is flattened. -/
def Heap.mkBcast (H : Heap α) (o : ArrRef α) (dict : List (Nat × Nat)) (lead : List Nat) : Res (ArrRef α) :=
  match o with
  | .arr a => do
      let b ← Biggus.mkBcast a dict lead
      return .arr b
  | .bcast o' d' lead' => H.mkBcastFlat o' (dictUpdate d' dict) (lead ++ lead')
  | _ => H.mkBcastFlat o dict lead

/-- `TransposedArray.__init__` (_init.py:1623-1630). -/
def Heap.mkTransposed (H : Heap α) (o : ArrRef α) (axes : List Nat) : Res (ArrRef α) := do
  let s ← H.shape o
  if axes.length ≠ s.length then .error .value else .ok (.transposed o axes)

/-- `LinearMosaic.__init__` (_init.py:1913-1954), shapes only. -/
def Heap.mkMosaic (H : Heap α) (tiles : List (ArrRef α)) (axis : Nat) : Res (ArrRef α) :=
  match tiles with
  | [] => .error .index
  | t :: ts => do
    let s0 ← H.shape t
    if ¬ axis < s0.length then .error .value
    else do
      let _ ← ts.mapM (fun t => do
        let s ← H.shape t
        if ¬ axis < s.length then .error PyErr.index
        else if s.eraseIdx axis ≠ s0.eraseIdx axis then .error PyErr.value else .ok ())
      return .mosaic ts.length (fun i => (t :: ts).get i) axis

/-- One side of `BroadcastArray.broadcast_arrays` (_init.py:966-988). -/
def Heap.bcastSide (H : Heap α) (o : ArrRef α) (kw : List (Nat × Nat) × List Nat) : Res (ArrRef α) :=
  if kw.1.isEmpty && kw.2.isEmpty then .ok o else H.mkBcast o kw.1 kw.2

/-- `BroadcastArray.broadcast_arrays` (_init.py:966-988). -/
def Heap.broadcastArrays (H : Heap α) (o o' : ArrRef α) : Res (ArrRef α × ArrRef α) := do
  let s ← H.shape o
  let s' ← H.shape o'
  let full ← computeBcastShape s s'
  let p ← H.bcastSide o (bcastKwargs full s)
  let p' ← H.bcastSide o' (bcastKwargs full s')
  return (p, p')

/-- `_Elementwise.__init__` with two operands (_init.py:2945-3001). -/
def Heap.mkElem2 (H : Heap α) (o o' : ArrRef α) (op : Op2 α) : Res (ArrRef α) := do
  let p ← H.broadcastArrays o o'
  return .elem2 p.1 p.2 op

/-- A new object array. -/
def Heap.newCell (H : Heap α) (c : Cell α) : Heap α × Nat := (⟨H.cells ++ [c], H.stackObjs⟩, H.cells.length)

/-- `ArrayStack(stack)` for an object array `stack` (_init.py:1730-1762): `np.require(stack, dtype='O')` does not copy it.  Shapes only. -/
def Heap.newStack (H : Heap α) (cell : Nat) : Res (Heap α × ArrRef α) :=
  match H.cells[cell]? with
  | none => .error .runtime
  | some c =>
    if c.shape.prod = 0 then .error .index                         -- stack.flat[0]
    else do
      let s0 ← H.shape (c.items (c.shape.map (fun _ => 0)))
      let _ ← (ndindex c.shape).mapM (fun i => do
        let s ← H.shape (c.items i)
        if s ≠ s0 then throw PyErr.value)
      return (⟨H.cells, H.stackObjs ++ [⟨cell, s0⟩]⟩, .stack H.stackObjs.length)

/-- The loop of `ArrayStack._getitem_full_keys` (_init.py:1808-1810) over the positions of the new object array `new`. -/
def stackItems (get : Heap α → ArrRef α → Res (Heap α × ArrRef α)) (shape : List Nat) : List (List Nat) → Heap α → (List Nat → ArrRef α) →
    Res (Heap α × (List Nat → ArrRef α))
  | [], H, new => .ok (H, new)
  | i :: is, H, new =>
    if ¬ InB shape i then .error .index                               -- stack[index]
    else do
      let (H1, b) ← get H (new i)
      stackItems get shape is H1 (fun j => if j = i then b else new j)

/-! ### Indexing -/

/-- `ArrayStack._getitem_full_keys` (_init.py:1799-1815) for a stack with object array `c`; `item` is the indexing of the items. -/
def Heap.stackFull (item : Heap α → ArrRef α → List Key → Res (Heap α × ArrRef α)) (H : Heap α) (c : Cell α) (keys : List Key) :
    Res (Heap α × ArrRef α) := do
  let sk := keys.take c.shape.length
  let ik := keys.drop c.shape.length
  let rs ← slicedShape c.shape sk
  let sel ← npFancy (⟨c.shape, _root_.id⟩ : NDA (List Nat)) sk
  if rs.isEmpty then item H (c.items (sel.get [])) ik                        -- 1813
  else do
    -- `np.array(stack)` makes a copy; the loop replaces its items
    let p ← stackItems (fun G o => item G o ik) sel.shape (ndindex rs) H (fun i => c.items (sel.get i))
    let q := p.1.newCell ⟨sel.shape, p.2⟩
    q.1.newStack q.2

/-- `NewAxesArray.__getitem__` (_init.py:790-853); `inner` is `self.array.__getitem__`. -/
def Heap.newAxesGetitem (inner : List Key → Res (Heap α × ArrRef α)) (ndim : Nat) (na : List Nat) (keys : List Key) : Res (Heap α × ArrRef α) := do
  let fk ← fullKeys keys (na.sum + ndim)
  let st ← fk.zipIdx.foldlM naStep
    { newAxes := na, combine := [], isNew := naInsert true na (List.replicate ndim false), keys := [],
      axis := 0, dict := [] }
  let p ← inner st.keys
  let r ← p.1.mkNewAxes p.2 (combineAxes st.combine st.newAxes)
  let r' ← (if st.dict.isEmpty then .ok r else p.1.mkBcast r st.dict [])
  return (p.1, r')

/-- `Array.__getitem__` (_init.py:508-521); see `Biggus.arrayGetitem`. -/
def Heap.arrayGetitem (full : List Key → Res (Heap α × ArrRef α)) (shape : Res (List Nat)) (keys : List Key) : Res (Heap α × ArrRef α) := do
  let s ← shape
  let fk ← fullKeys keys s.length
  if fk.any Key.isNewaxis then
    Heap.newAxesGetitem (fun ks => do let fk ← fullKeys ks s.length; full fk) s.length (List.replicate (s.length + 1) 0) fk
  else full fk

/-- `BroadcastArray._getitem_full_keys` (_init.py:915-964).  If all keys of the underlying array are `:` it is not indexed: the result has the SAME
underlying array (960-961). -/
def Heap.bcastFull (inner : List Key → Res (Heap α × ArrRef α)) (H : Heap α) (o : ArrRef α) (dict : List (Nat × Nat)) (lead : List Nat)
    (keys : List Key) : Res (Heap α × ArrRef α) := do
  let lead' ← slicedShape lead (keys.take lead.length)
  let so ← H.shape o
  let sizes ← shapeFromDict dict so
  let kd ← bcastLoop dict 0 0 sizes (keys.drop lead.length)
  let full ← allFull kd.1
  let p ← (if full then .ok (H, o) else inner kd.1)
  let r ← p.1.mkBcast p.2 kd.2 lead'
  return (p.1, r)

/-- `TransposedArray._getitem_full_keys` (_init.py:1682-1707). -/
def Heap.transposedFull (inner : List Key → Res (Heap α × ArrRef α)) (axes : List Nat) (keys : List Key) : Res (Heap α × ArrRef α) := do
  let remapped ← axesInverse axes keys
  let p ← inner remapped
  let scalarAxes := (remapped.zipIdx.filter (·.1.isScalar)).map (·.2)
  let r ← p.1.mkTransposed p.2 (scalarAxes.reverse.foldl dropAxis axes)
  return (p.1, r)

/-- A list comprehension whose items create objects. -/
def heapMapM {β γ : Type} (f : Heap α → β → Res (Heap α × γ)) : List β → Heap α → Res (Heap α × List γ)
  | [], H => .ok (H, [])
  | x :: xs, H => do
      let p ← f H x
      let q ← heapMapM f xs p.1
      return (q.1, p.2 :: q.2)

/-- `LinearMosaic._getitem_full_keys` for a slice or sequence (_init.py:2009-2050); see `Biggus.mosaicMany`. -/
def Heap.mosaicMany (inner : Heap α → Nat → List Key → Res (Heap α × ArrRef α)) (H : Heap α) (lens : List Nat) (axis : Nat)
    (keys : List Key) (is : List Int) (rev : Bool) : Res (Heap α × ArrRef α) := do
  let p ← heapMapM (fun G (g : Nat × List Int) => inner G g.1 (keys.set axis (tileKey ((tileOffsets lens).getD g.1 0) g.2))) (groupTiles lens is) H
  let r ← p.1.mkMosaic (if rev then p.2.reverse else p.2) (axis - ((keys.take axis).filter Key.isScalar).length)
  return (p.1, r)

/-- `LinearMosaic._getitem_full_keys` (_init.py:1976-2054) for the different kinds of key on the axis; see `Biggus.mosaicAxis`. -/
def Heap.mosaicAxis (inner : Heap α → Nat → List Key → Res (Heap α × ArrRef α)) (H : Heap α) (lens : List Nat) (axis : Nat)
    (keys : List Key) : Res (Heap α × ArrRef α) :=
  match keys.getD axis Key.full with
  | .int i =>
    inner H (tileIndex lens i) (keys.set axis (.int (i - (tileOffsets lens).getD (tileIndex lens i) 0)))
  | .slice s => do
    let r ← s.range lens.sum
    Heap.mosaicMany inner H lens axis keys r s.negStep
  | .tuple l | .list l | .iarr l => Heap.mosaicMany inner H lens axis keys l false
  | .barr l => if l.isEmpty then .error .index else .error .type
  | _ => .error .type

/-- `LinearMosaic._getitem_full_keys` (_init.py:1976-2054) for `n` tiles of the shapes `tshape`. -/
def Heap.mosaicFull (inner : Heap α → Nat → List Key → Res (Heap α × ArrRef α)) (H : Heap α) (tshape : Nat → Res (List Nat))
    (n axis : Nat) (fullkeys : List Key) : Res (Heap α × ArrRef α) :=
  let keys := trimKeys fullkeys
  if keys.length ≤ axis then do
    let p ← heapMapM (fun G i => inner G i keys) (List.range n) H
    let r ← p.1.mkMosaic p.2 (axis - (keys.filter Key.isScalar).length)
    return (p.1, r)
  else do
    let lens ← (List.range n).mapM (fun i => do let s ← tshape i; return s.getD axis 0)
    Heap.mosaicAxis inner H lens axis keys

/-- `_Aggregation._getitem_full_keys` (_init.py:2647-2660). -/
def Heap.aggFull (inner : List Key → Res (Heap α × ArrRef α)) (axis : Nat) (k : AggKind α) (keys : List Key) : Res (Heap α × ArrRef α) := do
  let p ← inner (keys.take axis ++ [Key.full] ++ keys.drop axis)
  return (p.1, .agg p.2 (axis - ((keys.take axis).filter Key.isScalar).length) k)

/-- `array[keys]` for every class (see `Arr.getitem`); `item` is the indexing of the items of stacks. -/
def Heap.getitemWith [Inhabited α] (item : Heap α → ArrRef α → List Key → Res (Heap α × ArrRef α)) : ArrRef α → Heap α → List Key →
    Res (Heap α × ArrRef α)
  | .arr a, H, keys => do
      let b ← a.getitem keys
      return (H, .arr b)
  | .stack id, H, keys => do
      let p ← H.find id
      Heap.arrayGetitem (H.stackFull item p.2) (.ok (p.2.shape ++ p.1.itemShape)) keys
  | .asType o dt, H, keys => do                                -- 1145-1149
      let p ← Heap.getitemWith item o H keys
      return (p.1, .asType p.2 dt)
  | .maskVal o v, H, keys => do                                -- 1175-1177
      let p ← Heap.getitemWith item o H keys
      return (p.1, .maskVal p.2 v)
  | .newAxes o na, H, keys => do
      let s ← H.shape o
      Heap.newAxesGetitem (fun ks => Heap.getitemWith item o H ks) s.length na keys
  | .bcast o d lead, H, keys =>
      Heap.arrayGetitem (H.bcastFull (fun ks => Heap.getitemWith item o H ks) o d lead) (H.shape (.bcast o d lead)) keys
  | .transposed o axes, H, keys =>
      Heap.arrayGetitem (Heap.transposedFull (fun ks => Heap.getitemWith item o H ks) axes) (H.shape (.transposed o axes)) keys
  | .mosaic n tiles axis, H, keys =>
      Heap.arrayGetitem (H.mosaicFull (fun G i ks => if h : i < n + 1 then Heap.getitemWith item (tiles ⟨i, h⟩) G ks else .error .runtime)
        (fun i => if h : i < n + 1 then H.shape (tiles ⟨i, h⟩) else .error .runtime) (n + 1) axis) (H.shape (.mosaic n tiles axis)) keys
  | .agg o axis k, H, keys =>
      Heap.arrayGetitem (Heap.aggFull (fun ks => Heap.getitemWith item o H ks) axis k) (H.shape (.agg o axis k)) keys
  | .elem1 o op, H, keys =>                                    -- 3020-3022
      Heap.arrayGetitem (fun ks => do let p ← Heap.getitemWith item o H ks; return (p.1, .elem1 p.2 op)) (H.shape o) keys
  | .elem2 o o' op, H, keys =>                                 -- 3023-3025
      Heap.arrayGetitem (fun ks => do
        let p ← Heap.getitemWith item o H ks
        let q ← Heap.getitemWith item o' p.1 ks
        let r ← q.1.mkElem2 p.2 q.2 op
        return (q.1, r)) (H.shape o) keys

/-- `array[keys]`. -/
def Heap.getitem [Inhabited α] : Nat → Heap α → ArrRef α → List Key → Res (Heap α × ArrRef α)
  | 0, H, o, keys => Heap.getitemWith (fun _ _ _ => .error .runtime) o H keys
  | n + 1, H, o, keys => Heap.getitemWith (fun G o ks => Heap.getitem n G o ks) o H keys

/-- `stack[keys] = value` for a key tuple (_init.py:1817-1822).  The assignment to a 0-dimensional object array (where NumPy converts the
value) is not modelled. -/
def Heap.setitem (H : Heap α) (id : Nat) (keys : List Key) (value : ArrRef α) : Res (Heap α) := do
  let (s, c) ← H.find id
  if keys.length ≠ c.shape.length then .error .assertion
  else if ¬ keys.all Key.isScalar then .error .assertion
  else if keys.isEmpty then .error .other
  else do
    let σ ← resolve keys c.shape                                    -- self._stack[keys] = value
    let pos := selSrc σ []
    return ⟨H.cells.set s.cell ⟨c.shape, fun j => if j = pos then value else c.items j⟩, H.stackObjs⟩

/-! ### Evaluation -/

/-- Chunks emitted by the node of an object (see `Arr.stream`).  `evalA` and `evalP` are `.ndarray()`/`.masked_array()`, used by producers on
`self.array[key]`; what is created for one chunk (and cannot be referred to by anyone else) is not kept in the heap. -/
def Heap.stream [Inhabited α] (m : Mode α V) (limit n : Nat) (evalA : Arr α → Res (NDA V)) (evalP : Heap α → ArrRef α → Res (NDA V)) (H : Heap α) :
    ArrRef α → List Nat → Res (List (Chunk V))
  | .arr a, order => a.stream m limit evalA order
  | .agg o axis k, order => do
      let s ← H.shape o
      let cs ← H.stream m limit n evalA evalP o (aggOrder axis order)
      aggStream (m.handler k) axis (s.getD axis 0) cs
  | .elem1 o op, order =>
      match m.op1 op with
      | none => .error .type
      | some f => do
        let cs ← H.stream m limit n evalA evalP o order
        return cs.map (fun c => (c.1, c.2.map f))
  | .elem2 o o' op, order =>
      match m.op2 op with
      | none => .error .type
      | some f => do
        let cs ← H.stream m limit n evalA evalP o order
        let cs' ← H.stream m limit n evalA evalP o' order
        elem2Stream f cs cs'
  | o, order => do
      let s ← H.shape o
      (chunkIndexGen limit s order).mapM (fun key => do
        let p ← H.getitem n o key
        let d ← evalP p.1 p.2
        return (key, d))

/-- `engine.ndarrays(o)` / `engine.masked_arrays(o)` for one object (_init.py:387-446), as a sequential program. -/
def Heap.engineOne [Inhabited α] [Inhabited V] (m : Mode α V) (limit n : Nat) (evalA : Arr α → Res (NDA V)) (evalP : Heap α → ArrRef α → Res (NDA V))
    (H : Heap α) (o : ArrRef α) : Res (NDA V) := do
  let s ← H.shape o
  let cs ← H.stream m limit n evalA evalP o (List.range s.length)
  assemble s cs

/-- `ndarray()` / `masked_array()` of every class (1824-1836 for stacks, see `Arr.evalWith` for the others); `evalA` evaluates the immutable arrays,
`eng o` is `engine.ndarrays([o])`, `item` evaluates the items of stacks. -/
def Heap.evalWith [Inhabited V] (m : Mode α V) (evalA : Arr α → Res (NDA V)) (eng item : ArrRef α → Res (NDA V)) (H : Heap α) : ArrRef α → Res (NDA V)
  | .arr a => evalA a
  | .stack id => do
      let p ← H.find id
      (ndindex p.2.shape).foldlM (fun data i => do
        let d ← item (p.2.items i)
        stackStore data i d) ⟨p.2.shape ++ p.1.itemShape, fun _ => default⟩
  | .asType o dt => do
      let r ← H.evalWith m evalA eng item o
      return r.map (m.cast dt)
  | .maskVal o v => do
      let r ← H.evalWith m evalA eng item o
      return r.map (m.maskEq v)
  | .newAxes o na => do
      let s ← H.shape o
      let r ← H.evalWith m evalA eng item o
      npIndex r (naInsert Key.newaxis na (List.replicate s.length Key.full))
  | .bcast o d lead => do
      let r ← H.evalWith m evalA eng item o
      bcastNumpy r d lead
  | .transposed o axes => do
      let r ← H.evalWith m evalA eng item o
      npTranspose r axes
  | .mosaic n tiles axis => do
      let s ← H.shape (.mosaic n tiles axis)
      let r ← (List.finRange (n + 1)).foldlM (fun (st : NDA V × Nat) i => do
        let ts ← H.shape (tiles i)
        let d ← H.evalWith m evalA eng item (tiles i)
        let data ← mosaicStore axis st.1 st.2 (ts.getD axis 0) d
        return (data, st.2 + ts.getD axis 0)) (⟨s, fun _ => default⟩, 0)
      return r.1
  | .agg o axis k => eng (.agg o axis k)
  | .elem1 o op =>
      match m.op1 op with
      | none => .error .type
      | some f => do
        let r ← eng o
        return r.map f
  | .elem2 o o' op =>
      match m.op2 op with
      | none => .error .type
      | some f => do
        let r ← eng o
        let r' ← eng o'
        npOp2 f r r'

/-- Evaluation through at most `n` nested stacks. -/
def Heap.evalStacks [Inhabited V] (m : Mode α V) (evalA : Arr α → Res (NDA V)) (eng : ArrRef α → Res (NDA V)) (H : Heap α) : Nat → ArrRef α → Res (NDA V)
  | 0 => H.evalWith m evalA eng (fun _ => .error .runtime)
  | n + 1 => H.evalWith m evalA eng (H.evalStacks m evalA eng n)

/-- `ndarray()` / `masked_array()`.  `n` bounds the nesting of stacks, the last number the nesting of engine evaluations (as in `Arr.eval`). -/
def Heap.eval [Inhabited α] [Inhabited V] (m : Mode α V) (limit n : Nat) : Nat → Heap α → ArrRef α → Res (NDA V)
  | 0, H, o => H.evalStacks m (Arr.eval m limit 0) (fun _ => .error .runtime) n o
  | k + 1, H, o => H.evalStacks m (Arr.eval m limit (k + 1)) (H.engineOne m limit n (Arr.eval m limit k) (fun G o => Heap.eval m limit n k G o)) n o

/-! ### Deep copies -/

/-- The copies made so far (`memo`): which `ArrayStack` has become which. -/
abbrev Memo := List (Nat × Nat)

/-- `[deepcopy(array, memo=memo) for array in self._stack.flat]` (_init.py:1774-1776). -/
def copyItems (copy : Heap α → Memo → ArrRef α → Res (Heap α × Memo × ArrRef α)) (items : List Nat → ArrRef α) : List (List Nat) → Heap α → Memo →
    (List Nat → ArrRef α) → Res (Heap α × Memo × (List Nat → ArrRef α))
  | [], H, memo, new => .ok (H, memo, new)
  | i :: is, H, memo, new => do
      let (H1, memo1, b) ← copy H memo (items i)
      copyItems copy items is H1 memo1 (fun j => if j = i then b else new j)

/-- The copies of the tiles of a mosaic (the default deep copy of the list `_tiles`). -/
def copyTiles {n : Nat} (copy : Fin n → Heap α → Memo → Res (Heap α × Memo × ArrRef α)) : List (Fin n) → Heap α → Memo → (Fin n → ArrRef α) →
    Res (Heap α × Memo × (Fin n → ArrRef α))
  | [], H, memo, new => .ok (H, memo, new)
  | i :: is, H, memo, new => do
      let (H1, memo1, b) ← copy i H memo
      copyTiles copy is H1 memo1 (fun j => if j = i then b else new j)

/-- `copy.deepcopy(o, memo)`: the `copy` module's default for all classes except stacks, for which it is `st`.  A copy of an immutable expression is again
that expression. -/
def Heap.copyWith (st : Heap α → Memo → Nat → Res (Heap α × Memo × Nat)) : ArrRef α → Heap α → Memo → Res (Heap α × Memo × ArrRef α)
  | .arr a, H, memo => .ok (H, memo, .arr a)
  | .stack id, H, memo => do
      let p ← st H memo id
      return (p.1, p.2.1, .stack p.2.2)
  | .asType o dt, H, memo => do
      let p ← Heap.copyWith st o H memo
      return (p.1, p.2.1, .asType p.2.2 dt)
  | .maskVal o v, H, memo => do
      let p ← Heap.copyWith st o H memo
      return (p.1, p.2.1, .maskVal p.2.2 v)
  | .newAxes o na, H, memo => do
      let p ← Heap.copyWith st o H memo
      return (p.1, p.2.1, .newAxes p.2.2 na)
  | .bcast o d lead, H, memo => do
      let p ← Heap.copyWith st o H memo
      return (p.1, p.2.1, .bcast p.2.2 d lead)
  | .transposed o axes, H, memo => do
      let p ← Heap.copyWith st o H memo
      return (p.1, p.2.1, .transposed p.2.2 axes)
  | .mosaic n tiles axis, H, memo => do
      let p ← copyTiles (fun i G mm => Heap.copyWith st (tiles i) G mm) (List.finRange (n + 1)) H memo tiles
      return (p.1, p.2.1, .mosaic n p.2.2 axis)
  | .agg o axis k, H, memo => do
      let p ← Heap.copyWith st o H memo
      return (p.1, p.2.1, .agg p.2.2 axis k)
  | .elem1 o op, H, memo => do
      let p ← Heap.copyWith st o H memo
      return (p.1, p.2.1, .elem1 p.2.2 op)
  | .elem2 o o' op, H, memo => do
      let p ← Heap.copyWith st o H memo
      let q ← Heap.copyWith st o' p.1 p.2.1
      return (q.1, q.2.1, .elem2 p.2.2 q.2.2 op)

/-- `copy.deepcopy(stack, memo)`: the memo, then `ArrayStack.__deepcopy__` (_init.py:1764-1785), with `copy` for the items. -/
def Heap.copyStack (copy : Heap α → Memo → ArrRef α → Res (Heap α × Memo × ArrRef α)) (H : Heap α) (memo : Memo) (id : Nat) : Res (Heap α × Memo × Nat) :=
  match memo.lookup id with
  | some j => .ok (H, memo, j)
  | none => do
    let p ← H.find id
    let r ← copyItems copy p.2.items (ndindex p.2.shape) H memo p.2.items
    let q := r.1.newCell ⟨p.2.shape, r.2.2⟩
    return (⟨q.1.cells, q.1.stackObjs ++ [⟨q.2, p.1.itemShape⟩]⟩, (id, q.1.stackObjs.length) :: r.2.1, q.1.stackObjs.length)

/-- `copy.deepcopy(o, memo)`. -/
def Heap.deepcopy : Nat → Heap α → Memo → ArrRef α → Res (Heap α × Memo × ArrRef α)
  | 0, H, memo, o => Heap.copyWith (fun _ _ _ => .error .runtime) o H memo
  | n + 1, H, memo, o => Heap.copyWith (Heap.copyStack (fun G mm o => Heap.deepcopy n G mm o)) o H memo

/-! ### Programs -/

/-- What a user can do with the arrays of a program. -/
inductive Op (α : Type)
  /-- `objs = np.array([...], dtype=object)` -/
  | objects (c : Cell α)
  /-- `objs[pos] = value`, for an object array of the user -/
  | put (cell : Nat) (pos : List Nat) (value : ArrRef α)
  /-- `biggus.ArrayStack(objs)` -/
  | wrap (cell : Nat)
  /-- `array[keys]` -/
  | index (o : ArrRef α) (keys : List Key)
  /-- `copy.deepcopy(array)` -/
  | copy (o : ArrRef α)
  /-- `stack[keys] = value` -/
  | assign (id : Nat) (keys : List Key) (value : ArrRef α)

/-- The heap after one operation, if it succeeds; `n` as above. -/
def Heap.perform [Inhabited α] (n : Nat) (H : Heap α) : Op α → Res (Heap α)
  | .objects c => .ok (H.newCell c).1
  | .put cell pos value =>
      match H.cells[cell]? with
      | none => .error .runtime
      | some c => .ok ⟨H.cells.set cell ⟨c.shape, fun j => if j = pos then value else c.items j⟩, H.stackObjs⟩
  | .wrap cell => do
      let r ← H.newStack cell
      return r.1
  | .index o keys => do
      let r ← H.getitem n o keys
      return r.1
  | .copy o => do
      let r ← H.deepcopy n [] o
      return r.1
  | .assign id keys value => H.setitem id keys value

/-- A failing operation changes nothing that can be referred to. -/
def Heap.step [Inhabited α] (n : Nat) (H : Heap α) (op : Op α) : Heap α :=
  match H.perform n op with
  | .ok H' => H'
  | .error _ => H

/-- A program. -/
def Heap.run [Inhabited α] (n : Nat) (H : Heap α) (ops : List (Op α)) : Heap α := ops.foldl (fun H op => H.step n op) H

end Biggus

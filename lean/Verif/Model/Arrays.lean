import Verif.Model.Keys
import Verif.Model.NumPy
/-
MODEL of the lazy array classes of biggus/_init.py and of their indexing (`__getitem__`).
No data is read in this file: indexing only builds new lazy arrays.
-/
namespace Biggus

/-- A concrete data source given to an adapter: an ndarray, a masked array (masked elements are `none`), a
netCDF variable, ...; `fill` is its fill value, `dtype` an abstract identifier of its dtype. -/
structure Concrete (α : Type) where
  data : NDA (Option α)
  fill : α
  dtype : Nat := 0

/-- Which aggregation an `_Aggregation` performs, with its keyword arguments (_init.py:2700-2916). -/
inductive AggKind (α : Type)
  | count | min | max | sum
  | mean (mdtol : α)
  | std (ddof : Int)
  | var (ddof : Int)

/-- `numpy_op` and `ma_op` of a unary `_Elementwise` (_init.py:2945); `ma = none` is `ma_op=None`. -/
structure Op1 (α : Type) where
  np : α → α
  ma : Option (Option α → Option α)

/-- `numpy_op` and `ma_op` of a binary `_Elementwise` (_init.py:2945). -/
structure Op2 (α : Type) where
  np : α → α → α
  ma : Option (Option α → Option α → Option α)

/-- The lazy array classes.
* `adapter`: `_ArrayAdapter` (1308), `ortho = true` for `OrthoArrayAdapter` (1549), `false` for
  `NumpyArrayAdapter` (1495); `keys` is `self._keys`
* `const`: `ConstantArray` (1207)
* `newAxes`: `NewAxesArray` (729), `na` is `self._new_axes`
* `bcast`: `BroadcastArray` (865), `dict` is `self._broadcast_dict` (association list with distinct keys)
* `transposed`: `TransposedArray` (1609)
* `stack`: `ArrayStack` (1719), the object array `self._stack` as shape and items
* `mosaic`: `LinearMosaic` (1912), the tiles as count and items
* `asType`: `AsDataTypeArray` (1121);  `maskVal`: `MaskValueArray` (1160)
* `agg`: `_Aggregation` (2622);  `elem1`/`elem2`: `_Elementwise` (2936) -/
inductive Arr (α : Type) where
  | adapter (ortho : Bool) (c : Concrete α) (keys : List Key)
  | const (shape : List Nat) (v : α) (dtype : Nat)
  | newAxes (a : Arr α) (na : List Nat)
  | bcast (a : Arr α) (dict : List (Nat × Nat)) (lead : List Nat)
  | transposed (a : Arr α) (axes : List Nat)
  | stack (sshape : List Nat) (items : List Nat → Arr α)
  | mosaic (n : Nat) (tiles : Nat → Arr α) (axis : Nat)
  | asType (a : Arr α) (dtype : Nat)
  | maskVal (a : Arr α) (v : α)
  | agg (a : Arr α) (axis : Nat) (k : AggKind α)
  | elem1 (a : Arr α) (op : Op1 α)
  | elem2 (a b : Arr α) (op : Op2 α)

variable {α : Type}

instance [Inhabited α] : Inhabited (Arr α) := ⟨.const [] default 0⟩

/-! ### Shapes -/

/-- Insert `n` copies of `x` at position `i` for every `(n, i)` of `new_axes`, highest position first: the
loop shared by `NewAxesArray.shape`, `_newaxis_keys`, `_is_newaxis` (_init.py:764-788). -/
def naInsert {β : Type _} (x : β) (na : List Nat) (l : List β) : List β :=
  na.zipIdx.reverse.foldl (fun l p => l.take p.2 ++ List.replicate p.1 x ++ l.drop p.2) l

/-- `BroadcastArray._shape_from_broadcast_dict` (_init.py:1075-1090). -/
def shapeFromDict : List (Nat × Nat) → List Nat → Res (List Nat)
  | [], shape => .ok shape
  | (ax, len) :: d, shape =>
    match shape[ax]? with
    | none => .error .value
    | some n => if n ≠ 1 then .error .value else shapeFromDict d (shape.set ax len)

/-- `TransposedArray._apply_axes_mapping(target)` (forward, _init.py:1635-1667): position `dest` of the result
is `target[axes[dest]]`.  `ValueError` on a wrong length; `KeyError` if `axes` is not a permutation (some axis
has no image). -/
def axesForward {β : Type} (axes : List Nat) (target : List β) : Res (List β) :=
  if target.length ≠ axes.length then .error .value
  else if axes.isPerm (List.range axes.length) then .ok (axes.filterMap (fun i => target[i]?))
  else .error .key

/-- `TransposedArray._apply_axes_mapping(target, inverse=True)` (_init.py:1635-1667): position `axes[dest]` of
the result is `target[dest]`. -/
def axesInverse {β : Type} (axes : List Nat) (target : List β) : Res (List β) :=
  if target.length ≠ axes.length then .error .value
  else if axes.isPerm (List.range axes.length) then
    .ok ((List.range axes.length).filterMap (fun i => target[axes.idxOf i]?))
  else .error .key

/-- `Array.shape` of every class: 1340 (adapter), 1246 (constant), 764 (new axes), 908 with 903-905
(broadcast), 1670 (transposed), 1796 (stack), 1968 (mosaic), 702 (containers), 2638 (aggregation), 3008
(element-wise). -/
def Arr.shape : Arr α → Res (List Nat)
  | .adapter _ c keys => slicedShape c.data.shape keys
  | .const s _ _ => .ok s
  | .newAxes a na => do
      let s ← a.shape
      return naInsert 1 na s
  | .bcast a d lead => do
      let s ← a.shape
      let s' ← shapeFromDict d s
      return lead ++ s'
  | .transposed a axes => do
      let s ← a.shape
      axesForward axes s
  | .stack ss items => do
      let s ← (items (ss.map (fun _ => 0))).shape
      return ss ++ s
  | .mosaic n tiles axis => do
      let s ← (tiles 0).shape
      let lens ← (List.range n).mapM (fun i => do let t ← (tiles i).shape; return t.getD axis 0)
      return s.set axis lens.sum
  | .asType a _ => a.shape
  | .maskVal a _ => a.shape
  | .agg a axis _ => do
      let s ← a.shape
      return s.eraseIdx axis
  | .elem1 a _ => a.shape
  | .elem2 a _ _ => a.shape

/-! ### Constructors -/

/-- `_ArrayAdapter._cleanup_new_key` (_init.py:1347-1380). -/
def cleanupKey (k : Key) (size : Nat) : Res Key :=
  match k with
  | .int i => if inRange i size then .ok k else .error .index
  | .slice _ => .ok k
  | .barr l => if l.length > size then .error .index else .ok k
  | .tuple l | .list l | .iarr l => if l.all (inRange · size) then .ok (.tuple l) else .error .index
  | .newaxis | .ellipsis | .bad => .error .type

/-- `_ArrayAdapter.__init__` (_init.py:1314-1326): the keys are checked, but stored as given. -/
def mkAdapter (ortho : Bool) (c : Concrete α) (keys : List Key) : Res (Arr α) := do
  if c.data.shape.length < keys.length then throw .assertion
  let _ ← (keys.zip c.data.shape).mapM (fun p => cleanupKey p.1 p.2)
  return .adapter ortho c keys

/-- `NewAxesArray.__init__` (_init.py:730-757). -/
def mkNewAxes (a : Arr α) (na : List Nat) : Res (Arr α) := do
  let s ← a.shape
  if s.length + 1 ≠ na.length then throw .value
  return .newAxes a na

/-- `dict.update`: entries of `d'` win. -/
def dictUpdate (d d' : List (Nat × Nat)) : List (Nat × Nat) :=
  d.filter (fun p => !(d'.any (fun q => q.1 == p.1))) ++ d'

/-- The part of `BroadcastArray.__init__` after flattening (_init.py:895-905). -/
def mkBcastFlat (a : Arr α) (dict : List (Nat × Nat)) (lead : List Nat) : Res (Arr α) := do
  let s ← a.shape
  let _ ← shapeFromDict dict s
  if lead.any (· < 1) then throw .value
  return .bcast a dict lead

/-- `BroadcastArray.__init__` (_init.py:885-905): a broadcast of a broadcast is flattened. -/
def mkBcast (a : Arr α) (dict : List (Nat × Nat)) (lead : List Nat) : Res (Arr α) :=
  match a with
  | .bcast a' d' lead' => mkBcastFlat a' (dictUpdate d' dict) (lead ++ lead')
  | _ => mkBcastFlat a dict lead

/-- `TransposedArray.__init__` with explicit axes (_init.py:1623-1630). -/
def mkTransposed (a : Arr α) (axes : List Nat) : Res (Arr α) := do
  let s ← a.shape
  if axes.length ≠ s.length then throw .value
  return .transposed a axes

/-- `ArrayStack.__init__` (_init.py:1730-1762), shapes only: `stack.flat[0]` needs a non-empty stack; all items
must have the first item's shape.  (dtype and fill value: `Model/Meta.lean`.) -/
def mkStack (ss : List Nat) (items : List Nat → Arr α) : Res (Arr α) := do
  if ss.prod = 0 then throw .index
  let s0 ← (items (ss.map (fun _ => 0))).shape
  let _ ← (ndindex ss).mapM (fun i => do
    let s ← (items i).shape
    if s ≠ s0 then throw PyErr.value)
  return .stack ss items

/-- `LinearMosaic.__init__` (_init.py:1913-1954), shapes only: `tiles[0]` needs at least one tile; all tiles must
agree except along `axis`. -/
def mkMosaic [Inhabited α] (tiles : List (Arr α)) (axis : Nat) : Res (Arr α) := do
  match tiles with
  | [] => throw .index
  | t :: ts =>
    let s0 ← t.shape
    if ¬ axis < s0.length then throw .value
    let _ ← ts.mapM (fun t => do
      let s ← t.shape
      -- `del shape[axis]` raises IndexError if there is no such axis
      if ¬ axis < s.length then throw PyErr.index
      if s.eraseIdx axis ≠ s0.eraseIdx axis then throw PyErr.value)
    return .mosaic tiles.length (fun i => tiles.getD i default) axis

/-! ### Broadcasting two arrays -/

/-- `BroadcastArray._compute_broadcast_shape` (_init.py:990-1025). -/
def computeBcastShape (shape1 shape2 : List Nat) : Res (List Nat) :=
  let s1 := List.replicate (shape2.length - shape1.length) 1 ++ shape1
  let s2 := List.replicate (shape1.length - shape2.length) 1 ++ shape2
  (s1.zip s2).mapM (fun p =>
    if p.1 = p.2 then .ok p.1 else if p.1 = 1 then .ok p.2 else if p.2 = 1 then .ok p.1 else .error .value)

/-- `BroadcastArray._compute_broadcast_kwargs` (_init.py:1027-1073) for one of the two arrays: the leading
shape and the `broadcast` dictionary (`{ax: full}` where the sizes differ). -/
def bcastKwargs (full shape : List Nat) : List (Nat × Nat) × List Nat :=
  let off := full.length - shape.length
  ((((full.drop off).zip shape).zipIdx.filter (fun p => decide (p.1.1 ≠ p.1.2))).map (fun p => (p.2, p.1.1)),
    full.take off)

/-- One side of `BroadcastArray.broadcast_arrays` (_init.py:966-988): unchanged if nothing is to be done. -/
def bcastSide (a : Arr α) (kw : List (Nat × Nat) × List Nat) : Res (Arr α) :=
  if kw.1.isEmpty && kw.2.isEmpty then .ok a else mkBcast a kw.1 kw.2

/-- `BroadcastArray.broadcast_arrays` (_init.py:966-988). -/
def broadcastArrays (a b : Arr α) : Res (Arr α × Arr α) := do
  let sa ← a.shape
  let sb ← b.shape
  let full ← computeBcastShape sa sb
  let a' ← bcastSide a (bcastKwargs full sa)
  let b' ← bcastSide b (bcastKwargs full sb)
  return (a', b')

/-- `_Elementwise.__init__` with two operands (_init.py:2945-3001), already converted by `ensure_array`.
The dtype computation is in `Model/Meta.lean`. -/
def mkElem2 (a b : Arr α) (op : Op2 α) : Res (Arr α) := do
  let (a', b') ← broadcastArrays a b
  return .elem2 a' b' op

/-! ### Indexing -/

/-- Loop state of `NewAxesArray.__getitem__` (_init.py:800-805). -/
structure NAState where
  newAxes : List Nat
  combine : List Nat
  isNew : List Bool
  keys : List Key
  axis : Nat
  dict : List (Nat × Nat)

/-- Loop body of `NewAxesArray.__getitem__` for `key_index`, `key` (_init.py:807-844). -/
def naStep (st : NAState) (p : Key × Nat) : Res NAState :=
  let (key, keyIndex) := p
  match key with
  | .newaxis => .ok { st with newAxes := st.newAxes.modify st.axis (· + 1) }
  | _ =>
    match st.isNew with
    | [] => .error .index
    | true :: rest =>
      let st := { st with isNew := rest }
      match key with
      | .int i =>
        if -1 ≤ i ∧ i < 1 then .ok { st with newAxes := st.newAxes.modify st.axis (· - 1) }
        else .error .index
      | .slice s => do
        let r ← s.range 1
        if r.length ≠ 1 then return { st with dict := st.dict ++ [(keyIndex, r.length)] }
        else return st
      | .tuple l =>
        if l.all (fun i => decide (-1 ≤ i ∧ i < 1)) then
          .ok { st with dict := st.dict ++ [(keyIndex, l.length)] }
        else .error .index
      | _ => .error .notImpl
    | false :: rest =>
      .ok { st with
        isNew := rest
        combine := if key.isScalar then st.combine ++ [st.axis] else st.combine
        keys := st.keys ++ [key]
        axis := st.axis + 1 }

/-- `for axis in sorted(axes_to_combine, reverse=True): new_axes[axis] += new_axes.pop(axis + 1)`
(_init.py:846-848); `axes` is ascending. -/
def combineAxes (axes na : List Nat) : List Nat :=
  axes.reverse.foldl (fun na ax => (na.modify ax (· + na.getD (ax + 1) 0)).eraseIdx (ax + 1)) na

/-- `NewAxesArray.__getitem__` (_init.py:790-853) for an array of `ndim` dimensions with new axes `na`;
`inner` is `self.array.__getitem__`. -/
def newAxesGetitem (inner : List Key → Res (Arr α)) (ndim : Nat) (na : List Nat) (keys : List Key) :
    Res (Arr α) := do
  let fk ← fullKeys keys (na.sum + ndim)
  let st ← fk.zipIdx.foldlM naStep
    { newAxes := na, combine := [], isNew := naInsert true na (List.replicate ndim false), keys := [],
      axis := 0, dict := [] }
  let b ← inner st.keys
  let r ← mkNewAxes b (combineAxes st.combine st.newAxes)
  if st.dict.isEmpty then return r else mkBcast r st.dict []

/-- `Array.__getitem__` (_init.py:508-521) for an array of shape `shape` whose `_getitem_full_keys` is
`full`.  With a `newaxis` among the keys the array is first wrapped in a `NewAxesArray` with no new axes;
the keys that one passes back (812-844) contain no `newaxis`. -/
def arrayGetitem (full : List Key → Res (Arr α)) (shape : Res (List Nat)) (keys : List Key) :
    Res (Arr α) := do
  let s ← shape
  let fk ← fullKeys keys s.length
  if fk.any Key.isNewaxis then
    newAxesGetitem (fun ks => do let fk ← fullKeys ks s.length; full fk) s.length
      (List.replicate (s.length + 1) 0) fk
  else full fk

/-- `indices[i]` for in-range `i` of a Python sequence of ints. -/
def seqGet (l : List Int) (i : Int) : Int := l.getD (normIdx i l.length) 0

/-- `_ArrayAdapter._remap_new_key` (_init.py:1382-1421) for `indices` a Python tuple of ints. -/
def remapKey (indices : List Int) (k : Key) : Res Key :=
  let size := indices.length
  match k with
  | .int i => if inRange i size then .ok (.int (seqGet indices i)) else .error .index
  | .slice s => do let l ← pyGetSlice indices s; return .tuple l
  | .barr l => if l.length > size then .error .index
      else .ok (.tuple ((truePositions l).map (fun i => indices.getD i 0)))
  | .tuple l | .list l | .iarr l =>
      if l.all (inRange · size) then .ok (.tuple (l.map (seqGet indices))) else .error .index
  | .newaxis | .ellipsis | .bad => .error .type

/-- `_ArrayAdapter._remap_new_key` (_init.py:1382-1421) when the stored key is a boolean array: the *booleans* are
indexed.  A single boolean is then rejected by the constructor (1379); iterables give a tuple of booleans,
whose further treatment by NumPy is not modelled (`other`). -/
def remapBool (bools : List Bool) (k : Key) : Res Key :=
  match k with
  | .int i => if inRange i bools.length then .error .type else .error .index
  | .slice s => do let l ← pyGetSlice bools s; return .barr l
  | .newaxis | .ellipsis | .bad => .error .type
  | _ => .error .other

/-- The loops of `_ArrayAdapter._getitem_full_keys` (_init.py:1423-1462): combine the stored keys with the new
ones.  An int key has consumed its dimension already. -/
def adapterLoop : List Key → List Nat → List Key → Res (List Key)
  | [], shape, new => (new.zip shape).mapM (fun p => cleanupKey p.1 p.2)       -- 1456-1461
  | src, _, [] => .ok src                                                       -- 1450-1454
  | .int i :: src, shape, new => do
      let r ← adapterLoop src shape.tail new
      return .int i :: r
  | .slice s :: src, shape, k :: new => do
      let indices ← s.range (shape.headD 0)
      let k' ← remapKey indices k
      let r ← adapterLoop src shape.tail new
      return k' :: r
  | .barr l :: src, shape, k :: new => do
      let k' ← remapBool l k
      let r ← adapterLoop src shape.tail new
      return k' :: r
  | .tuple l :: src, shape, k :: new | .list l :: src, shape, k :: new | .iarr l :: src, shape, k :: new => do
      let k' ← remapKey l k
      let r ← adapterLoop src shape.tail new
      return k' :: r
  | .newaxis :: _, _, _ | .ellipsis :: _, _, _ | .bad :: _, _, _ => .error .type

/-- `_ArrayAdapter._getitem_full_keys` (_init.py:1423-1464). -/
def adapterFull (ortho : Bool) (c : Concrete α) (stored : List Key) (keys : List Key) : Res (Arr α) := do
  let r ← adapterLoop stored c.data.shape keys
  mkAdapter ortho c r

/-- The loop of `BroadcastArray._getitem_full_keys` over the keys after the leading ones
(_init.py:930-958): `ax` is `concrete_axis`, `removed` is `n_axes_removed`, `sizes` the broadcast shape of the
remaining axes. Returns `array_keys` and `new_broadcast_dict`. -/
def bcastLoop (dict : List (Nat × Nat)) : Nat → Nat → List Nat → List Key → Res (List Key × List (Nat × Nat))
  | _, _, _, [] => .ok ([], [])
  | ax, removed, sizes, k :: ks => do
    if dict.any (fun p => p.1 == ax) then
      let size := sizes.headD 0
      match k with
      | .slice s =>
        let r ← s.range size
        let (ak, d) ← bcastLoop dict (ax + 1) removed sizes.tail ks
        return (Key.full :: ak, (ax - removed, r.length) :: d)
      | .int i =>
        if inRange i size then
          let (ak, d) ← bcastLoop dict (ax + 1) (removed + 1) sizes.tail ks
          return (.int 0 :: ak, d)
        else throw .index
      | _ => throw .notImpl
    else
      let (ak, d) ← bcastLoop dict (ax + 1) (if k.isScalar then removed + 1 else removed) sizes.tail ks
      return (k :: ak, d)

/-- `all(key == slice(None) for key in array_keys)` (_init.py:960): comparing an ndarray with a slice gives an
array, whose truth value is ambiguous (`ValueError`) unless it has at most one element. -/
def allFull : List Key → Res Bool
  | [] => .ok true
  | k :: ks =>
    if k = Key.full then allFull ks
    else match k with
      | .iarr l => if l.length ≤ 1 then .ok false else .error .value
      | .barr l => if l.length ≤ 1 then .ok false else .error .value
      | _ => .ok false

/-- The underlying array of the result: unchanged if all its keys are `:` (_init.py:960-963). -/
def bcastSub (inner : List Key → Res (Arr α)) (a : Arr α) (ak : List Key) : Res (Arr α) := do
  let full ← allFull ak
  if full then return a else inner ak

/-- `BroadcastArray._getitem_full_keys` (_init.py:915-964). -/
def bcastFull (inner : List Key → Res (Arr α)) (a : Arr α) (dict : List (Nat × Nat)) (lead : List Nat)
    (keys : List Key) : Res (Arr α) := do
  let lead' ← slicedShape lead (keys.take lead.length)
  let sa ← a.shape
  let sizes ← shapeFromDict dict sa
  let (ak, d) ← bcastLoop dict 0 0 sizes (keys.drop lead.length)
  let sub ← bcastSub inner a ak
  mkBcast sub d lead'

/-- One step of the `while new_scalar_axes` loop of `TransposedArray._getitem_full_keys`
(_init.py:1700-1705). -/
def dropAxis (order : List Nat) (ax : Nat) : List Nat :=
  (order.filter (· ≠ ax)).map (fun a => if ax ≤ a then a - 1 else a)

/-- `TransposedArray._getitem_full_keys` (_init.py:1682-1707). -/
def transposedFull (inner : List Key → Res (Arr α)) (axes : List Nat) (keys : List Key) : Res (Arr α) := do
  let remapped ← axesInverse axes keys
  let new ← inner remapped
  let scalarAxes := (remapped.zipIdx.filter (·.1.isScalar)).map (·.2)
  mkTransposed new (scalarAxes.reverse.foldl dropAxis axes)

/-- The value of a computation that has not failed. -/
def okOr {β : Type} (r : Res β) (d : β) : β :=
  match r with
  | .ok b => b
  | .error _ => d

/-- `ArrayStack._getitem_full_keys` (_init.py:1799-1815): the object array is indexed by NumPy rules, then
every item at an index of `_sliced_shape` is replaced by the indexed item. -/
def stackFull (inner : List Nat → List Key → Res (Arr α)) (ss : List Nat) (items : List Nat → Arr α)
    (keys : List Key) : Res (Arr α) := do
  let sk := keys.take ss.length
  let ik := keys.drop ss.length
  let rs ← slicedShape ss sk
  -- positions into `self._stack` of the selected items
  let sel ← npFancy (⟨ss, id⟩ : NDA (List Nat)) sk
  if rs.isEmpty then inner (sel.get []) ik
  else
    let _ ← (ndindex rs).mapM (fun i =>
      if ¬ InB sel.shape i then .error PyErr.index          -- stack[index]
      else inner (sel.get i) ik)
    mkStack sel.shape (fun i =>
      if i ∈ ndindex rs then okOr (inner (sel.get i) ik) (items (sel.get i)) else items (sel.get i))

/-- `offsets = np.cumsum([0] + axis_lengths[:-1])` (_init.py:1999). -/
def tileOffsets (lens : List Nat) : List Nat := (List.range lens.length).map (fun i => (lens.take i).sum)

/-- `np.searchsorted(offsets - 1, i) - 1` (_init.py:2004, 2019): number of offsets `≤ i`, minus one; `-1` (Python:
the last tile) for a negative `i`. -/
def tileIndex (lens : List Nat) (i : Int) : Nat :=
  match (tileOffsets lens).countP (fun (o : Nat) => decide ((o : Int) ≤ i)) with
  | 0 => lens.length - 1
  | k + 1 => k

/-- `itertools.groupby(pairs, lambda axis_tile: axis_tile[1])` (_init.py:2020-2021): maximal runs of indices in the
same tile. -/
def groupTiles (lens : List Nat) : List Int → List (Nat × List Int)
  | [] => []
  | i :: is =>
    let t := tileIndex lens i
    match groupTiles lens is with
    | (t', g) :: rest => if t = t' then (t, i :: g) :: rest else (t, [i]) :: (t', g) :: rest
    | [] => [(t, [i])]

/-- The key given to one tile (_init.py:2027-2038): relative indices, as a slice if there is only one. -/
def tileKey (off : Nat) (g : List Int) : Key :=
  match g with
  | [i] => .slice ⟨some (i - off), some (i - off + 1), some 1⟩
  | _ => .iarr (g.map (· - off))

/-- The keys without trailing `slice(None)`s (_init.py:1977-1986). -/
def trimKeys (keys : List Key) : List Key := (keys.reverse.dropWhile (· = Key.full)).reverse

/-- The branch of `LinearMosaic._getitem_full_keys` for a slice or sequence selecting the positions `is` along the
axis (_init.py:2009-2050); `rev`: the tiles are reversed (2041-2043). -/
def mosaicMany [Inhabited α] (inner : Nat → List Key → Res (Arr α)) (lens : List Nat) (axis : Nat)
    (keys : List Key) (is : List Int) (rev : Bool) : Res (Arr α) := do
  let tiles ← (groupTiles lens is).mapM (fun g =>
    inner g.1 (keys.set axis (tileKey ((tileOffsets lens).getD g.1 0) g.2)))
  mkMosaic (if rev then tiles.reverse else tiles) (axis - ((keys.take axis).filter Key.isScalar).length)

/-- `axis_key.step is not None and axis_key.step < 0` (_init.py:2041-2042). -/
def PySlice.negStep (s : PySlice) : Bool :=
  match s.step with
  | some st => decide (st < 0)
  | none => false

/-- `LinearMosaic._getitem_full_keys` (_init.py:1976-2054) for the different kinds of key on the axis. -/
def mosaicAxis [Inhabited α] (inner : Nat → List Key → Res (Arr α)) (lens : List Nat) (axis : Nat)
    (keys : List Key) : Res (Arr α) :=
  match keys.getD axis Key.full with
  | .int i =>
    inner (tileIndex lens i) (keys.set axis (.int (i - (tileOffsets lens).getD (tileIndex lens i) 0)))
  | .slice s => do
    let r ← s.range lens.sum
    mosaicMany inner lens axis keys r s.negStep
  | .tuple l | .list l | .iarr l => mosaicMany inner lens axis keys l false
  | .barr l => if l.isEmpty then .error .index else .error .type   -- integers cannot be subtracted in place from booleans
  | _ => .error .type

/-- `LinearMosaic._getitem_full_keys` (_init.py:1976-2054).  `tshape i` is the shape of tile `i`. -/
def mosaicFull [Inhabited α] (inner : Nat → List Key → Res (Arr α)) (tshape : Nat → Res (List Nat))
    (n axis : Nat) (fullkeys : List Key) : Res (Arr α) := do
  let keys := trimKeys fullkeys
  if keys.length ≤ axis then
    let tiles ← (List.range n).mapM (fun i => inner i keys)
    mkMosaic tiles (axis - (keys.filter Key.isScalar).length)
  else
    let lens ← (List.range n).mapM (fun i => do let s ← tshape i; return s.getD axis 0)
    mosaicAxis inner lens axis keys

/-- `_Aggregation._getitem_full_keys` (_init.py:2647-2660). -/
def aggFull (inner : List Key → Res (Arr α)) (axis : Nat) (k : AggKind α) (keys : List Key) :
    Res (Arr α) := do
  let b ← inner (keys.take axis ++ [Key.full] ++ keys.drop axis)
  return .agg b (axis - ((keys.take axis).filter Key.isScalar).length) k

/-- `array[keys]` for every class. -/
def Arr.getitem [Inhabited α] : Arr α → List Key → Res (Arr α)
  | .adapter o c stored, keys =>
      arrayGetitem (adapterFull o c stored) (slicedShape c.data.shape stored) keys
  | .const s v dt, keys => do                                  -- 1249-1253
      let s' ← slicedShape s keys
      return .const s' v dt
  | .newAxes a na, keys => do
      let s ← a.shape
      newAxesGetitem (fun ks => a.getitem ks) s.length na keys
  | .bcast a d lead, keys =>
      arrayGetitem (bcastFull (fun ks => a.getitem ks) a d lead) (Arr.bcast a d lead).shape keys
  | .transposed a axes, keys =>
      arrayGetitem (transposedFull (fun ks => a.getitem ks) axes) (Arr.transposed a axes).shape keys
  | .stack ss items, keys =>
      arrayGetitem (stackFull (fun i ks => (items i).getitem ks) ss items) (Arr.stack ss items).shape keys
  | .mosaic n tiles axis, keys =>
      arrayGetitem (mosaicFull (fun i ks => (tiles i).getitem ks) (fun i => (tiles i).shape) n axis)
        (Arr.mosaic n tiles axis).shape keys
  | .asType a dt, keys => do                                   -- 1145-1149
      let b ← a.getitem keys
      return .asType b dt
  | .maskVal a v, keys => do                                   -- 1175-1177
      let b ← a.getitem keys
      return .maskVal b v
  | .agg a axis k, keys =>
      arrayGetitem (aggFull (fun ks => a.getitem ks) axis k) (Arr.agg a axis k).shape keys
  | .elem1 a op, keys =>                                       -- 3020-3022
      arrayGetitem (fun ks => do let b ← a.getitem ks; return .elem1 b op) a.shape keys
  | .elem2 a b op, keys =>                                     -- 3023-3025
      arrayGetitem (fun ks => do let a' ← a.getitem ks; let b' ← b.getitem ks; mkElem2 a' b' op) a.shape keys

end Biggus

import Verif.Py
import Mathlib.Data.List.Sort
/-
MODEL of biggus/experimental/key_grouper.py.
-/
namespace Biggus

/-- Python's `x or d` for `x` an integer or `None`. -/
def pyOr (x : Option Int) (d : Int) : Int :=
  match x with
  | none => d
  | some x => if x = 0 then d else x

/-- `normalize_slice(slice_instance, dim_length)` (key_grouper.py:19-34). -/
def normalizeSlice (s : PySlice) (n : Nat) : PySlice :=
  let start := pyOr s.start 0
  let stop := s.stop.getD n
  let step := if s.step = some 1 then none else s.step
  let stop := if stop < 0 then n + stop else stop
  let start := if start < 0 then n + start else start
  ⟨if start = 0 then none else some start, if stop = n then none else some stop, step⟩

/-- `sort_slice(key)` (key_grouper.py:48-50). -/
def sortSlice (n : Nat) (k : PySlice) : Int × Int := (pyOr k.start 0, k.stop.getD n)

/-- Tuples are compared lexicographically. -/
abbrev sliceLe (n : Nat) (k k' : PySlice) : Prop :=
  (sortSlice n k).1 < (sortSlice n k').1 ∨ (sortSlice n k).1 = (sortSlice n k').1 ∧ (sortSlice n k).2 ≤ (sortSlice n k').2

/-- `sorted(keys, key=sort_slice)`: a stable sort (key_grouper.py:52-53); which stable sort makes no difference to its result. -/
def sortKeys (n : Nat) (keys : List PySlice) : List PySlice := keys.insertionSort (sliceLe n)

/-- `all_equal(array)` (key_grouper.py:55-56); only called with at least one element. -/
def allEqual (l : List Int) : Bool := l.all (fun x => l.headD 0 == x)

/-- A group's slice: `(start, stop, step)`. -/
abbrev SliceTuple := Option Int × Option Int × Option Int

/-- `dict[k] = v`. -/
def dictSet {κ β : Type} [DecidableEq κ] : List (κ × β) → κ → β → List (κ × β)
  | [], k, v => [(k, v)]
  | (k', v') :: d, k, v => if k' = k then (k, v) :: d else (k', v') :: dictSet d k v

/-- The inner `while` loop that moves `index` over repeated stops (key_grouper.py:85-89); `rest` is `keys[index + 1:]`. -/
def skipRepeats (n : Nat) (stop : Int) (index : Nat) : List PySlice → Nat
  | [] => index
  | k :: rest => if pyOr k.stop n ≠ stop then index else skipRepeats n stop (index + 1) rest

/-- `keys[index]` for every input. -/
def keysAt (dimKeys : List (List PySlice)) (idx : List Nat) : Res (List PySlice) :=
  (dimKeys.zip idx).mapM (fun p => match p.1[p.2]? with
    | some k => .ok k
    | none => .error .index)

/-- State of the main loop: `start_index`, `current_index`, `groups`. -/
structure GrpState where
  start : List Nat
  current : List Nat
  groups : List (SliceTuple × List (List PySlice))

/-- `(starts[0] or None, current_stops[0] if current_stops[0] != dim_length else None, None)` (key_grouper.py:97-99). -/
def groupTuple (n : Nat) (start stop : Int) : SliceTuple :=
  (if start = 0 then none else some start, if stop ≠ n then some stop else none, none)

/-- The branch for equal stops (key_grouper.py:75-104). -/
def closeGroup (n : Nat) (dimKeys : List (List PySlice)) (st : GrpState) (start stop : Int) : GrpState :=
  let adjusted := (st.current.zip dimKeys).map (fun p => skipRepeats n stop p.1 (p.2.drop (p.1 + 1)))
  let current := adjusted.map (· + 1)
  { start := current
    current := current
    groups := dictSet st.groups (groupTuple n start stop)
      ((dimKeys.zip (st.start.zip adjusted)).map (fun p => (p.1.take (p.2.2 + 1)).drop p.2.1)) }

/-- The branch for different stops: move the lowest forward by one (key_grouper.py:106-111). -/
def moveLowest (st : GrpState) (stops : List Int) : GrpState :=
  let m := stops.foldl min (stops.headD 0)
  { st with current := (stops.zip st.current).map (fun p => if p.1 = m then p.2 + 1 else p.2) }

/-- The body of the main loop (key_grouper.py:70-111). -/
def grpBody (n : Nat) (dimKeys : List (List PySlice)) (st : GrpState) : Res GrpState := do
  let ks ← keysAt dimKeys st.start
  let starts := ks.map (fun k => pyOr k.start 0)
  if ¬ allEqual starts then throw .assertion
  else
    let cs ← keysAt dimKeys st.current
    let stops := cs.map (fun k => pyOr k.stop n)
    if allEqual stops then return closeGroup n dimKeys st (starts.headD 0) (stops.headD 0)
    else return moveLowest st stops

/-- The main loop (key_grouper.py:69-118); after the body has been executed `fuel + 1` times `RuntimeError` is raised. -/
def grpLoop (n : Nat) (dimKeys : List (List PySlice)) : Nat → GrpState → Res (List (SliceTuple × List (List PySlice)))
  | fuel, st =>
    if st.current = dimKeys.map List.length then .ok st.groups
    else do
      let st' ← grpBody n dimKeys st
      match fuel with
      | 0 => .error .runtime
      | fuel + 1 => grpLoop n dimKeys fuel st'

/-- `dimension_group_to_lowest_common(dim_length, dim_keys)` (key_grouper.py:37-120).  The dictionary is returned as the list of its items. -/
def dimensionGroup (n : Nat) (inputs : List (List PySlice)) : Res (List (SliceTuple × List (List PySlice))) :=
  let dimKeys := inputs.map (fun keys => sortKeys n (keys.map (fun k => normalizeSlice k n)))
  let zeros := dimKeys.map (fun _ => 0)
  grpLoop n dimKeys 9999 ⟨zeros, zeros, []⟩

/-- A multi-dimensional key: a tuple of slices. -/
abbrev KeyTuple := List PySlice

/-- `norm_key in subgroup_input_key` (key_grouper.py:174-175). -/
def inSub (dim n : Nat) (sub : List PySlice) (keys : KeyTuple) : Bool :=
  decide (normalizeSlice (keys.getD dim PySlice.full) n ∈ sub)

/-- `for keys in input_keys[:]: …` (key_grouper.py:173-177): the first list is the rest of the copy that is iterated over, the others are `input_keys` and
`new_input_keys`.  `input_keys.remove(keys)` removes the first occurrence. -/
def moveKeys (dim n : Nat) (sub : List PySlice) : List KeyTuple → List KeyTuple → List KeyTuple → List KeyTuple × List KeyTuple
  | [], cur, new => (cur, new)
  | k :: rest, cur, new => if inSub dim n sub k then moveKeys dim n sub rest (cur.erase k) (new ++ [k]) else moveKeys dim n sub rest cur new

/-- `for (input_keys, subgroup_input_key, new_input_keys) in per_input` (key_grouper.py:171-177).  The inputs are mutable lists: `lists` are the list
objects and the first argument says which object each input is.  Returns the objects afterwards and the new lists. -/
def takeSub (dim n : Nat) : List Nat → List (List PySlice) → List (List KeyTuple) → List (List KeyTuple) × List (List KeyTuple)
  | r :: refs, s :: subs, lists =>
    let m := moveKeys dim n s (lists.getD r []) (lists.getD r []) []
    let rest := takeSub dim n refs subs (lists.set r m.1)
    (rest.1, m.2 :: rest.2)
  | _, _, lists => (lists, [])

/-- The lists of a group: the caller's own list objects (as passed to `group_keys`) or lists made by it. -/
inductive GLists
  | caller (refs : List Nat)
  | own (lists : List (List KeyTuple))

/-- The current contents of a group's lists. -/
def GLists.vals (store : List (List KeyTuple)) : GLists → List (List KeyTuple)
  | .caller refs => refs.map (fun r => store.getD r [])
  | .own lists => lists

/-- The dictionary `grouped_inputs_keys`. -/
abbrev GDict := List (List SliceTuple × GLists)

/-- `for subgroup_key, subgroup_inputs_key in grouped_inputs_key` (key_grouper.py:164-181). -/
def splitGroup (dim n : Nat) (key : List SliceTuple) (refs : List Nat) :
    List (SliceTuple × List (List PySlice)) → List (List KeyTuple) → GDict → List (List KeyTuple) × GDict
  | [], lists, d => (lists, d)
  | g :: gs, lists, d =>
    let t := takeSub dim n refs g.2 lists
    splitGroup dim n key refs gs t.1 (dictSet d (key.set dim g.1) (.own t.2))

/-- `[[keys[dim] for keys in input_keys] for input_keys in group_inputs_keys]` (key_grouper.py:149-150). -/
def keysForDim (dim : Nat) (vals : List (List KeyTuple)) : Res (List (List PySlice)) :=
  vals.mapM (fun keys => keys.mapM (fun (k : KeyTuple) => match k[dim]? with
    | some s => .ok s
    | none => .error .index))

/-- The state of `group_keys`: the caller's list objects and the dictionary. -/
structure KState where
  store : List (List KeyTuple)
  dict : GDict

/-- One group in one dimension (key_grouper.py:149-181). -/
def processGroup (dim n : Nat) (st : KState) (g : List SliceTuple × GLists) : Res KState := do
  let forDim ← keysForDim dim (g.2.vals st.store)
  let subs ← dimensionGroup n forDim
  if subs.length = 1 then return st
  else
    let d := st.dict.filter (fun x => decide (x.1 ≠ g.1))
    return match g.2 with
    | .caller refs =>
      let r := splitGroup dim n g.1 refs subs st.store d
      ⟨r.1, r.2⟩
    | .own lists => ⟨st.store, (splitGroup dim n g.1 (List.range lists.length) subs lists d).2⟩

/-- `for dim, dim_len in enumerate(shape)` (key_grouper.py:145-181); the groups are those of a copy of the dictionary. -/
def dimLoop : Nat → List Nat → KState → Res KState
  | _, [], st => .ok st
  | dim, n :: shape, st => do
    let st' ← st.dict.foldlM (processGroup dim n) st
    dimLoop (dim + 1) shape st'

/-- `group_keys(shape, *inputs_keys)` (key_grouper.py:123-182): `store` are the caller's list objects, `refs` says which of them each argument is (the
same list may be passed twice).  Returns the items of the dictionary, and the caller's lists afterwards. -/
def groupKeys (shape : List Nat) (store : List (List KeyTuple)) (refs : List Nat) :
    Res (List (List SliceTuple × List (List KeyTuple)) × List (List KeyTuple)) := do
  let first ← match refs.head? with
    | some r => match (store.getD r []).head? with
      | some k => .ok k
      | none => .error .index
    | none => .error .index
  let st ← dimLoop 0 shape ⟨store, [(first.map (fun _ => (none, none, none)), .caller refs)]⟩
  return (st.dict.map (fun x => (x.1, x.2.vals st.store)), st.store)

end Biggus

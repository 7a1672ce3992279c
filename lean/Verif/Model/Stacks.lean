import Verif.Model.Arrays
/-
MODEL of further ways to build lazy arrays: `multidim_array_stack`, `astype`, `transpose()`.
-/
namespace Biggus

variable {α : Type}

/-- `order='C'` / `order='F'` (any case, _init.py:1867). -/
inductive Order | c | f
deriving DecidableEq

/-- `l[start:stop]` for the pairs of `_groups_of(length, len(l))` (_init.py:1588-1606): `range(0, len(l), length)` with
`None` as last end; `ValueError` for a zero step. -/
def groupsOf {β : Type} (length : Nat) (l : List β) : Res (List (List β)) :=
  if length = 0 then .error .value
  else .ok ((List.range ((l.length + length - 1) / length)).map (fun i => (l.drop (i * length)).take length))

/-- `l[i::num]` (_init.py:1893). -/
def strided {β : Type} [Inhabited β] (l : List β) (i num : Nat) : List β :=
  (List.range ((l.length - i + num - 1) / num)).map (fun q => l.getD (i + q * num) default)

/-- `ArrayStack(np.array(l, dtype=object))` for a list of arrays. -/
def stackList [Inhabited α] (l : List (Arr α)) : Res (Arr α) :=
  mkStack [l.length] (fun i => l.getD (i.headD 0) default)

/-- One iteration of the loop of `multidim_array_stack` (_init.py:1882-1905): the list is cut into pieces, each is
stacked.  (`// 0` raises ZeroDivisionError, here `other`.) -/
def mdStep [Inhabited α] (order : Order) (length : Nat) (l : List (Arr α)) : Res (List (Arr α)) :=
  match order with
  | .f =>
    if length = 0 then .error .other
    else if length = l.length then do                                -- 1890-1891
      let s ← stackList l
      return [s]
    else (List.range (l.length / length)).mapM (fun i => stackList (strided l i (l.length / length)))
  | .c => do
    let gs ← groupsOf length l
    gs.mapM stackList

/-- `ArrayStack.multidim_array_stack(arrays, shape, order)` (_init.py:1839-1908) for a one-dimensional sequence. -/
def multidimArrayStack [Inhabited α] (arrays : List (Arr α)) (shape : List Nat) (order : Order) : Res (Arr α) := do
  if shape.prod ≠ arrays.length then throw .value
  let l ← shape.reverse.foldlM (fun l length => mdStep order length l) arrays
  match l with
  | [] => throw .index
  | x :: _ => return x

/-- `Array.astype` (_init.py:500-502) and `AsDataTypeArray.astype` (1142-1143), which casts the *contained* array. -/
def Arr.astype (a : Arr α) (dt : Nat) : Arr α :=
  match a with
  | .asType a' _ => .asType a' dt
  | _ => .asType a dt

/-- `Array.transpose(axis)` (_init.py:568-579); `None` reverses the dimensions (1624-1625). -/
def Arr.transpose (a : Arr α) (axes : Option (List Nat)) : Res (Arr α) :=
  match axes with
  | none => do
    let s ← a.shape
    return .transposed a (List.range s.length).reverse
  | some axes => mkTransposed a axes

end Biggus

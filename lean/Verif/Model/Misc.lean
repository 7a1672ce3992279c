import Verif.Model.Eval
import Mathlib.Data.Rat.Defs
/-
MODEL of small user-facing functions of biggus/_init.py: axis arguments of the aggregations, `nbytes`, `size`,
`ensure_array` and the arithmetic operators.
-/
namespace Biggus

variable {α : Type}

/-! ### Axis arguments -/

/-- The `axis` argument a caller may pass: `None`, an integer, a list/tuple/... of objects (`none`: not an integer), a one-shot
iterator over objects, or anything else (a float, a string, a mapping, ...). -/
inductive AxisArg
  | none
  | int (i : Int)
  | seq (items : List (Option Int))
  | iterator (items : List (Option Int))
  | other

/-- The first half of `_normalise_axis` (_init.py:2682-2691): `None` or a tuple of ints.  `all(map(_is_scalar, axis))` exhausts a one-shot
iterator, `tuple(axis)` then finds nothing. -/
def axisTuple : AxisArg → Res (Option (List Int))
  | .none => .ok none
  | .int i => .ok (some [i])
  | .seq items => if items.all Option.isSome then .ok (some (items.filterMap id)) else .error .type
  | .iterator items => if items.all Option.isSome then .ok (some []) else .error .type
  | .other => .error .type

/-- The second half of `_normalise_axis` (_init.py:2692-2696). -/
def checkAxes (ndim : Nat) (axes : List Int) : Res (List Int) :=
  let axes := axes.map (fun (a : Int) => if 0 ≤ a then a else (ndim : Int) + a)
  if axes.all (fun (a : Int) => decide (0 ≤ a ∧ a < (ndim : Int))) then .ok axes else .error .value

/-- `_normalise_axis` (_init.py:2679-2696), for an array of `ndim` dimensions; `none` is the returned `None`. -/
def normaliseAxis (axis : AxisArg) (ndim : Nat) : Res (Option (List Int)) :=
  match axisTuple axis with
  | .error e => .error e
  | .ok none => .ok none
  | .ok (some axes) => (checkAxes ndim axes).map some

/-- The exception for an unsupported number of axes: `AxisSupportError` in `count`, `mean`, `std`, `var` (_init.py:2719-2721, 2845-2847,
2879-2881, 2910-2912), a bare `assert` in `min`, `max`, `sum` (2752, 2782, 2812). -/
def AggKind.axisError : AggKind α → PyErr
  | .count | .mean _ | .std _ | .var _ => .axisSupport
  | .min | .max | .sum => .assertion

/-- `biggus.count(a, axis)`, ..., `biggus.var(a, axis, ddof)` (_init.py:2700-2916). -/
def aggregate (k : AggKind α) (a : Arr α) (axis : AxisArg) : Res (Arr α) := do
  let s ← a.shape
  match ← normaliseAxis axis s.length with
  | some [i] => return .agg a i.toNat k
  | _ => throw k.axisError

/-! ### Sizes -/

/-- The value of a 64-bit signed integer computation. -/
def wrap64 (x : Int) : Int := (x + 2 ^ 63) % 2 ^ 64 - 2 ^ 63

/-- `Array.nbytes` (_init.py:486-489): `np.product` multiplies in 64-bit integers. -/
def nbytes (shape : List Nat) (itemsize : Nat) : Int :=
  wrap64 (shape.foldl (fun (p : Int) (n : Nat) => wrap64 (p * n)) 1 * itemsize)

/-- The units printed by `size`. -/
inductive SizeUnit | B | KiB | MiB | GiB | TiB
deriving DecidableEq, Repr

/-- `biggus.size` (_init.py:3310-3344) before formatting: the printed unit and the number formatted (exactly for `B`, with two
decimals otherwise). -/
def sizeOf (nbytes : Int) : ℚ × SizeUnit :=
  if nbytes < 2 ^ 10 then (nbytes, .B)
  else if nbytes < 2 ^ 20 then ((nbytes : ℚ) / 2 ^ 10, .KiB)
  else if nbytes < 2 ^ 30 then ((nbytes : ℚ) / 2 ^ 20, .MiB)
  else if nbytes < 2 ^ 40 then ((nbytes : ℚ) / 2 ^ 30, .GiB)
  else ((nbytes : ℚ) / 2 ^ 40, .TiB)

/-! ### Operators -/

/-- An operand of an arithmetic operator. -/
inductive Operand (α : Type)
  | arr (a : Arr α)                       -- a `biggus.Array`
  | numpy (c : Concrete α)                -- a `numpy.ndarray`
  | scalar (v : α) (dtype : Nat)          -- a Python or NumPy scalar (on the left of an operator: a Python scalar)
  | none                                  -- `None`
  | other                                 -- any other object that knows nothing about biggus

/-- `ensure_array` (_init.py:3289-3307). -/
def ensureArray : Operand α → Res (Arr α)
  | .arr a => .ok a
  | .numpy c => mkAdapter false c []
  | .scalar v dt => .ok (.const [] v dt)
  | .none | .other => .error .type

/-- `_Elementwise(a, b, ufunc, ma_op)` of a binary ufunc (_init.py:2945-3001, 3050-3108).  Without a second operand the ufunc is called
with too few arguments to provoke a `TypeError` (2967-2969).  `ok a b`: the ufunc is defined for the operands' dtypes (2994-2995). -/
def binaryFn (ok : Arr α → Arr α → Bool) (op : Op2 α) (x y : Operand α) : Res (Arr α) := do
  let a ← ensureArray x
  match y with
  | .none => throw PyErr.type
  | _ => pure ()
  let b ← ensureArray y
  let (a', b') ← broadcastArrays a b
  if ok a' b' then return .elem2 a' b' op else throw PyErr.type

/-- `try: return f(x, y)  except TypeError: return NotImplemented`, the body of all operator methods; `none` is `NotImplemented`. -/
def tryCall (f : Operand α → Operand α → Res (Arr α)) (x y : Operand α) : Res (Option (Arr α)) :=
  match f x y with
  | .ok a => .ok (some a)
  | .error .type => .ok none
  | .error e => .error e

/-- The arithmetic operators (Python 3; `__div__` is Python 2 only). -/
inductive PyOp | add | sub | mul | floordiv | truediv | pow
deriving DecidableEq, Repr

/-- The functions `biggus.add`, `sub`, `multiply`, `floor_divide`, `true_divide`, `power`: `_Elementwise` with the ufunc `np.add`, `np.subtract`,
... (_init.py:3134-3141). -/
inductive Ufunc | add | subtract | multiply | floor_divide | true_divide | power
deriving DecidableEq, Repr

/-- `Array.__add__`, ..., `Array.__pow__` (_init.py:581-658): `fn u` is the biggus function for the ufunc `u`. -/
def method (fn : Ufunc → Operand α → Operand α → Res (Arr α)) (op : PyOp) (self y : Operand α) : Res (Option (Arr α)) :=
  match op with
  | .add => tryCall (fn .add) self y                     -- 581-585
  | .sub => tryCall (fn .subtract) self y                -- 593-597
  | .mul => tryCall (fn .multiply) self y                -- 605-609
  | .floordiv => tryCall (fn .floor_divide) self y       -- 617-621
  | .truediv => tryCall (fn .true_divide) self y         -- 641-645
  | .pow => tryCall (fn .power) self y                   -- 653-659

/-- `Array.__radd__`, ..., `Array.__rpow__` (_init.py:587-665). -/
def rmethod (fn : Ufunc → Operand α → Operand α → Res (Arr α)) (op : PyOp) (self y : Operand α) : Res (Option (Arr α)) :=
  match op with
  | .add => tryCall (fn .add) y self                     -- 587-591
  | .sub => tryCall (fn .subtract) y self                -- 599-603
  | .mul => tryCall (fn .multiply) y self                -- 611-615
  | .floordiv => tryCall (fn .floor_divide) y self       -- 623-627
  | .truediv => tryCall (fn .true_divide) y self         -- 647-651
  | .pow => tryCall (fn .power) y self                   -- 661-665

/-- Python's `x op y` (data model, trusted): `x.__op__(y)`, then `y.__rop__(x)` if that is `NotImplemented`, then `TypeError`.  Scalars,
`None` and other objects return `NotImplemented` for a biggus operand and have no methods for it.  (`numpy.ndarray op biggus.Array` is
decided by NumPy: `numpyOperator` below.) -/
def pyOperator (fn : Ufunc → Operand α → Operand α → Res (Arr α)) (op : PyOp) (x y : Operand α) : Res (Arr α) :=
  let reflected : Res (Arr α) :=
    match y with
    | .arr _ =>
      match rmethod fn op y x with
      | .ok (some r) => .ok r
      | .ok none => .error .type
      | .error e => .error e
    | _ => .error .type
  match x with
  | .arr _ =>
    match method fn op x y with
    | .ok (some r) => .ok r
    | .ok none => reflected
    | .error e => .error e
  | .numpy _ => .error .other
  | _ => reflected

/-! ### NumPy arrays on the left of an operator -/

/-- What an operator gives: a lazy biggus array, or a NumPy array computed at once. -/
inductive OpResult (α V : Type)
  | lazy (e : Arr α)
  | eager (x : NDA V)

/-- `__array_priority__` of a biggus array: containers ask the contained array (_init.py:718-720), adapters their data source
(1343-1345; `attr c` is the attribute of the source, `none` if it has none); the other classes do not have the attribute. -/
def Arr.arrayPriority (attr : Concrete α → Option Int) : Arr α → Option Int
  | .adapter _ c _ => attr c
  | .newAxes a _ | .bcast a _ _ | .transposed a _ | .asType a _ | .maskVal a _ => a.arrayPriority attr
  | .const _ _ _ | .stack _ _ | .mosaic _ _ _ | .agg _ _ _ | .elem1 _ _ | .elem2 _ _ _ => none

/-- `x op b` for a NumPy array (or NumPy scalar) `x` with the elements `u`, and a biggus array `b` (NumPy's rule, trusted: `PyArray` binary
operators and `MaskedArray._delegate_binop`).  If the `__array_priority__` of `b` (-1000000 if it has none) exceeds that of `x`
(`prio`: 0 for an `ndarray`, 15 for a masked array), NumPy declines and Python calls `b.__rop__(x)`.  Otherwise NumPy converts
`b` with `Array.__array__`, that is `b.ndarray()` (_init.py:465-467; `md` is the mode of `ndarray()` and `lift` takes its elements to those of `x`),
and applies its operation `f`. -/
def numpyOperator [Inhabited α] {V W : Type} [Inhabited W] (fn : Ufunc → Operand α → Operand α → Res (Arr α)) (md : Mode α W) (lift : W → V)
    (f : V → V → V) (limit n : Nat) (prio : Int) (attr : Concrete α → Option Int) (op : PyOp) (c : Concrete α) (u : NDA V) (b : Arr α) :
    Res (OpResult α V) :=
  if prio < (b.arrayPriority attr).getD (-1000000) then
    match rmethod fn op (.arr b) (.numpy c) with
    | .ok (some e) => .ok (.lazy e)
    | .ok none => .error .type
    | .error e => .error e
  else
    match b.eval md limit n with
    | .error e => .error e
    | .ok y =>
      match npOp2 f u (y.map lift) with
      | .error e => .error e
      | .ok r => .ok (.eager r)

end Biggus

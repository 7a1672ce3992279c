import Verif.Model.Misc
/-
MODEL of `dtype` and `fill_value` of every class, of the dtype checks of the constructors, and of the dtype of evaluated results.
No array elements are looked at here.
-/
namespace Biggus

variable {α : Type}

/-- NumPy's rules for result dtypes (trusted, arbitrary): of `np.array([0], dtype) / 1.`, of the dtype `'i'`, of the ufuncs applied to
arrays, of a binary ufunc applied to an array and a Python `int`/`float` (value-based promotion), and of `np.array(ma.masked)`. -/
structure DTypes (α : Type) where
  trueDiv : Nat → Nat
  int : Nat
  op1 : Op1 α → Nat → Nat
  op2 : Op2 α → Nat → Nat → Nat
  op2Scalar : Op2 α → Nat → α → Nat
  float64 : Nat

/-- The dtype given to an `_Aggregation` (_init.py:2724, 2754, 2784, 2814, 2848, 2881, 2913). -/
def AggKind.dtype (T : DTypes α) (k : AggKind α) (source : Nat) : Nat :=
  match k with
  | .count => T.int
  | .min | .max | .sum => source
  | .mean _ | .std _ | .var _ => T.trueDiv source

/-- `dtype` of every class: 1329 (adapter), 1242 (constant), 698 (containers), 1139 (astype), 1788 (stack: the first item's, 1734), 1960
(mosaic: the first tile's), 2634 (aggregation), 3004 and 2961-2997 (element-wise, operands that are arrays). -/
def Arr.dtype (T : DTypes α) : Arr α → Nat
  | .adapter _ c _ => c.dtype
  | .const _ _ dt => dt
  | .newAxes a _ => a.dtype T
  | .bcast a _ _ => a.dtype T
  | .transposed a _ => a.dtype T
  | .stack ss items => (items (ss.map (fun _ => 0))).dtype T
  | .mosaic _ tiles _ => (tiles 0).dtype T
  | .asType _ dt => dt
  | .maskVal a _ => a.dtype T
  | .agg a _ k => k.dtype T (a.dtype T)
  | .elem1 a op => T.op1 op (a.dtype T)
  | .elem2 a b op => T.op2 op (a.dtype T) (b.dtype T)

/-- `ArrayStack.__init__` (_init.py:1730-1762) with the dtype check (1752). -/
def mkStackD (T : DTypes α) (ss : List Nat) (items : List Nat → Arr α) : Res (Arr α) := do
  let b ← mkStack ss items
  let _ ← (ndindex ss).mapM (fun i =>
    if (items i).dtype T ≠ (items (ss.map (fun _ => 0))).dtype T then (.error .value : Res Unit) else .ok ())
  return b

/-- `LinearMosaic.__init__` (_init.py:1913-1954) with the dtype check (1942-1943). -/
def mkMosaicD [Inhabited α] (T : DTypes α) (tiles : List (Arr α)) (axis : Nat) : Res (Arr α) := do
  let b ← mkMosaic tiles axis
  let _ ← tiles.tail.mapM (fun t =>
    if t.dtype T ≠ (tiles.headD default).dtype T then (.error .value : Res Unit) else .ok ())
  return b

/-- The dtype stored by `_Elementwise(a, b, op)` when it is created (_init.py:2979-2995): if `b` is given as a Python `int` or `float`
(`python`), NumPy's promotion with that *value* decides. -/
def elem2Declared (T : DTypes α) (op : Op2 α) (a : Arr α) (y : Operand α) (python : Bool) (b : Arr α) : Nat :=
  match y, python with
  | .scalar v _, true => T.op2Scalar op (a.dtype T) v
  | _, _ => T.op2 op (a.dtype T) (b.dtype T)

/-- The dtype of the result of `.ndarray()`: 1473-1484 (adapter; `np.array(ma.masked)` for a single masked element), 1255-1258 (constant),
855-857, 1105-1108 (new axes, broadcast), 1151-1153 (astype), 1709-1711 (transposed), 1825 (stack: `np.empty(dtype=self.dtype)`), 2057
(mosaic, likewise), 2662 with 311-315 (aggregation: the result node has the array's dtype), 3028-3031 (element-wise: the ufunc applied to
results of the engine, which have the operands' dtypes). -/
def Arr.evalDtype (T : DTypes α) : Arr α → Nat
  | .adapter _ c keys => match npIndex c.data keys with
    | .ok r => if r.shape = [] ∧ (r.get []).isNone then T.float64 else c.dtype
    | .error _ => c.dtype
  | .const _ _ dt => dt
  | .newAxes a _ => a.evalDtype T
  | .bcast a _ _ => a.evalDtype T
  | .transposed a _ => a.evalDtype T
  | .stack ss items => (Arr.stack ss items).dtype T
  | .mosaic n tiles axis => (Arr.mosaic n tiles axis).dtype T
  | .asType _ dt => dt
  | .maskVal a _ => a.evalDtype T
  | .agg a axis k => (Arr.agg a axis k).dtype T
  | .elem1 a op => T.op1 op (a.dtype T)
  | .elem2 a b op => T.op2 op (a.dtype T) (b.dtype T)

/-! ### Fill values -/

/-- NumPy's comparison of fill values (`==`), `np.isnan`, the default fill value of a dtype and whether a dtype is floating. -/
structure Fills (α : Type) where
  eq : α → α → Bool
  isnan : α → Bool
  default : Nat → α
  floating : Nat → Bool

/-- `fill_value_ok(array)` (_init.py:1737-1743, 1930-1936), `f` being `array.fill_value`. -/
def Fills.ok (F : Fills α) (dtype : Nat) (common f : α) : Bool :=
  if F.floating dtype then F.eq f common || (F.isnan common && F.isnan f) else F.eq f common

/-- One iteration of the loops over the parts (_init.py:1748-1749, 1944-1945); `none` is Python's `None`. -/
def Fills.step (F : Fills α) (dtype : Nat) (common : Option α) (f : α) : Option α :=
  match common with
  | none => none
  | some c => if F.ok dtype c f then some c else none

/-- After the loop (_init.py:1757-1762, 1950-1954): the common fill value, or the dtype's default. -/
def Fills.combine (F : Fills α) (dtype : Nat) (first : α) (others : List α) : α :=
  (others.foldl (F.step dtype) (some first)).getD (F.default dtype)

/-- `fill_value` of every class: 1333-1337 (adapter), 1792 with 1730-1762 (stack: the loop runs over *all* items), 1964 with 1926-1954
(mosaic: over the tiles after the first), 482-484 (all others: the dtype's default). -/
def Arr.fillValue (T : DTypes α) (F : Fills α) : Arr α → α
  | .adapter _ c _ => c.fill
  | .stack ss items => F.combine ((Arr.stack ss items).dtype T) ((items (ss.map (fun _ => 0))).fillValue T F)
      ((ndindex ss).map (fun i => (items i).fillValue T F))
  | .mosaic n tiles axis => F.combine ((Arr.mosaic n tiles axis).dtype T) ((tiles 0).fillValue T F)
      ((List.range (n - 1)).map (fun i => (tiles (i + 1)).fillValue T F))
  | a => F.default (a.dtype T)

end Biggus

import Verif.Model.Eval
/-
MODEL of the dtypes inside the aggregation handlers (_init.py:2304-2609): which in-place additions to their accumulators NumPy refuses.

`Model/Handlers.lean` computes with numbers; here only the kinds of the dtypes are followed.
-/
namespace Biggus

/-- `dtype.kind` of a dtype of numbers: `'b'`, `'u'`, `'i'`, `'f'`. -/
inductive Kind
  | bool | unsigned | signed | float
deriving DecidableEq, Repr

/-- The order of the kinds for NumPy's `same_kind` casting (NumPy manual, `numpy.can_cast`). -/
def Kind.rank : Kind → Nat
  | .bool => 0
  | .unsigned => 1
  | .signed => 2
  | .float => 3

/-- `np.can_cast(a, b, 'same_kind')`: a cast which does not go down in kind. -/
def Kind.castsTo (a b : Kind) : Bool := a.rank ≤ b.rank

/-- The kind of `np.promote_types(a, b)`: the larger kind.  (`uint64` and `int64` are promoted to `float64`; below, a signed operand is never added to a signed accumulator together
with an unsigned one.) -/
def Kind.promote (a b : Kind) : Kind := if a.rank ≤ b.rank then b else a

/-- `acc += x` for an array `acc`: computed in the promoted dtype and cast back by the rule `same_kind`; `TypeError` if that is not allowed. -/
def Kind.iadd (acc x : Kind) : Res Unit := if (acc.promote x).castsTo acc then .ok () else .error .type

/-- The kind of `np.sum(data, axis)`: booleans are added up as `int64` (NumPy manual, `numpy.sum`). -/
def Kind.sum : Kind → Kind
  | .bool => .signed
  | k => k

/-- The kind of `np.sum` of a chunk of masked data: the sum of a one-dimensional chunk without unmasked elements is `np.ma.masked`, which is a `float64`. -/
def Kind.maskedSum (ndim : Nat) (allMasked : Bool) (k : Kind) : Kind := if ndim = 1 ∧ allMasked then .float else k.sum

/-- The kind of `np.zeros(1, dtype) / 1.` (_init.py:2505, 2553): a float. -/
def Kind.overOne (_ : Kind) : Kind := .float

/-- The in-place additions of `process_data` on one chunk of an array of `ndim` dimensions with elements of kind `k`; `allMasked` says that the chunk has no unmasked element.
Plain: count 2315 (a Python integer), min and max 2343, 2373 (assignments), sum 2408, mean 2453, std and var 2520-2533 (in floats).
Masked: count 2327 (`int32` and `int64`), min and max 2358, 2388, sum 2429 (the data is filled first), mean 2486-2488, std and var 2579-2595 (in floats). -/
def processKinds {α : Type} (masked : Bool) (ndim : Nat) (k : Kind) (allMasked : Bool) : AggKind α → Res Unit
  | .count => if masked then Kind.iadd .signed .signed else .ok ()
  | .min => .ok ()
  | .max => .ok ()
  | .sum => k.iadd k.sum
  | .mean _ => if masked then do
      k.iadd .signed
      k.iadd .signed
      k.iadd (k.maskedSum ndim allMasked)
    else k.iadd k.sum
  | .std _ | .var _ => if masked then do
      k.overOne.iadd .bool
      k.overOne.iadd k.overOne
    else k.overOne.iadd k.overOne

/-- All chunks of one output element of an aggregation, given as the columns they contribute. -/
def runKinds {α V : Type} (masked : Bool) (isMasked : V → Bool) (ndim : Nat) (k : Kind) (g : AggKind α) (chunks : List (List V)) : Res Unit := do
  let _ ← chunks.mapM (fun col => processKinds masked ndim k (col.all isMasked) g)
  return ()

/-- An aggregation in `ndarray` mode, dtypes included. -/
def runTyped {α : Type} [Field α] [LinearOrder α] (sqrt : α → α) (ndim : Nat) (k : Kind) (g : AggKind α) (n : Nat) (chunks : List (List α)) : Res α := do
  runKinds false (fun _ => false) ndim k g chunks
  return (plainHandler sqrt g).run n chunks

/-- An aggregation in masked mode, dtypes included. -/
def runTypedMasked {α : Type} [Field α] [LinearOrder α] (sqrt : α → α) (ndim : Nat) (k : Kind) (g : AggKind α) (n : Nat) (chunks : List (List (Option α))) : Res (Option α) := do
  runKinds true Option.isNone ndim k g chunks
  return (maskedHandler sqrt g).run n chunks

end Biggus

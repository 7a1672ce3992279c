import Verif.Py
import Mathlib.Algebra.Field.Basic
import Mathlib.Algebra.Order.Field.Basic
import Mathlib.Order.Lattice
/-
MODEL of the aggregation streams handlers of biggus/_init.py (2304-2609).

All handlers work element by element of the *output*: the state kept for one output element only depends on
the column of input elements above it.  A `Handler` is that per-output-element behaviour; the array level
(`bootstrap` with a shape, `current_keys`, emission of chunks) is in `Model/Streams.lean`.

`V` is the type of the array elements: `α` in ndarray mode, `Option α` (`none` = masked) in masked mode.
Arithmetic is exact: dtypes, overflow and rounding are not modelled.  Masked arrays are modelled as carrying
a full mask array (see `sumMaskedChunkMask` for the `nomask` representation).
-/
namespace Biggus

/-- Per-output-element behaviour of an `_AggregationStreamsHandler` (_init.py:2227-2301):
`boot` = `bootstrap` (2234), `step` = `process_data` on the column of one chunk (2296), `fin n` = `finalise`
(2300), where `n` is `self.array.shape[self.axis]`; `emptyErr` is what `process_data` raises on a chunk of
length 0 along the axis, if it does. -/
structure Handler (V : Type) where
  σ : Type
  boot : σ
  step : σ → List V → σ
  fin : Nat → σ → V
  emptyErr : Option PyErr

/-- Feed the columns of the successive chunks of one output element to a handler and finalise.
`n` is the length of the aggregated axis of the source array. -/
def Handler.run {V : Type} (h : Handler V) (n : Nat) (chunks : List (List V)) : V :=
  h.fin n (chunks.foldl h.step h.boot)

section plain
variable {α : Type}

/-- `_CountStreamsHandler` (_init.py:2304-2315). -/
def countH [NatCast α] : Handler α where
  σ := Nat
  boot := 0
  step s col := s + col.length
  fin _ s := (s : α)
  emptyErr := none

/-- `_MinStreamsHandler` (_init.py:2330-2343): `process_data` *assigns* `np.min(data, axis)`. -/
def minH [Zero α] [Min α] : Handler α where
  σ := α
  boot := 0
  step s col := match col with
    | [] => s
    | x :: xs => xs.foldl min x
  fin _ s := s
  emptyErr := some .value

/-- `_MaxStreamsHandler` (_init.py:2362-2375). -/
def maxH [Zero α] [Max α] : Handler α where
  σ := α
  boot := 0
  step s col := match col with
    | [] => s
    | x :: xs => xs.foldl max x
  fin _ s := s
  emptyErr := some .value

/-- `_SumStreamsHandler` (_init.py:2394-2408). -/
def sumH [AddCommMonoid α] : Handler α where
  σ := α
  boot := 0
  step s col := s + col.sum
  fin _ s := s
  emptyErr := none

/-- `_MeanStreamsHandler` (_init.py:2432-2453). -/
def meanH [Field α] : Handler α where
  σ := α
  boot := 0
  step s col := s + col.sum
  fin n s := s / (n : α)
  emptyErr := none

/-- State of `_StdStreamsHandler`: `k`, `a`, `q` (_init.py:2503-2506, 2521). -/
structure StdState (α : Type) where
  k : Nat
  a : α
  q : α

/-- The loop body for one data slice (_init.py:2524-2535). -/
def welfordStep [Field α] (s : StdState α) (x : α) : StdState α :=
  let k := s.k + 1
  let temp := (x - s.a) / (k : α)
  { k := k, a := s.a + temp, q := s.q + temp * temp * ((k : α) * ((k : α) - 1)) }

/-- `_StdStreamsHandler.process_data` (_init.py:2517-2535): note `if self.k == 1` (2520), which is also true on a second
call if the first chunk had length 1. -/
def stdStep [Field α] (s : StdState α) (col : List α) : StdState α :=
  if s.k = 1 then
    match col with
    | [] => s
    | x :: xs => xs.foldl welfordStep { s with a := x }
  else col.foldl welfordStep s

/-- `_StdStreamsHandler` (_init.py:2491-2535); `sqrt` is `np.sqrt`. -/
def stdH [Field α] (sqrt : α → α) (ddof : Int) : Handler α where
  σ := StdState α
  boot := ⟨1, 0, 0⟩
  step := stdStep
  fin _ s := sqrt (s.q / ((s.k : α) - (ddof : α)))
  emptyErr := some .index

/-- `_VarStreamsHandler` (_init.py:2598-2602): squares the standard deviation. -/
def varH [Field α] (sqrt : α → α) (ddof : Int) : Handler α :=
  { stdH sqrt ddof with fin := fun n s => (stdH sqrt ddof).fin n s * (stdH sqrt ddof).fin n s }

end plain

section masked
variable {α : Type}

/-- The unmasked values of a column. -/
def unmasked (col : List (Option α)) : List α := col.filterMap id

/-- `_CountMaskedStreamsHandler` (_init.py:2318-2327). -/
def countMH [NatCast α] : Handler (Option α) where
  σ := Nat
  boot := 0
  step s col := s + (unmasked col).length
  fin _ s := some (s : α)
  emptyErr := none

/-- `np.min`/`np.max` of a masked column: the minimum of the unmasked values, masked if there is none. -/
def reduceMasked (f : α → α → α) (col : List (Option α)) : Option α :=
  match unmasked col with
  | [] => none
  | x :: xs => some (xs.foldl f x)

/-- `_MinMaskedStreamsHandler` (_init.py:2346-2359). -/
def minMH [Zero α] [Min α] : Handler (Option α) where
  σ := Option α
  boot := some 0
  step _ col := reduceMasked min col
  fin _ s := s
  emptyErr := some .value

/-- `_MaxMaskedStreamsHandler` (_init.py:2378-2391). -/
def maxMH [Zero α] [Max α] : Handler (Option α) where
  σ := Option α
  boot := some 0
  step _ col := reduceMasked max col
  fin _ s := s
  emptyErr := some .value

/-- `_SumMaskedStreamsHandler` (_init.py:2411-2429); state: (mask, running_total). -/
def sumMH [AddCommMonoid α] : Handler (Option α) where
  σ := Bool × α
  boot := (true, 0)
  step s col := (s.1 && col.all Option.isNone, s.2 + (col.map (·.getD 0)).sum)
  fin _ s := if s.1 then none else some s.2
  emptyErr := none

/-- State of `_MeanMaskedStreamsHandler` (_init.py:2461-2465). -/
structure MeanState (α : Type) where
  count : Nat
  maskedCount : Nat
  total : α

/-- `_MeanMaskedStreamsHandler.process_data` (_init.py:2485-2488).  `np.sum` of masked data sums the unmasked
values (the data of an all-masked sum is 0). -/
def meanMStep [Field α] (s : MeanState α) (col : List (Option α)) : MeanState α :=
  ⟨s.count + (unmasked col).length, s.maskedCount + col.countP Option.isNone, s.total + (unmasked col).sum⟩

/-- `_MeanMaskedStreamsHandler.finalise` (_init.py:2467-2482). -/
def meanMFin [Field α] [LinearOrder α] (mdtol : α) (s : MeanState α) : Option α :=
  -- mask = running_count == 0 (2469); division (2470-2471)
  let r : Option α := if s.count = 0 then none else some (s.total / (s.count : α))
  -- mdtol (2476-2480); 0/0 is nan and `nan > mdtol` is false
  if mdtol < 1 ∧ s.maskedCount + s.count ≠ 0 ∧
      mdtol < (s.maskedCount : α) / ((s.maskedCount + s.count : Nat) : α) then none
  else r

/-- `_MeanMaskedStreamsHandler` (_init.py:2456-2488). -/
def meanMH [Field α] [LinearOrder α] (mdtol : α) : Handler (Option α) where
  σ := MeanState α
  boot := ⟨0, 0, 0⟩
  step := meanMStep
  fin _ s := meanMFin mdtol s
  emptyErr := none

/-- Loop body of `_StdMaskedStreamsHandler.process_data` for one element (_init.py:2574-2595);
`k` is `running_count`. -/
def welfordMStep [Field α] (s : StdState α) (v : Option α) : StdState α :=
  let bootstrapped := s.k ≠ 0
  let x := v.getD 0
  let a := if bootstrapped then s.a else x
  match v with
  | none => { s with a := a }
  | some _ =>
    let k := s.k + 1
    if bootstrapped then
      let temp := (x - a) / (k : α)
      { k := k, a := a + temp, q := s.q + temp * temp * ((k : α) * ((k : α) - 1)) }
    else { s with k := k, a := a }

/-- `_StdMaskedStreamsHandler.process_data` (_init.py:2572-2595). -/
def stdMStep [Field α] (s : StdState α) (col : List (Option α)) : StdState α := col.foldl welfordMStep s

/-- `_StdMaskedStreamsHandler` (_init.py:2538-2595).  `finalise` (2560-2570): masked where nothing was
counted; NumPy's masked division also masks a zero denominator and `ma.sqrt` a negative argument. -/
def stdMH [Field α] [LinearOrder α] (sqrt : α → α) (ddof : Int) : Handler (Option α) where
  σ := StdState α
  boot := ⟨0, 0, 0⟩
  step := stdMStep
  fin _ s :=
    if s.k = 0 then none
    else if (s.k : α) - (ddof : α) = 0 then none
    else
      let q := s.q / ((s.k : α) - (ddof : α))
      if q < 0 then none else some (sqrt q)
  emptyErr := none

/-- `_VarMaskedStreamsHandler` (_init.py:2605-2609). -/
def varMH [Field α] [LinearOrder α] (sqrt : α → α) (ddof : Int) : Handler (Option α) :=
  { stdMH sqrt ddof with fin := fun n s => ((stdMH sqrt ddof).fin n s).map (fun x => x * x) }

end masked

/-- How a NumPy `MaskedArray` stores its mask: not at all (`nomask`, a 0-d boolean), or as an array of the
shape of the data. -/
inductive MaskRepr
  | nomask
  | full (shape : List Nat)
deriving DecidableEq, Repr

/-- `np.all(data.mask, axis=self.axis)` (_init.py:2428): a reduction of the *mask* over `axis`.  On the 0-d
`nomask` NumPy accepts only axis 0 (or -1); otherwise the axis is out of bounds (`ValueError`).  Returns the
shape of the result. -/
def sumMaskedChunkMask (mask : MaskRepr) (axis : Nat) : Res (List Nat) :=
  match mask with
  | .nomask => if axis = 0 then .ok [] else .error .value
  | .full shape => if axis < shape.length then .ok (shape.eraseIdx axis) else .error .value

end Biggus

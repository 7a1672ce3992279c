import Verif.Model.Eval
/-
MODEL.  `sum`, `mean`, `std` and `var` with rounding: `fl` rounds the result of an operation to the dtype of the accumulator, `npSum` is `np.sum` of the
part of a column that is in one chunk (NumPy is free to choose the order of the additions; which one it takes depends on the memory layout).
Simplification: `npSum` depends on the values of the column only, not on the shape and layout of the chunk; overflow and underflow are left out.
-/
namespace Biggus

section
variable {α : Type} [Field α] [LinearOrder α]

/-- `_SumStreamsHandler` (_init.py:2394-2408). -/
def sumRH (fl : α → α) (npSum : List α → α) : Handler α where
  σ := α
  boot := 0
  step s col := fl (s + npSum col)
  fin _ s := s
  emptyErr := none

/-- `_MeanStreamsHandler` (_init.py:2432-2453). -/
def meanRH (fl : α → α) (npSum : List α → α) : Handler α where
  σ := α
  boot := 0
  step s col := fl (s + npSum col)
  fin n s := fl (s / fl (n : α))
  emptyErr := none

/-- `_SumMaskedStreamsHandler` (_init.py:2411-2429). -/
def sumRMH (fl : α → α) (npSum : List α → α) : Handler (Option α) where
  σ := Bool × α
  boot := (true, 0)
  step s col := (s.1 && col.all Option.isNone, fl (s.2 + npSum (col.map (·.getD 0))))
  fin _ s := if s.1 then none else some s.2
  emptyErr := none

/-- State of `_MeanMaskedStreamsHandler` (_init.py:2461-2465): the counts are kept in the dtype of the array. -/
structure MeanRState (α : Type) where
  count : α
  maskedCount : α
  total : α

/-- `_MeanMaskedStreamsHandler.process_data` (_init.py:2485-2488); the sum of a masked array is that of its data with 0 where masked. -/
def meanRMStep (fl : α → α) (npSum : List α → α) (s : MeanRState α) (col : List (Option α)) : MeanRState α :=
  ⟨fl (s.count + ((unmasked col).length : α)), fl (s.maskedCount + (col.countP Option.isNone : α)), fl (s.total + npSum (col.map (·.getD 0)))⟩

/-- `_MeanMaskedStreamsHandler.finalise` (_init.py:2467-2482). -/
def meanRMFin (fl : α → α) (mdtol : α) (s : MeanRState α) : Option α :=
  let r : Option α := if s.count = 0 then none else some (fl (s.total / s.count))
  if mdtol < 1 ∧ fl (s.maskedCount + s.count) ≠ 0 ∧ mdtol < fl (s.maskedCount / fl (s.maskedCount + s.count)) then none
  else r

/-- `_MeanMaskedStreamsHandler` (_init.py:2456-2488). -/
def meanRMH (fl : α → α) (npSum : List α → α) (mdtol : α) : Handler (Option α) where
  σ := MeanRState α
  boot := ⟨0, 0, 0⟩
  step := meanRMStep fl npSum
  fin _ s := meanRMFin fl mdtol s
  emptyErr := none

/-- The loop body of `_StdStreamsHandler.process_data` for one data slice (_init.py:2524-2535); `k` is a Python integer. -/
def welfordRStep (fl : α → α) (s : StdState α) (x : α) : StdState α :=
  let k := s.k + 1
  let temp := fl (fl (x - s.a) / fl (k : α))
  { k := k, a := fl (s.a + temp), q := fl (s.q + fl (fl (temp * temp) * fl ((k : α) * ((k : α) - 1)))) }

/-- `_StdStreamsHandler.process_data` (_init.py:2517-2535). -/
def stdRStep (fl : α → α) (s : StdState α) (col : List α) : StdState α :=
  if s.k = 1 then
    match col with
    | [] => s
    | x :: xs => xs.foldl (welfordRStep fl) { s with a := x }
  else col.foldl (welfordRStep fl) s

/-- `_StdStreamsHandler` (_init.py:2491-2535); `sqrt` is `np.sqrt`, rounding included. -/
def stdRH (fl sqrt : α → α) (ddof : Int) : Handler α where
  σ := StdState α
  boot := ⟨1, 0, 0⟩
  step := stdRStep fl
  fin _ s := sqrt (fl (s.q / fl ((s.k : α) - (ddof : α))))
  emptyErr := some .index

/-- `_VarStreamsHandler` (_init.py:2598-2602). -/
def varRH (fl sqrt : α → α) (ddof : Int) : Handler α :=
  { stdRH fl sqrt ddof with fin := fun n s => fl ((stdRH fl sqrt ddof).fin n s * (stdRH fl sqrt ddof).fin n s) }

/-- State of `_StdMaskedStreamsHandler` (_init.py:2552-2558): `running_count` is a float. -/
structure StdRState (α : Type) where
  k : α
  a : α
  q : α

/-- The loop body of `_StdMaskedStreamsHandler.process_data` for one element (_init.py:2574-2595). -/
def welfordRMStep (fl : α → α) (s : StdRState α) (v : Option α) : StdRState α :=
  let x := v.getD 0
  let a := if s.k ≠ 0 then s.a else x
  match v with
  | none => { s with a := a }
  | some _ =>
    let k := fl (s.k + 1)
    if s.k ≠ 0 then
      let temp := fl (fl (x - a) / k)
      { k := k, a := fl (a + temp), q := fl (s.q + fl (fl (temp * temp) * fl (k * fl (k - 1)))) }
    else { s with k := k, a := a }

/-- `_StdMaskedStreamsHandler` (_init.py:2538-2595); `finalise` as in `stdMH`. -/
def stdRMH (fl sqrt : α → α) (ddof : Int) : Handler (Option α) where
  σ := StdRState α
  boot := ⟨0, 0, 0⟩
  step s col := col.foldl (welfordRMStep fl) s
  fin _ s :=
    if s.k = 0 then none
    else if fl (s.k - (ddof : α)) = 0 then none
    else
      let q := fl (s.q / fl (s.k - (ddof : α)))
      if q < 0 then none else some (sqrt q)
  emptyErr := none

/-- `_VarMaskedStreamsHandler` (_init.py:2605-2609). -/
def varRMH (fl sqrt : α → α) (ddof : Int) : Handler (Option α) :=
  { stdRMH fl sqrt ddof with fin := fun n s => ((stdRMH fl sqrt ddof).fin n s).map (fun x => fl (x * x)) }

/-- `ndarray()`, where `sum`, `mean`, `std` and `var` round. -/
def roundMode (fl : α → α) (npSum : List α → α) (sqrt : α → α) (cast : Nat → α → α) : Mode α α :=
  { ndMode sqrt cast with
    handler := fun k => match k with
      | .sum => sumRH fl npSum
      | .mean _ => meanRH fl npSum
      | .std ddof => stdRH fl sqrt ddof
      | .var ddof => varRH fl sqrt ddof
      | k => plainHandler sqrt k }

/-- `masked_array()`, where `sum`, `mean`, `std` and `var` round. -/
def roundMaMode (fl : α → α) (npSum : List α → α) (sqrt : α → α) (cast : Nat → α → α) : Mode α (Option α) :=
  { maMode sqrt cast with
    handler := fun k => match k with
      | .sum => sumRMH fl npSum
      | .mean mdtol => meanRMH fl npSum mdtol
      | .std ddof => stdRMH fl sqrt ddof
      | .var ddof => varRMH fl sqrt ddof
      | k => maskedHandler sqrt k }

end

end Biggus

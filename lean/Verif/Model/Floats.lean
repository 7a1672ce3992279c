import Verif.Model.Eval
import Verif.Spec.Floats
/-
MODEL of the aggregation handlers for floating-point data with infinities and NaN (biggus/_init.py:2304-2602).  Same code as Model/Handlers, with the
arithmetic of `Fl` in place of a field.  `countH`, `minH`, `maxH` and `sumH` of Model/Handlers need no field and are used as they are.
-/
namespace Biggus

variable {α : Type} [Field α] [LinearOrder α]

namespace Fl

omit [LinearOrder α] in
theorem num_add (x y : α) : (num x : Fl α) + num y = num (x + y) := rfl
omit [LinearOrder α] in
theorem zero_def : (0 : Fl α) = num 0 := rfl

/-- Addition of floats (in exact arithmetic) is associative and commutative: needed for `sumH`. -/
instance : AddCommMonoid (Fl α) where
  add_assoc a b c := by
    show add (add a b) c = add a (add b c)
    rcases a with x | (_ | _) | _ <;> rcases b with y | (_ | _) | _ <;> rcases c with z | (_ | _) | _ <;> try rfl
    exact congrArg num (add_assoc x y z)
  zero_add a := by
    show add (num 0) a = a
    rcases a with x | s | _ <;> try rfl
    exact congrArg num (zero_add x)
  add_zero a := by
    show add a (num 0) = a
    rcases a with x | s | _ <;> try rfl
    exact congrArg num (add_zero x)
  add_comm a b := by
    show add a b = add b a
    rcases a with x | (_ | _) | _ <;> rcases b with y | (_ | _) | _ <;> try rfl
    exact congrArg num (add_comm x y)
  nsmul := nsmulRec

end Fl

/-- `_MeanStreamsHandler` (_init.py:2432-2453). -/
def meanFH : Handler (Fl α) where
  σ := Fl α
  boot := 0
  step s col := s + col.sum
  fin n s := s.divNum (n : α)
  emptyErr := none

/-- The loop body of `_StdStreamsHandler.process_data` for one data slice (_init.py:2524-2535). -/
def welfordFStep (s : StdState (Fl α)) (x : Fl α) : StdState (Fl α) :=
  let k := s.k + 1
  let temp := (x - s.a).divNum (k : α)
  { k := k, a := s.a + temp, q := s.q + temp * temp * .num ((k : α) * ((k : α) - 1)) }

/-- `_StdStreamsHandler.process_data` (_init.py:2517-2535). -/
def stdFStep (s : StdState (Fl α)) (col : List (Fl α)) : StdState (Fl α) :=
  if s.k = 1 then
    match col with
    | [] => s
    | x :: xs => xs.foldl welfordFStep { s with a := x }
  else col.foldl welfordFStep s

/-- `_StdStreamsHandler` (_init.py:2491-2535); `f` is the square root of the finite numbers. -/
def stdFH (f : α → α) (ddof : Int) : Handler (Fl α) where
  σ := StdState (Fl α)
  boot := ⟨1, 0, 0⟩
  step := stdFStep
  fin _ s := (s.q.divNum ((s.k : α) - (ddof : α))).sqrt f
  emptyErr := some .index

/-- `_VarStreamsHandler` (_init.py:2598-2602). -/
def varFH (f : α → α) (ddof : Int) : Handler (Fl α) :=
  { stdFH f ddof with fin := fun n s => (stdFH f ddof).fin n s * (stdFH f ddof).fin n s }

/-- The handler used by `ndarray()` for float data. -/
def floatHandler (f : α → α) : AggKind (Fl α) → Handler (Fl α)
  | .count => countH
  | .min => minH
  | .max => maxH
  | .sum => sumH
  | .mean _ => meanFH
  | .std ddof => stdFH f ddof
  | .var ddof => varFH f ddof

/-- `ndarray()` for float data, as `ndMode`. -/
def floatMode (f : α → α) (cast : Nat → Fl α → Fl α) : Mode (Fl α) (Fl α) where
  leaf fill x := x.getD fill
  leaf0 _ x := x.getD 0
  const v := v
  cast := cast
  maskEq _ x := x
  handler := floatHandler f
  op1 op := some op.np
  op2 op := some op.np

/-! ### Masked data -/

/-- `numpy.ma`'s division by a finite number: masked where the divisor is 0 or the quotient is not finite (`_DomainedOperation`). -/
def maDiv (x : Fl α) (c : α) : Option (Fl α) := if c = 0 then none else if (x.divNum c).finite then some (x.divNum c) else none

/-- `ma.sqrt`: masked where the argument is negative or the root is not finite. -/
def maSqrt (f : α → α) (x : Fl α) : Option (Fl α) := if (x.sqrt f).finite then some (x.sqrt f) else none

/-- `_MeanMaskedStreamsHandler.process_data` (_init.py:2485-2488). -/
def meanMFStep (s : MeanState (Fl α)) (col : List (Option (Fl α))) : MeanState (Fl α) :=
  ⟨s.count + (unmasked col).length, s.maskedCount + col.countP Option.isNone, s.total + (unmasked col).sum⟩

/-- `_MeanMaskedStreamsHandler.finalise` (_init.py:2467-2482). -/
def meanMFFin (mdtol : α) (s : MeanState (Fl α)) : Option (Fl α) :=
  let r : Option (Fl α) := if s.count = 0 then none else maDiv s.total (s.count : α)
  if mdtol < 1 ∧ s.maskedCount + s.count ≠ 0 ∧
      mdtol < (s.maskedCount : α) / ((s.maskedCount + s.count : Nat) : α) then none
  else r

/-- `_MeanMaskedStreamsHandler` (_init.py:2456-2488), for a finite `mdtol`. -/
def meanMFH (mdtol : α) : Handler (Option (Fl α)) where
  σ := MeanState (Fl α)
  boot := ⟨0, 0, 0⟩
  step := meanMFStep
  fin _ s := meanMFFin mdtol s
  emptyErr := none

/-- Loop body of `_StdMaskedStreamsHandler.process_data` for one element (_init.py:2574-2595). -/
def welfordMFStep (s : StdState (Fl α)) (v : Option (Fl α)) : StdState (Fl α) :=
  let bootstrapped := s.k ≠ 0
  let x := v.getD 0
  let a := if bootstrapped then s.a else x
  match v with
  | none => { s with a := a }
  | some _ =>
    let k := s.k + 1
    if bootstrapped then
      let temp := (x - a).divNum (k : α)
      { k := k, a := a + temp, q := s.q + temp * temp * .num ((k : α) * ((k : α) - 1)) }
    else { s with k := k, a := a }

/-- `_StdMaskedStreamsHandler.process_data` (_init.py:2572-2595). -/
def stdMFStep (s : StdState (Fl α)) (col : List (Option (Fl α))) : StdState (Fl α) := col.foldl welfordMFStep s

/-- `_StdMaskedStreamsHandler` (_init.py:2538-2595). -/
def stdMFH (f : α → α) (ddof : Int) : Handler (Option (Fl α)) where
  σ := StdState (Fl α)
  boot := ⟨0, 0, 0⟩
  step := stdMFStep
  fin _ s := if s.k = 0 then none else (maDiv s.q ((s.k : α) - (ddof : α))).bind (maSqrt f)
  emptyErr := none

/-- `_VarMaskedStreamsHandler` (_init.py:2605-2609). -/
def varMFH (f : α → α) (ddof : Int) : Handler (Option (Fl α)) :=
  { stdMFH f ddof with fin := fun n s => ((stdMFH f ddof).fin n s).map (fun x => x * x) }

/-- The handler used by `masked_array()` for float data.  (An infinite or NaN `mdtol`: `mdtol < 1` is true of `-inf` only, which every fraction exceeds.) -/
def maFloatHandler (f : α → α) : AggKind (Fl α) → Handler (Option (Fl α))
  | .count => countMH
  | .min => minMH
  | .max => maxMH
  | .sum => sumMH
  | .mean (.num t) => meanMFH t
  | .mean (.inf true) => meanMFH (-1)
  | .mean _ => meanMFH 1
  | .std ddof => stdMFH f ddof
  | .var ddof => varMFH f ddof

/-- `masked_array()` for float data, as `maMode`.  NaN equals nothing: `masked_equal` with NaN masks nothing. -/
def maFloatMode (f : α → α) (cast : Nat → Fl α → Fl α) : Mode (Fl α) (Option (Fl α)) where
  leaf _ x := x
  leaf0 _ x := x
  const v := some v
  cast d x := x.map (cast d)
  maskEq v x := if v ≠ .nan ∧ x = some v then none else x
  handler := maFloatHandler f
  op1 op := op.ma
  op2 op := op.ma

end Biggus

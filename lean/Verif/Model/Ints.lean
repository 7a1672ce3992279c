import Verif.Model.Eval
import Mathlib.Algebra.Order.Ring.Rat
import Mathlib.Algebra.Field.Rat
/-
MODEL of the accumulators of `sum` and `mean` for arrays of machine integers, and of `count` (_init.py:2304-2327, 2394-2488).

`Model/Handlers.lean` treats the elements as numbers of a field.  Here the accumulators have the dtype of the source array, as in the code
(`np.zeros(shape, dtype=self.array.dtype)`), and wrap around.
-/
namespace Biggus

/-- A NumPy integer dtype: `int8` ... `int64` (`signed`) and `uint8` ... `uint64`. -/
structure IntType where
  signed : Bool
  bits : Nat
deriving DecidableEq

/-- A C cast of an integer to the dtype: reduction modulo `2 ^ bits` into the range of the dtype. -/
def IntType.wrap (t : IntType) (x : Int) : Int :=
  if t.signed then (x + 2 ^ (t.bits - 1)) % 2 ^ t.bits - 2 ^ (t.bits - 1) else x % 2 ^ t.bits

/-- The dtype in which `np.sum` adds up: the 64 bit integer of the same signedness (NumPy manual, `numpy.sum`, parameter `dtype`). -/
def IntType.wide (t : IntType) : IntType := ⟨t.signed, 64⟩

/-- `np.sum(data, axis)` of a column of integers. -/
def IntType.npSum (t : IntType) (col : List Int) : Int := col.foldl (fun s x => t.wide.wrap (s + x)) 0

/-- `self.running_total += np.sum(...)` (_init.py:2408, 2453, 2488): added in the wide dtype, then cast back to the dtype of `running_total`. -/
def IntType.addInto (t : IntType) (total x : Int) : Int := t.wrap (t.wide.wrap (total + x))

/-- `_SumStreamsHandler` (_init.py:2394-2408) for an integer array. Elements of integer arrays are integers among the rationals. -/
def intSumH (t : IntType) : Handler ℚ where
  σ := Int
  boot := 0
  step s col := t.addInto s (t.npSum (col.map Rat.num))
  fin _ s := s
  emptyErr := none

/-- `_MeanStreamsHandler` (_init.py:2432-2453) for an integer array: the division (true division, _init.py:17) is made on the wrapped total. -/
def intMeanH (t : IntType) : Handler ℚ where
  σ := Int
  boot := 0
  step s col := t.addInto s (t.npSum (col.map Rat.num))
  fin n s := s / n
  emptyErr := none

/-- `_SumMaskedStreamsHandler` (_init.py:2411-2429) for an integer array. -/
def intSumMH (t : IntType) : Handler (Option ℚ) where
  σ := Bool × Int
  boot := (true, 0)
  step s col := (s.1 && col.all Option.isNone, t.addInto s.2 (t.npSum (col.map (fun x => (x.getD 0).num))))
  fin _ s := if s.1 then none else some s.2
  emptyErr := none

/-- State of `_MeanMaskedStreamsHandler` for an integer array: all three have the dtype of the array (_init.py:2461-2465). -/
structure IntMeanState where
  count : Int
  maskedCount : Int
  total : Int

/-- `_MeanMaskedStreamsHandler.process_data` (_init.py:2485-2488) for a signed integer array; the counts are `int64`.  (Adding them to an
unsigned array raises: `IntType.meanMaskedAccepts`; so does a chunk of a one-dimensional array without unmasked elements: Model/Casts.) -/
def intMeanMStep (t : IntType) (s : IntMeanState) (col : List (Option ℚ)) : IntMeanState :=
  ⟨t.addInto s.count (unmasked col).length, t.addInto s.maskedCount (col.countP Option.isNone), t.addInto s.total (t.npSum ((unmasked col).map Rat.num))⟩

/-- `_MeanMaskedStreamsHandler.finalise` (_init.py:2467-2482).  `running_masked_count + running_count` is again of the dtype of the array; a
division by zero gives an infinity, or nan which compares false. -/
def intMeanMFin (t : IntType) (mdtol : ℚ) (s : IntMeanState) : Option ℚ :=
  let r : Option ℚ := if s.count = 0 then none else some ((s.total : ℚ) / s.count)
  let all := t.wrap (s.maskedCount + s.count)
  if mdtol < 1 ∧ (if all = 0 then 0 < s.maskedCount else mdtol < (s.maskedCount : ℚ) / all) then none else r

/-- `_MeanMaskedStreamsHandler` (_init.py:2456-2488) for a signed integer array. -/
def intMeanMH (t : IntType) (mdtol : ℚ) : Handler (Option ℚ) where
  σ := IntMeanState
  boot := ⟨0, 0, 0⟩
  step := intMeanMStep t
  fin _ s := intMeanMFin t mdtol s
  emptyErr := none

/-- `self.running_count += np.ma.count(...)` (_init.py:2486): NumPy refuses to cast the `int64` result to an unsigned dtype (`same_kind`
casting of in-place operators), with a `TypeError`. -/
def IntType.meanMaskedAccepts (t : IntType) : Res Unit := if t.signed then .ok () else .error .type

/-- `np.dtype('i')`, the declared dtype of `count` (_init.py:2724): a C `int`. -/
def int32 : IntType := ⟨true, 32⟩

/-- `_CountStreamsHandler` (_init.py:2304-2315) as the source of a result: the running count is a Python integer, and the chunk is stored into the `int32` result
(_init.py:311-315, 2727), by an unchecked cast.  (Between `count` and a further lazy operation the chunk of a count beyond `int32` is `int64`, NumPy's value-based
promotion; not modelled.) -/
def intCountH : Handler ℚ where
  σ := Nat
  boot := 0
  step s col := s + col.length
  fin _ s := (int32.wrap s : Int)
  emptyErr := none

/-- `_CountMaskedStreamsHandler` (_init.py:2318-2327): the running count is an `int32` array, to which `int64` counts are added. -/
def intCountMH : Handler (Option ℚ) where
  σ := Int
  boot := 0
  step s col := int32.addInto s (unmasked col).length
  fin _ s := some (s : ℚ)
  emptyErr := none

/-- `ndarray()` evaluation where the arrays summed and averaged have the integer dtype `t`. -/
def intMode (t : IntType) (cast : Nat → ℚ → ℚ) : Mode ℚ ℚ :=
  { ndMode id cast with
    handler := fun k => match k with
      | .sum => intSumH t
      | .mean _ => intMeanH t
      | k => (ndMode id cast).handler k }

/-- `ndarray()` evaluation where counts are kept in `int32`. -/
def countMode (cast : Nat → ℚ → ℚ) : Mode ℚ ℚ :=
  { ndMode id cast with
    handler := fun k => match k with
      | .count => intCountH
      | k => (ndMode id cast).handler k }

/-- `masked_array()` evaluation where counts are kept in `int32`. -/
def countMaskedMode (cast : Nat → ℚ → ℚ) : Mode ℚ (Option ℚ) :=
  { maMode id cast with
    handler := fun k => match k with
      | .count => intCountMH
      | k => (maMode id cast).handler k }

/-- `masked_array()` evaluation where the arrays averaged have the signed integer dtype `t`. -/
def intMaskedMode (t : IntType) (cast : Nat → ℚ → ℚ) : Mode ℚ (Option ℚ) :=
  { maMode id cast with
    handler := fun k => match k with
      | .sum => intSumMH t
      | .mean mdtol => intMeanMH t mdtol
      | k => (maMode id cast).handler k }

end Biggus

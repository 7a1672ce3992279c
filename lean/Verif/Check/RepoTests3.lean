import Verif.Check.RepoTests2
/-
CHECKS OF THE MODEL AGAINST THE PROJECT'S OWN TESTS, continued (see `RepoTests.lean`): aggregations, element-wise expressions,
operators and `save`.  The tests compare with NumPy; the expected numbers here are what NumPy's functions give by definition.
-/
namespace Biggus.RepoTests
open Biggus

/-! ### unit/init/test_{count,min,max,sum,mean,std_var}.py -/

/-- The chunk sizes used. -/
def limits : AggKind ℚ → List Nat
  | .min | .max | .std _ | .var _ => [1000000]
  | _ => [1, 3, 8, 1000000]

/-- `biggus.<k>(NumpyArrayAdapter(np.arange(12).reshape(shape)), axis=0).ndarray()`. -/
def plainAggs : List (List Nat × AggKind ℚ × List Nat × List ℚ) := [
  ([12], .count, [], [12]),
  ([12], .min, [], [0]),
  ([12], .max, [], [11]),
  ([12], .sum, [], [66]),
  ([12], .mean 1, [], [11 / 2]),
  ([12], .std 0, [], [143 / 12]),
  ([12], .std 1, [], [13]),
  ([3, 4], .count, [4], [3, 3, 3, 3]),
  ([3, 4], .min, [4], [0, 1, 2, 3]),
  ([3, 4], .max, [4], [8, 9, 10, 11]),
  ([3, 4], .sum, [4], [12, 15, 18, 21]),
  ([3, 4], .mean 1, [4], [4, 5, 6, 7]),
  ([3, 4], .std 0, [4], [32 / 3, 32 / 3, 32 / 3, 32 / 3]),
  ([3, 4], .std 1, [4], [16, 16, 16, 16])]

/-- For the tests' (large) chunk size and, except for the minimum, the maximum and the standard deviation (see C22,
`C23_std_drops_leading_singletons`), for small ones.  With the identity in place of
`np.sqrt`, `std` gives the variance. -/
example : plainAggs.all (fun t => (limits t.2.1).all (fun limit => decide ((do
    let a ← aggregate t.2.1 (np t.1) (.int 0)
    let r ← a.eval exMode limit 2
    return (r.shape, (ndindex r.shape).map r.get) : Res _) = .ok t.2.2))) = true := by decide +kernel

/-- A masked `np.ma.arange(12).reshape(shape)`. -/
def maskedRange (shape : List Nat) (mask : Nat → Bool) : Arr ℚ :=
  .adapter false ⟨⟨shape, fun i => if mask (flatIndex shape i) then none else some (flatIndex shape i : Nat)⟩, 999999, 0⟩ []

def m_no : Nat → Bool := fun _ => false
def m_all : Nat → Bool := fun _ => true
/-- `data[::2] = ma.masked` before reshaping. -/
def m_even : Nat → Bool := fun n => n % 2 == 0
def m_odd : Nat → Bool := fun n => n % 2 == 1
/-- `data[::2] = ma.masked` after reshaping. -/
def m_row02 : Nat → Bool := fun n => n / 4 % 2 == 0
def m_row1 : Nat → Bool := fun n => n / 4 % 2 == 1

/-- `.masked_array()` (`none` is masked). -/
def maskedAggs : List (List Nat × (Nat → Bool) × AggKind ℚ × List Nat × List (Option ℚ)) := [
  ([12], m_no, .count, [], [some 12]),
  ([12], m_no, .min, [], [some 0]),
  ([12], m_no, .max, [], [some 11]),
  ([12], m_no, .sum, [], [some 66]),
  ([12], m_no, .mean 1, [], [some (11 / 2)]),
  ([12], m_no, .std 0, [], [some (143 / 12)]),
  ([3, 4], m_no, .count, [4], [some 3, some 3, some 3, some 3]),
  ([3, 4], m_no, .min, [4], [some 0, some 1, some 2, some 3]),
  ([3, 4], m_no, .max, [4], [some 8, some 9, some 10, some 11]),
  ([3, 4], m_no, .sum, [4], [some 12, some 15, some 18, some 21]),
  ([3, 4], m_no, .mean 1, [4], [some 4, some 5, some 6, some 7]),
  ([3, 4], m_no, .std 0, [4], [some (32 / 3), some (32 / 3), some (32 / 3), some (32 / 3)]),
  ([12], m_even, .count, [], [some 6]),
  ([12], m_even, .min, [], [some 1]),
  ([12], m_even, .max, [], [some 11]),
  ([12], m_even, .sum, [], [some 36]),
  ([12], m_even, .mean 1, [], [some 6]),
  ([12], m_even, .std 0, [], [some (35 / 3)]),
  ([12], m_odd, .count, [], [some 6]),
  ([12], m_odd, .min, [], [some 0]),
  ([12], m_odd, .max, [], [some 10]),
  ([12], m_odd, .sum, [], [some 30]),
  ([12], m_odd, .mean 1, [], [some 5]),
  ([3, 4], m_even, .count, [4], [some 0, some 3, some 0, some 3]),
  ([3, 4], m_even, .min, [4], [none, some 1, none, some 3]),
  ([3, 4], m_even, .max, [4], [none, some 9, none, some 11]),
  ([3, 4], m_even, .sum, [4], [none, some 15, none, some 21]),
  ([3, 4], m_even, .mean 1, [4], [none, some 5, none, some 7]),
  ([3, 4], m_even, .std 0, [4], [none, some (32 / 3), none, some (32 / 3)]),
  ([3, 4], m_odd, .count, [4], [some 3, some 0, some 3, some 0]),
  ([3, 4], m_odd, .min, [4], [some 0, none, some 2, none]),
  ([3, 4], m_odd, .max, [4], [some 8, none, some 10, none]),
  ([3, 4], m_odd, .sum, [4], [some 12, none, some 18, none]),
  ([3, 4], m_odd, .mean 1, [4], [some 4, none, some 6, none]),
  ([3, 4], m_row02, .count, [4], [some 1, some 1, some 1, some 1]),
  ([3, 4], m_row02, .min, [4], [some 4, some 5, some 6, some 7]),
  ([3, 4], m_row02, .max, [4], [some 4, some 5, some 6, some 7]),
  ([3, 4], m_row02, .sum, [4], [some 4, some 5, some 6, some 7]),
  ([3, 4], m_row02, .mean 1, [4], [some 4, some 5, some 6, some 7]),
  ([3, 4], m_row1, .count, [4], [some 2, some 2, some 2, some 2]),
  ([3, 4], m_row1, .min, [4], [some 0, some 1, some 2, some 3]),
  ([3, 4], m_row1, .max, [4], [some 8, some 9, some 10, some 11]),
  ([3, 4], m_row1, .sum, [4], [some 8, some 10, some 12, some 14]),
  ([3, 4], m_row1, .mean 1, [4], [some 4, some 5, some 6, some 7]),
  ([12], m_all, .min, [], [none]),
  ([12], m_all, .max, [], [none]),
  ([12], m_all, .sum, [], [none])]

example : maskedAggs.all (fun t => (limits t.2.2.1).all (fun limit => decide ((do
    let a ← aggregate t.2.2.1 (maskedRange t.1 t.2.1) (.int 0)
    let r ← a.eval (maMode id (fun _ x => x)) limit 2
    return (r.shape, (ndindex r.shape).map r.get) : Res _) = .ok t.2.2.2))) = true := by decide +kernel

/-- The invalid axes. -/
example : ([AggKind.count, .mean 1, .std 0, .var 0] : List (AggKind ℚ)).all (fun k =>
      decide (errOf (aggregate k (np [12]) .none) = some .axisSupport) &&
      decide (errOf (aggregate k (np [3, 4]) (.seq [some 0, some 1])) = some .axisSupport)) = true ∧
    ([AggKind.min, .max, .sum] : List (AggKind ℚ)).all (fun k =>
      decide (errOf (aggregate k (np [12]) .none) = some .assertion) &&
      decide (errOf (aggregate k (np [3, 4]) (.seq [some 0, some 1])) = some .assertion)) = true ∧
    ([AggKind.count, .min, .max, .sum, .mean 1, .std 0, .var 0] : List (AggKind ℚ)).all (fun k =>
      decide (errOf (aggregate k (np [12]) (.int 1)) = some .value) &&
      decide (errOf (aggregate k (np [12]) (.int (-2))) = some .value)) = true := by decide +kernel

/-! ### test_aggregation.py -/

/-- `TestMdtol`: `np.ma.arange(12).reshape(3, 4)` with `data[2, 1:]` masked; `axis`, `mdtol`, expected `masked_array()`. -/
def mdtolTable : List (Nat × ℚ × List (Option ℚ)) := [
  (0, 1, [some 4, some 3, some 4, some 5]),
  (0, 0, [some 4, none, none, none]),
  (0, 0.32, [some 4, none, none, none]),
  (0, 0.34, [some 4, some 3, some 4, some 5]),
  (1, 0.74, [some (3 / 2), some (11 / 2), none]),
  (1, 0.76, [some (3 / 2), some (11 / 2), some 8])]

example : mdtolTable.all (fun t => decide ((do
    let a ← aggregate (.mean t.2.1) (maskedRange [3, 4] (fun n => decide (9 ≤ n))) (.int t.1)
    let r ← a.eval (maMode id (fun _ x => x)) 1000000 2
    return (ndindex r.shape).map r.get : Res _) = .ok t.2.2)) = true := by decide +kernel

/-- NumPy's mean of `np.arange(60).reshape(3, 4, 5)` along an axis. -/
def flowMean (axis : Nat) : List ℚ :=
  (ndindex ([3, 4, 5].eraseIdx axis)).map (fun i =>
    (((List.range ([3, 4, 5].getD axis 0)).map (fun j => (flatIndex [3, 4, 5] (i.insertIdx axis j) : ℚ))).sum) / ([3, 4, 5].getD axis 0 : Nat))

/-- `TestFlow`: `biggus.ndarrays([mean])` with `MAX_CHUNK_SIZE = 8`. -/
example : ∀ axis : Fin 3, (do
    let a ← aggregate (.mean 1) (np [3, 4, 5]) (.int axis.val)
    let r ← engineEval exMode 8 2 a
    return (r.shape, (ndindex r.shape).map r.get) : Res _) = .ok ([3, 4, 5].eraseIdx axis, flowMean axis) := by decide +kernel

/-! ### test_integration.py, test_elementwise.py, unit/init/test_Array.py -/

def subOp : Op2 ℚ := ⟨fun a b => a - b, some (fun a b => do let a ← a; let b ← b; return a - b)⟩
def mulOp : Op2 ℚ := ⟨fun a b => a * b, some (fun a b => do let a ← a; let b ← b; return a * b)⟩
def addOp : Op2 ℚ := ⟨fun a b => a + b, some (fun a b => do let a ← a; let b ← b; return a + b)⟩

/-- The biggus functions. -/
def fns : Ufunc → Operand ℚ → Operand ℚ → Res (Arr ℚ)
  | .add => binaryFn (fun _ _ => true) addOp
  | .subtract => binaryFn (fun _ _ => true) subOp
  | _ => binaryFn (fun _ _ => true) mulOp

/-- `test_mean_of_mean`. -/
example : values (do
    let m ← aggregate (.mean 1) (np [3, 4, 2]) (.int 1)
    aggregate (.mean 1) m (.int (-1))) = .ok ([3], [7 / 2, 23 / 2, 39 / 2]) := by decide +kernel

/-- `test_mean_of_difference` (with other numbers). -/
example : values (do
    let d ← fns .subtract (.arr (np [3, 4] 10)) (.arr (cst [4] 1))
    aggregate (.mean 1) d (.int 0)) = .ok ([4], [13, 14, 15, 16]) := by decide +kernel

/-- `test_add_integer`, `test_add_nd_array`, `test_add_non_supported_type`, `__radd__`, `__rsub__`, `__rmul__`, `a + None`. -/
example : values (fns .add (.numpy ⟨⟨[3], fun i => some ((i.headD 0 : Nat) * 2)⟩, 0, 0⟩) (.scalar 5 0)) = .ok ([3], [5, 7, 9]) ∧
    values (fns .add (.numpy (arange [4])) (.numpy ⟨⟨[4], fun i => some ((i.headD 0 : Nat) * 2)⟩, 0, 0⟩)) = .ok ([4], [0, 3, 6, 9]) ∧
    errOf (fns .add .other (.numpy (arange [12]))) = some .type ∧
    values (pyOperator fns .add (.scalar 5 0) (.arr (np [3]))) = .ok ([3], [5, 6, 7]) ∧
    values (pyOperator fns .sub (.scalar 5 0) (.arr (np [3]))) = .ok ([3], [5, 4, 3]) ∧
    values (pyOperator fns .mul (.scalar 5 0) (.arr (np [3]))) = .ok ([3], [0, 5, 10]) ∧
    errOf (pyOperator fns .add (.arr (np [2, 2])) .none) = some .type := by decide +kernel

/-- The broadcasting rows of `test_elementwise.py`, also with `[1:2]`. -/
example : values (fns .add (.arr (np [2, 3, 1])) (.arr (np [1, 4]))) =
      .ok ([2, 3, 4], [0, 1, 2, 3, 1, 2, 3, 4, 2, 3, 4, 5, 3, 4, 5, 6, 4, 5, 6, 7, 5, 6, 7, 8]) ∧
    values (cuts (fns .add (.arr (np [2, 3, 1])) (.arr (np [1, 4]))) [[sl 1 2]]) =
      .ok ([1, 3, 4], [3, 4, 5, 6, 4, 5, 6, 7, 5, 6, 7, 8]) := by decide +kernel

/-- `Test__masked_arrays`: `np.abs` of a masked array; no `ma_op`. -/
example : maValues (.ok (.elem1 (maskedRange [3, 2] (fun n => n % 3 == 0)) ⟨abs, some (Option.map abs)⟩)) =
      .ok ([3, 2], [none, some 1, some 2, none, some 4, some 5]) ∧
    errOf (maValues (.ok (.elem1 (maskedRange [3, 2] (fun n => n % 3 == 0)) ⟨abs, none⟩))) = some .type := by decide +kernel

/-! ### integration/test_aggregation.py: a filter written with new axes, broadcasts, a product and sums (6 instead of 1451 records) -/

/-- The filter matrix for the weights `{0: 4, 1: 2, 2: 1}`, with two more dimensions. -/
def filterMatrix : Arr ℚ := .adapter false ⟨⟨[6, 6, 1, 1], fun i =>
  some (match max (i.getD 0 0) (i.getD 1 0) - min (i.getD 0 0) (i.getD 1 0) with
    | 0 => 4 | 1 => 2 | 2 => 1 | _ => 0)⟩, 0, 0⟩ []

def filtered (limit : Nat) : Res (List Nat × List ℚ) := do
  let data := np [6, 1, 1]
  let f ← mkBcast filterMatrix [(2, 1), (3, 1)] []
  let d ← data.getitem [nx, el]
  let d ← mkBcast d [(0, 6)] []
  let p ← fns .multiply (.arr d) (.arr f)
  let s ← aggregate .sum p (.int 1)
  let s ← s.getitem [sl 2 (-2)]
  let b ← data.getitem [sl 2 (-2)]
  let e ← fns .subtract (.arr b) (.arr s)
  let m ← aggregate (.mean 1) e (.int 0)
  let r ← m.eval exMode limit 3
  return (r.shape, (ndindex r.shape).map r.get)

/-- Records 2 and 3 become `4·2 + 2·(1+3) + (0+4) = 20` and `4·3 + 2·(2+4) + (1+5) = 30`; the mean of `2 - 20` and `3 - 30` is `-45/2`. -/
example : filtered 1000000 = .ok ([1, 1], [-45 / 2]) ∧ filtered 36 = .ok ([1, 1], [-45 / 2]) := by decide +kernel

/-- The upstream test checks the shape only, and its arrays fit into one chunk.  With a smaller chunk size the operands of the subtraction
arrive in chunks of different extents and the result is wrong (`C24_mismatched_chunks_wrong`). -/
example : filtered 8 = .ok ([1, 1], [-35 / 2]) := by decide +kernel

/-! ### test_save.py -/

/-- `test_numbers`, and `TestWritePattern`: every row of the target is written, for several chunk sizes. -/
example : ∀ limit : Fin 14, (do
    let r ← save (limit.val + 1) [3, 4] (fun ks => do let b ← (np [3, 4] 10).getitem ks; b.eval exMode (limit.val + 1) 1) ⟨[3, 4], fun _ => 0⟩
    return (ndindex r.shape).map r.get : Res _) = .ok ((List.range 12).map (fun (n : Nat) => (n + 10 : ℚ))) := by decide +kernel

/-- `TestMaskedSave`. -/
example : (do
    let r ← save 4 [3, 4] (fun ks => do let b ← (maskedRange [3, 4] (· == 7)).getitem ks; b.eval (maMode id (fun _ x => x)) 4 1)
      ⟨[3, 4], fun _ => some 0⟩
    return r.get [1, 3] : Res _) = .ok none := by decide +kernel

end Biggus.RepoTests

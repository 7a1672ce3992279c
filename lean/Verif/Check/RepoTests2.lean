import Verif.Check.RepoTests
import Verif.Model.Ctors
import Verif.Model.Grouper
/-
CHECKS OF THE MODEL AGAINST THE PROJECT'S OWN TESTS, continued (see `RepoTests.lean`).
-/
namespace Biggus.RepoTests
open Biggus

/-! ### unit/init/test_NewAxesArray.py -/

/-- `_new_axes` of a `NewAxesArray`. -/
def newAxesOf (a : Res (Arr ℚ)) : Res (List Nat) := do
  match ← a with
  | .newAxes _ na => return na
  | _ => throw .other

/-- `Test___init__`, `Test_shape`: shape of the array, `new_axes`, resulting shape. -/
def newAxesShapes : List (List Nat × List Int × Res (List Nat)) := [
  ([3, 2], [1, 2], .error .value),
  ([3, 2], [1, 2, 0, 1], .error .value),
  ([1, 2], [-1, 0, 1], .error .value),
  ([], [3], .ok [1, 1, 1]),
  ([3, 1], [0, 0, 0], .ok [3, 1]),
  ([3, 2], [3, 1, 2], .ok [1, 1, 1, 3, 1, 2, 1, 1]),
  ([3, 2], [1, 0, 0], .ok [1, 3, 2]),
  ([3, 2], [0, 0, 2], .ok [3, 2, 1, 1])]

example : ∀ t ∈ newAxesShapes, shapeOf (newAxesCtor (cst t.1) t.2.1) = t.2.2 := by decide +kernel

/-- `test_nested_newaxes`. -/
example : shapeOf (do let a ← newAxesCtor (np [3]) [1, 0]; newAxesCtor a [0, 0, 2]) = .ok [1, 3, 1, 1] := by decide +kernel

/-- `Test__newaxis_keys`. -/
example : naInsert nx [0, 0, 0] [al, al] = [al, al] ∧ naInsert nx [1, 1, 1] [al, al] = [nx, al, nx, al, nx] ∧
    naInsert nx [3, 2, 2] [al, al] = [nx, nx, nx, al, nx, nx, al, nx, nx] := by decide +kernel

/-- `Test___getitem__`: the `_new_axes` of the result. -/
def newAxesKept : List (List Key × List Nat) := [
  ([el, nx], [1, 2, 0, 2]),
  ([nx, el], [2, 2, 0, 1]),
  ([nx, al, .int 0], [4, 0, 1]),
  ([.int 0, al, .int 0], [0, 1, 0, 1]),
  ([.int 0, .int 0, .int 0, el, .int 0], [1, 0, 0]),
  ([.int 0, .int 0, .int 0, .int 0, .int 0, .int 0, .int 0], [0]),
  ([.int 0, .int 0, nx, .int 0, .int 0, nx, .int 0, .int 0, .int 0], [2])]

example : ∀ t ∈ newAxesKept, newAxesOf (cuts (newAxesCtor (np [4, 3, 2]) [1, 2, 0, 1]) [t.1]) = .ok t.2 := by decide +kernel

/-- `Test___getitem__`: shapes and errors. -/
def newAxesCuts : List (List Key × Res (List Nat)) := [
  ([sl 0 1, el, sl 0 1], .ok [1, 3, 1]),
  ([sl 1 2, el, sl 3 1], .ok [0, 3, 0]),
  ([.int 0, el, .int 0], .ok [3]),
  ([.int 1], .error .index),
  ([.int (-2)], .error .index),
  ([.tuple [0, 0, 0], el], .ok [3, 3, 1]),
  ([.iarr [0, 0, 0], el], .error .notImpl)]

example : ∀ t ∈ newAxesCuts, shapes (cuts (newAxesCtor (np [3]) [1, 1]) [t.1]) = t.2.map (fun s => (s, s)) := by decide +kernel

/-- `Test_ndarray`, `Test_masked_array`. -/
example : values (newAxesCtor (np [24]) [1, 2]) = .ok ([1, 24, 1, 1], (List.range 24).map (fun (n : Nat) => (n : ℚ))) := by
  decide +kernel

/-! ### unit/init/test_BroadcastArray.py -/

/-- `Test___init__`, `Test_shape`. -/
def bcastShapes : List (List Nat × List (Int × Int) × List Int × Res (List Nat)) := [
  ([1, 3, 1, 5, 1], [(-1, 10)], [], .error .value),
  ([1, 3, 1, 5, 1], [(0, -1)], [], .error .value),
  ([3], [(0, 5)], [], .error .value),
  ([1, 3], [(0, 2)], [5, 3], .ok [5, 3, 2, 3]),
  ([1], [], [-1], .error .value),
  ([1, 3, 1, 5, 1], [(0, 10), (2, 0), (4, 15)], [3, 4], .ok [3, 4, 10, 3, 0, 5, 15])]

example : ∀ t ∈ bcastShapes, shapeOf (bcastCtor (np t.1) t.2.1 t.2.2.1) = t.2.2.2 := by decide +kernel

/-- `test_nested_broadcast_avoidance`: the dictionary and leading shape of the flattened broadcast, and the resulting shape. -/
example : (do
    let a ← bcastCtor (np [1, 3, 1, 5, 1]) [(0, 10), (4, 100)] [3, 2, 1]
    match ← bcastCtor a [(0, 5), (2, 15)] [4] with
    | .bcast (.adapter false c []) d lead =>
      let s ← (Arr.bcast (.adapter false c []) d lead).shape
      return (c.data.shape, decide (d.Perm [(0, 5), (2, 15), (4, 100)]), lead, s)
    | _ => throw PyErr.other : Res _) =
    .ok ([1, 3, 1, 5, 1], true, [4, 3, 2, 1], [4, 3, 2, 1, 5, 3, 15, 5, 100]) := by decide +kernel

/-- `Test___getitem__`. -/
def bcastCuts : List (List Nat × List (Int × Int) × List Int × List Key × Res (List Nat)) := [
  ([1, 3, 1, 5, 1], [(0, 10), (2, 0), (4, 15)], [], [el], .ok [10, 3, 0, 5, 15]),
  ([1, 3, 1, 5, 1], [(0, 10), (2, 0), (4, 15)], [], [upTo (-1)], .ok [9, 3, 0, 5, 15]),
  ([1, 3, 1, 5, 1], [(0, 10), (2, 0), (4, 15)], [], [al, .int (-1)], .ok [10, 0, 5, 15]),
  ([5, 1], [(1, 10)], [3, 4, 2], [al, .int (-1)], .ok [3, 2, 5, 10]),
  ([1, 2, 1], [(0, 3), (2, 3)], [2, 2], [upTo 1, .int 0, .int 0, .int 0, al], .ok [1, 3]),
  ([1, 36, 1, 1], [(0, 855), (2, 82), (3, 130)], [], [al, al, .int 30], .ok [855, 36, 130]),
  ([1, 2], [(0, 5)], [], [.iarr [1, 3, 4]], .error .notImpl),
  ([1, 3, 1, 5, 1], [(0, 10), (2, 0), (4, 15)], [2], [al, al, .int (-1), stp 2, stp 2], .ok [2, 10, 0, 3, 15])]

example : ∀ t ∈ bcastCuts,
    shapes (cuts (bcastCtor (np t.1) t.2.1 t.2.2.1) [t.2.2.2.1]) = t.2.2.2.2.map (fun s => (s, s)) := by decide +kernel

/-- `np.ma.masked_array([[1], [2], [3]], mask=[[1], [0], [1]])`. -/
def maskedColumn : Arr ℚ :=
  .adapter false ⟨⟨[3, 1], fun i => if i = [1, 0] then some 2 else none⟩, 999999, 0⟩ []

/-- `a.masked_array()` as shape and flat list. -/
def maValues (a : Res (Arr ℚ)) : Res (List Nat × List (Option ℚ)) := do
  let a ← a
  let r ← a.eval (maMode id (fun _ x => x)) 1000000 3
  return (r.shape, (ndindex r.shape).map r.get)

/-- `Test_masked_array`, `Test__broadcast_numpy_array`. -/
example : maValues (bcastCtor maskedColumn [(1, 2)] [2]) =
      .ok ([2, 3, 2], [none, none, some 2, some 2, none, none, none, none, some 2, some 2, none, none]) ∧
    maValues (cuts (bcastCtor maskedColumn [(1, 2)] []) [[sl 0 2, upTo (-1)]]) = .ok ([2, 1], [none, some 2]) ∧
    values (bcastCtor (np [3, 1]) [(1, 4)] []) = .ok ([3, 4], [0, 0, 0, 0, 1, 1, 1, 1, 2, 2, 2, 2]) ∧
    values (bcastCtor (np [3, 1]) [(1, 4)] [1]) = .ok ([1, 3, 4], [0, 0, 0, 0, 1, 1, 1, 1, 2, 2, 2, 2]) := by decide +kernel

/-- `_compute_broadcast_kwargs(s1, s2)`. -/
def kwargs (s1 s2 : List Nat) : Res (List Nat × (List (Nat × Nat) × List Nat) × (List (Nat × Nat) × List Nat)) := do
  let full ← computeBcastShape s1 s2
  return (full, bcastKwargs full s1, bcastKwargs full s2)

/-- `Test_compute_broadcast_dicts` (both orders of the arguments are tested). -/
def kwargsTable : List (List Nat × List Nat × List Nat × (List (Nat × Nat) × List Nat) × (List (Nat × Nat) × List Nat)) := [
  ([1, 2, 3], [], [1, 2, 3], ([], []), ([], [1, 2, 3])),
  ([], [], [], ([], []), ([], [])),
  ([1, 2, 3], [3], [1, 2, 3], ([], []), ([], [1, 2])),
  ([1, 2, 3], [3, 1, 3], [3, 2, 3], ([(0, 3)], []), ([(1, 2)], [])),
  ([1], [5, 10], [5, 10], ([(0, 10)], [5]), ([], []))]

set_option synthInstance.maxSize 100000 in
set_option synthInstance.maxHeartbeats 400000 in
example : (∀ t ∈ kwargsTable, kwargs t.1 t.2.1 = .ok (t.2.2.1, t.2.2.2.1, t.2.2.2.2) ∧
      kwargs t.2.1 t.1 = .ok (t.2.2.1, t.2.2.2.2, t.2.2.2.1)) ∧
    kwargs [2, 3] [1, 2, 4] = .error .value := by decide +kernel

/-- Is it a `BroadcastArray`? -/
def isBcast : Arr ℚ → Bool
  | .bcast _ _ _ => true
  | _ => false

/-- `Test_broadcast_arrays`: is each result a new `BroadcastArray`, and its shape. -/
def bcastTwo (s1 s2 : List Nat) : Res ((Bool × List Nat) × (Bool × List Nat)) := do
  let r ← broadcastArrays (np s1) (np s2)
  let s ← r.1.shape
  let s' ← r.2.shape
  return ((isBcast r.1, s), (isBcast r.2, s'))

example : bcastTwo [1, 2] [2] = .ok ((false, [1, 2]), (true, [1, 2])) ∧
    bcastTwo [2] [1, 2] = .ok ((true, [1, 2]), (false, [1, 2])) ∧
    bcastTwo [1, 2] [3, 1] = .ok ((true, [3, 2]), (true, [3, 2])) := by decide +kernel

/-! ### unit/init/test_ConstantArray.py -/

example : shapes (cuts (.ok (cst [30, 10, 20])) [[upTo 5]]) = .ok ([5, 10, 20], [5, 10, 20]) ∧
    shapes (cuts (.ok (cst [2, 3])) [[upTo 5, nx]]) = .ok ([2, 1, 3], [2, 1, 3]) ∧
    values (.ok (cst [3, 4, 5] 81)) = .ok ([3, 4, 5], List.replicate 60 81) ∧
    maValues (.ok (cst [3, 4, 5])) = .ok ([3, 4, 5], List.replicate 60 (some 0)) := by decide +kernel

/-! ### unit/init/test_TransposedArray.py -/

example : (axesForward [1, 3, 0, 2] ["a", "b", "c"] : Res (List String)) = .error .value ∧
    axesForward [1, 3, 0, 2] ["a", "b", "c", "d"] = .ok ["b", "d", "a", "c"] ∧
    axesInverse [1, 3, 0, 2] ["b", "d", "a", "c"] = .ok ["a", "b", "c", "d"] ∧
    axesForward [1, 3, 0, 2] ["a", "b", "c", "d", "e"] = .error .value := by decide +kernel

example : shapeOf (transposedCtor (cst [10, 20, 30]) [0, 1, 2]) = .ok [10, 20, 30] ∧
    shapeOf ((cst [10, 20, 30]).transpose none) = .ok [30, 20, 10] ∧
    shapeOf (transposedCtor (cst [10, 20, 30]) [2, 0, 1]) = .ok [30, 10, 20] := by decide +kernel

/-- `Test___getitem__`: keys and resulting shape; the elements are compared with NumPy's `orig.transpose(axes)[keys]`. -/
def transposedCuts : List (List Key × List Nat) := [
  ([al, al, al, al], [6, 7, 5, 4]),
  ([upTo 10, stp 2, stp (-1), sl 2 3], [6, 4, 5, 1]),
  ([upTo 10, .int 2, stp (-1), .int 1], [6, 5]),
  ([upTo 2, .int 0], [2, 5, 4]),
  ([el, upTo 2, .int 0], [6, 7, 2]),
  ([upTo 2, .int 0, al, nx, al], [2, 5, 1, 4])]

/-- `np.arange(...).reshape([5, 6, 4, 7]).transpose([1, 3, 0, 2])`. -/
def numpyTransposed : NDA ℚ := ⟨[6, 7, 5, 4], fun i =>
  (flatIndex [5, 6, 4, 7] [i.getD 2 0, i.getD 0 0, i.getD 3 0, i.getD 1 0] : Nat)⟩

example : ∀ t ∈ transposedCuts,
    shapeOf (cuts (transposedCtor (np [5, 6, 4, 7]) [1, 3, 0, 2]) [t.1]) = .ok t.2 ∧
    values (cuts (transposedCtor (np [5, 6, 4, 7]) [1, 3, 0, 2]) [t.1]) =
      (npIndex numpyTransposed t.1).map (fun r => (r.shape, (ndindex r.shape).map r.get)) := by decide +kernel

example : errOf (cuts (transposedCtor (np [5, 6, 4, 7]) [1, 3, 0, 2]) [[upTo 2, .int 0, al, .int 2, .int 1]]) = some .index := by
  decide +kernel

/-! ### unit/init/test_ArrayStack.py -/

def six : List (Arr ℚ) := (List.range 6).map (fun (i : Nat) => cst [] i)

example : values (multidimArrayStack six [3, 2] .c) = .ok ([3, 2], [0, 1, 2, 3, 4, 5]) ∧
    values (multidimArrayStack six [2, 3] .c) = .ok ([2, 3], [0, 1, 2, 3, 4, 5]) ∧
    values (multidimArrayStack (List.replicate 6 (np [4, 5])) [2, 3] .c) =
      .ok ([2, 3, 4, 5], (List.replicate 6 ((List.range 20).map (fun (n : Nat) => (n : ℚ)))).flatten) ∧
    values (multidimArrayStack six [3, 2] .f) = .ok ([3, 2], [0, 3, 1, 4, 2, 5]) ∧
    values (multidimArrayStack six [2, 3] .f) = .ok ([2, 3], [0, 2, 4, 1, 3, 5]) ∧
    errOf (multidimArrayStack six [3, 1] .c) = some .value := by decide +kernel

/-- `Test___getitem__`. -/
example : shapes (cuts (mkStack [2] (fun _ => cst [4, 3])) [[nx]]) = .ok ([1, 2, 4, 3], [1, 2, 4, 3]) ∧
    shapes (cuts (mkStack [2] (fun _ => cst [4, 3])) [[el, nx]]) = .ok ([2, 4, 3, 1], [2, 4, 3, 1]) := by decide +kernel

/-- `test_slice_copy` (without the copy). -/
example : values (cuts (mkStack [2, 22, 2] (fun i => np [] (flatIndex [2, 22, 2] i))) [[al, .tuple [3, 7, 11, 15, 18, 21], al]]) =
    .ok ([2, 6, 2], [6, 7, 14, 15, 22, 23, 30, 31, 36, 37, 42, 43, 50, 51, 58, 59, 66, 67, 74, 75, 80, 81, 86, 87]) := by
  decide +kernel

/-! ### Fill values: unit/init/test_ArrayStack.py, unit/init/test_LinearMosaic.py (`none` is NaN) -/

def floatFills : Fills (Option Nat) :=
  { eq := fun a b => a == b && a.isSome, isnan := Option.isNone, default := fun _ => some 1000, floating := fun _ => true }

def stringFills : Fills String :=
  { eq := fun a b => a == b, isnan := fun _ => false, default := fun _ => "N/A", floating := fun _ => false }

/-- Two parts with the given fill values; the loop of a stack looks at the first part again, that of a mosaic does not. -/
def bothFill {β : Type} (F : Fills β) (a b : β) : β × β := (F.combine 0 a [a, b], F.combine 0 a [b])

example : bothFill floatFills none none = (none, none) ∧ bothFill floatFills none (some 42) = (some 1000, some 1000) ∧
    bothFill floatFills (some 42) none = (some 1000, some 1000) ∧ bothFill floatFills (some 42) (some 42) = (some 42, some 42) ∧
    bothFill floatFills (some 42) (some 43) = (some 1000, some 1000) ∧ bothFill stringFills "foo" "foo" = ("foo", "foo") ∧
    bothFill stringFills "foo" "bar" = ("N/A", "N/A") := by decide +kernel

/-! ### unit/init/test_LinearMosaic.py, constructor errors of test_linear_mosaic.py -/

example : shapes (cuts (mkMosaic [cst [2, 3], cst [4, 3]] 0) [[nx]]) = .ok ([1, 6, 3], [1, 6, 3]) ∧
    shapes (cuts (mkMosaic [cst [2, 3], cst [4, 3]] 0) [[el, nx]]) = .ok ([6, 3, 1], [6, 3, 1]) := by decide +kernel

/-- Arbitrary dtype rules. -/
def someTypes : DTypes ℚ := ⟨fun d => d, 0, fun _ d => d, fun _ d _ => d, fun _ d _ => d, 0⟩

example : errOf (mosaicCtor someTypes [np [3, 4], np [3, 4]] (-1)) = some .value ∧
    errOf (mosaicCtor someTypes [np [3, 4], np [3, 4]] 2) = some .value ∧
    errOf (mosaicCtor someTypes [np [3, 4], .adapter false { arange [3, 4] with dtype := 1 } []] 0) = some .value ∧
    errOf (mosaicCtor someTypes [np [3, 4], np [3, 4]] 1) = none := by decide +kernel

/-! ### unit/init/test_MaskValueArray.py -/

example : maValues (cuts (.ok (.maskVal (np [5]) 3)) [[fromOn 2]]) = .ok ([3], [some 2, none, some 4]) ∧
    values (.ok (.maskVal (np [3]) 2)) = .ok ([3], [0, 1, 2]) ∧
    maValues (.ok (.maskVal (np [3]) 2)) = .ok ([3], [some 0, some 1, none]) ∧
    maValues (.ok (.maskVal (.adapter false ⟨⟨[3], fun i => if i = [0] then none else some (i.headD 0 : Nat)⟩, 0, 0⟩ []) 2)) =
      .ok ([3], [none, some 1, none]) := by decide +kernel

/-! ### unit/init/test__all_slices.py -/

example : allSlicesInner 14 false [4, 3, 5] =
      [[.int 0, .int 1, .int 2, .int 3], [sl 0 2, sl 2 3], [al]] ∧
    allSlicesInner 4 true [3, 5] = [[sl 0 1, sl 1 2, sl 2 3], [sl 0 4, sl 4 5]] := by decide +kernel

/-! ### unit/init/test__normalise_axis.py -/

def axisTable : List (AxisArg × Res (Option (List Int))) := [
  (.none, .ok none), (.int 0, .ok (some [0])), (.int 1, .ok (some [1])), (.seq [some 8], .ok (some [8])),
  (.seq [some 3, some 2], .ok (some [3, 2])), (.seq [some 4, some 1], .ok (some [4, 1])), (.int (-1), .ok (some [8])),
  (.seq [some (-1), some 3, some (-2)], .ok (some [8, 3, 7])), (.other, .error .type),
  (.seq [some 2, none, some 6], .error .type), (.seq [none, none, none], .error .type)]

example : axisTable.all (fun t => decide (normaliseAxis t.1 9 = t.2)) = true := by decide +kernel

/-! ### unit/init/test_size.py, test_Array.py: the number printed with two decimals lies within half a hundredth -/

def near (x : ℚ) (printed : ℚ) : Bool := decide (printed - 1 / 200 ≤ x ∧ x ≤ printed + 1 / 200)

def sizeTable : List (Int × ℚ × SizeUnit) := [
  (8, 8, .B), (1023, 1023, .B), (1024, 1, .KiB), (40000, 39.06, .KiB), (4000000, 3.81, .MiB), (4000000000, 3.73, .GiB),
  (4000000000000, 3.64, .TiB), (4000000000000000, 3637.98, .TiB), (9999999, 9.54, .MiB), (9999999999, 9.31, .GiB),
  (9999999999999, 9.09, .TiB), (9999999999999999, 9094.95, .TiB)]

example : ∀ t ∈ sizeTable, near (sizeOf t.1).1 t.2.1 = true ∧ (sizeOf t.1).2 = t.2.2 := by decide +kernel

/-- `Test_nbytes`. -/
example : nbytes [] 8 = 8 ∧ nbytes [4] 8 = 32 ∧ nbytes [2, 6, 1, 5] 8 = 480 ∧ nbytes [2, 6, 1, 5] 2 = 120 := by decide +kernel

/-! ### unit/experimental/test_key_grouper.py -/

abbrev S (a b : Option Int) : PySlice := ⟨a, b, none⟩

example : normalizeSlice ⟨none, none, some 1⟩ 3 = ⟨none, none, none⟩ ∧ normalizeSlice ⟨none, some (-1), none⟩ 10 = ⟨none, some 9, none⟩ ∧
    normalizeSlice ⟨some (-2), some (-1), none⟩ 10 = ⟨some 8, some 9, none⟩ ∧
    normalizeSlice ⟨some 0, none, none⟩ 10 = ⟨none, none, none⟩ ∧
    normalizeSlice ⟨some (-1), some (-3), some (-1)⟩ 10 = ⟨some 9, some 7, some (-1)⟩ ∧
    normalizeSlice ⟨some (-3), some (-1), some (-1)⟩ 10 = ⟨some 7, some 9, some (-1)⟩ := by decide +kernel

abbrev whole : SliceTuple := (none, none, none)

def dimTable : List (Nat × List (List PySlice) × List (SliceTuple × List (List PySlice))) := [
  (4, [[S (some 0) none]], [(whole, [[S none none]])]),
  (4, [[S none none], [S none none]], [(whole, [[S none none], [S none none]])]),
  (4, [[S none none, S none none], [S none none]], [(whole, [[S none none, S none none], [S none none]])]),
  (4, [[S (some 0) none], [⟨none, none, some 1⟩]], [(whole, [[S none none], [S none none]])]),
  (4, [[S none (some 2), S (some 2) none], [S none none]], [(whole, [[S none (some 2), S (some 2) none], [S none none]])]),
  (7, [[S none (some 2), S (some 2) (some 4), S (some 4) (some 7)], [S none (some 4), S (some 4) (some 5), S (some 5) none]],
    [((none, some 4, none), [[S none (some 2), S (some 2) (some 4)], [S none (some 4)]]),
     ((some 4, none, none), [[S (some 4) none], [S (some 4) (some 5), S (some 5) none]])]),
  (7, [[S (some 2) (some 4), S none (some 2), S (some 4) (some 7)], [S none (some 4), S (some 4) (some 5), S (some 5) none]],
    [((none, some 4, none), [[S none (some 2), S (some 2) (some 4)], [S none (some 4)]]),
     ((some 4, none, none), [[S (some 4) none], [S (some 4) (some 5), S (some 5) none]])])]

set_option synthInstance.maxSize 100000 in
set_option synthInstance.maxHeartbeats 400000 in
example : ∀ t ∈ dimTable, dimensionGroup t.1 t.2.1 = .ok t.2.2 := by decide +kernel

/-- `group_keys` as a dictionary (the lists are passed as distinct objects). -/
def groups (shape : List Nat) (inputs : List (List KeyTuple)) : Res (List (List SliceTuple × List (List KeyTuple))) := do
  let r ← groupKeys shape inputs (List.range inputs.length)
  return r.1

abbrev col : PySlice := S none none

def groupTable : List (List Nat × List (List KeyTuple) × List (List SliceTuple × List (List KeyTuple))) := [
  ([6, 2], [[[S none (some 3), col], [S (some 3) none, col]], [[col, col]]],
    [([whole, whole], [[[S none (some 3), col], [S (some 3) none, col]], [[col, col]]])]),
  ([6, 2], [[[S none (some 2), col], [S (some 2) (some 4), col], [S (some 4) none, col]], [[S none (some 4), col], [S (some 4) none, col]]],
    [([(none, some 4, none), whole], [[[S none (some 2), col], [S (some 2) (some 4), col]], [[S none (some 4), col]]]),
     ([(some 4, none, none), whole], [[[S (some 4) none, col]], [[S (some 4) none, col]]])]),
  ([6, 2], [[[S none (some 2), col], [S (some 2) (some 4), col], [S (some 4) none, col]]],
    [([(none, some 2, none), whole], [[[S none (some 2), col]]]),
     ([(some 2, some 4, none), whole], [[[S (some 2) (some 4), col]]]),
     ([(some 4, none, none), whole], [[[S (some 4) none, col]]])]),
  ([6], [[[S (some 0) (some 5)], [S (some 5) (some 6)]]],
    [([(none, some 5, none)], [[[S (some 0) (some 5)]]]), ([(some 5, none, none)], [[[S (some 5) (some 6)]]])])]

/-- Equal as dictionaries: the same items in any order. -/
example : ∀ t ∈ groupTable, (groups t.1 t.2.1).map (fun d => decide (d.length = t.2.2.length) && d.all (fun x => decide (x ∈ t.2.2)) &&
    t.2.2.all (fun x => decide (x ∈ d))) = .ok true := by decide +kernel

end Biggus.RepoTests

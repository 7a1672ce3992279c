import Verif.Props.Adapters
import Verif.Model.Stacks
/-
CHECKS OF THE MODEL AGAINST THE PROJECT'S OWN TESTS (not proofs of properties).

The sandbox cannot run the code.  The expectations written in /repo/biggus/tests were, by contrast, obtained from runs of the
real program (upstream's continuous integration), so they are the one source of observations of the program that is
available here.  This file transcribes them row by row; each table is evaluated in the *model* by the kernel.  A row on which
the model and the expectation differ makes the build fail.  Nothing in `Props/` depends on this file.
-/
namespace Biggus.RepoTests
open Biggus

/-! ### Abbreviations -/

def sl (a b : Int) : Key := .slice ⟨some a, some b, none⟩
def upTo (b : Int) : Key := .slice ⟨none, some b, none⟩
def fromOn (a : Int) : Key := .slice ⟨some a, none, none⟩
def stp (c : Int) : Key := .slice ⟨none, none, some c⟩
def fromBy (a c : Int) : Key := .slice ⟨some a, none, some c⟩
def al : Key := .slice ⟨none, none, none⟩
def nx : Key := .newaxis
def el : Key := .ellipsis

/-- `np.arange(prod(s)).reshape(s) + start`. -/
def arange (s : List Nat) (start : Nat := 0) : Concrete ℚ :=
  ⟨⟨s, fun i => some (flatIndex s i + start : Nat)⟩, 0, 0⟩

/-- `NumpyArrayAdapter(arange(s))`; used also where a test passes a bare ndarray to a container. -/
def np (s : List Nat) (start : Nat := 0) : Arr ℚ := .adapter false (arange s start) []
/-- `ConstantArray(s, v)`. -/
def cst (s : List Nat) (v : ℚ := 0) : Arr ℚ := .const s v 0

/-- Index again and again. -/
def cuts (a : Res (Arr ℚ)) (cs : List (List Key)) : Res (Arr ℚ) := do
  let a ← a
  cs.foldlM (fun a k => a.getitem k) a

/-- `a.ndarray()` as shape and flat list. -/
def values (a : Res (Arr ℚ)) : Res (List Nat × List ℚ) := do
  let a ← a
  let r ← a.eval exMode 1000000 3
  return (r.shape, (ndindex r.shape).map r.get)

/-- `a.shape` together with `a.ndarray().shape`. -/
def shapes (a : Res (Arr ℚ)) : Res (List Nat × List Nat) := do
  let a ← a
  let s ← a.shape
  let r ← a.eval exMode 1000000 3
  return (s, r.shape)

def shapeOf (a : Res (Arr ℚ)) : Res (List Nat) := do
  let a ← a
  a.shape

def errOf {β : Type} (r : Res β) : Option PyErr :=
  match r with
  | .ok _ => none
  | .error e => some e

/-! ### test_adapter.py: `test_getitem` -/

def adapterTable : List (List Nat × List (List Key) × Res (List Nat)) := [
  ([30, 40], [], .ok [30, 40]),
  ([30, 40], [[.int 5]], .ok [40]),
  ([30, 40], [[.int 5], [.int 3]], .ok []),
  ([30, 40], [[al, .int 6]], .ok [30]),
  ([30, 40], [[al, sl 1 5]], .ok [30, 4]),
  ([30, 40], [[al], [.int 4]], .ok [40]),
  ([30, 40], [[.int 5], [al]], .ok [40]),
  ([30, 40], [[upTo 10]], .ok [10, 40]),
  ([30, 40], [[al]], .ok [30, 40]),
  ([30, 40], [[stp (-2)]], .ok [15, 40]),
  ([30, 40], [[upTo 10], [.int 5]], .ok [40]),
  ([30, 40], [[upTo 10], [upTo 3]], .ok [3, 40]),
  ([30, 40], [[upTo 10], [stp 2]], .ok [5, 40]),
  ([30, 40], [[sl 5 10], [al, sl 2 6]], .ok [5, 4]),
  ([30, 40], [[al, sl 2 6], [sl 5 10]], .ok [5, 4]),
  ([30, 40], [[.bad]], .error .type),
  ([21, 5, 70, 30, 40], [[.tuple [1, 5], .int 0, .tuple [2, 5, 10], upTo 15]], .ok [2, 3, 15, 40]),
  ([21, 5, 2, 70, 30, 40], [[.int 0, .tuple [1, 4], .int 1, .tuple [2, 5, 10], upTo 15]], .ok [2, 3, 15, 40]),
  ([3, 4], [[.barr [false, true, false]]], .ok [1, 4]),
  ([3, 4], [[.barr [true, false, true]]], .ok [2, 4]),
  ([3, 4], [[.barr [false, false, false]]], .ok [0, 4]),
  ([3, 4], [[.barr [true, true, true]]], .ok [3, 4]),
  ([3, 4], [[al, .barr [true, false, true, true]]], .ok [3, 3]),
  ([3, 4], [[al, .barr [false, true, false, false]]], .ok [3, 1]),
  ([3, 4], [[al, .barr [true, true, true, true]]], .ok [3, 4]),
  ([3, 4], [[al, .barr [false, false, false, false]]], .ok [3, 0]),
  ([3, 4], [[.barr [true, true, true, false]]], .error .index),
  ([3, 4], [[al, .barr [true, true, true, true, false]]], .error .index),
  ([3, 4], [[al, al], [.barr [false, true, false]]], .ok [1, 4]),
  ([3, 4], [[al, al], [al, al], [.barr [false, true, true]], [.barr [true, false]]], .ok [1, 4])]

/-- Every row, for both adapters: the announced shape and the shape of the result. -/
example : ∀ t ∈ adapterTable, ∀ o : Bool,
    shapes (cuts (mkAdapter o (arange t.1) []) t.2.1) = t.2.2.map (fun s => (s, s)) := by decide +kernel

/-! ### unit/init/test__full_keys.py -/

def fullKeysTable : List (List Key × Nat × Res (List Key)) := [
  ([al, al], 2, .ok [al, al]),
  ([al], 2, .ok [al, al]),
  ([al, .int 2, .int 3], 2, .error .index),
  ([el], 2, .ok [al, al]),
  ([.int 1, el], 2, .ok [.int 1, al]),
  ([.int 1, el, .int 1, el], 4, .ok [.int 1, al, .int 1, al]),
  ([.int 1, el, .int 1, nx, el], 4, .ok [.int 1, al, .int 1, nx, al]),
  ([nx], 2, .ok [nx, al, al]),
  ([.iarr [0, 4, 5, 2], el], 1, .ok [.iarr [0, 4, 5, 2]]),
  ([nx, el, nx, nx], 2, .ok [nx, al, al, nx, nx]),
  ([al, el, .int 0, el, al], 4, .ok [al, .int 0, al, al]),
  ([stp (-1), el, sl 1 2], 2, .ok [stp (-1), sl 1 2])]

example : ∀ t ∈ fullKeysTable, fullKeys t.1 t.2.1 = t.2.2 := by decide +kernel

/-! ### unit/init/test__sliced_shape.py -/

def slicedShapeTable : List (List Nat × List Key × Res (List Nat)) := [
  ([4, 5, 6], [.int 0, .int 2, .int 1], .ok []),
  ([4, 5, 6], [al, al, al], .ok [4, 5, 6]),
  ([4, 5, 6], [upTo (-1), fromOn (-1), stp (-2)], .ok [3, 1, 3]),
  ([4, 5, 6], [sl 1 10, sl 1 15, sl 11 10], .ok [3, 4, 0]),
  ([4, 5, 6], [nx, al, nx, al, .int 0], .ok [1, 4, 1, 5]),
  ([4, 5, 6], [.iarr [0, 1], al, .int 0], .ok [2, 5]),
  ([4, 5, 6], [.iarr [0, 1], al, .iarr [1, 2, 3]], .ok [2, 5, 3]),
  ([4, 5, 6], [.tuple [1, 2], al, .int 0], .ok [2, 5]),
  ([4, 5, 6], [.bad], .error .value),
  ([4, 5, 6], [.int 0, al, .barr [false, false, false, true, true, true]], .ok [5, 3]),
  ([3, 2, 1], [al, al, al, el], .ok [3, 2, 1])]

example : ∀ t ∈ slicedShapeTable, slicedShape t.1 t.2.1 = t.2.2 := by decide +kernel

/-! ### test_linear_mosaic.py -/

def m1 : Res (Arr ℚ) := mkMosaic [np [3, 4]] 0
def m2 : Res (Arr ℚ) := mkMosaic [np [3, 4], np [3, 4]] 1

/-- `test_init`, `test_shape` (a negative axis and differing dtypes: see the checks of `Model/Ctors.lean` and
`Model/Meta.lean` below). -/
def mosaicShapes : List (List (List Nat) × Nat × Res (List Nat)) := [
  ([[3, 4]], 0, .ok [3, 4]),
  ([[3, 4], [3, 4]], 0, .ok [6, 4]),
  ([[3, 4], [3, 4]], 1, .ok [3, 8]),
  ([[3, 4], [3, 4]], 2, .error .value),
  ([[3, 4], [3, 5]], 0, .error .value),
  ([[3, 4], [3, 5]], 1, .ok [3, 9]),
  ([[3, 4], [5, 4]], 0, .ok [8, 4]),
  ([[3, 4], [5, 4]], 1, .error .value),
  ([[3]], 0, .ok [3]),
  ([[3, 4, 5]], 0, .ok [3, 4, 5]),
  ([[3, 4], [2, 4]], 0, .ok [5, 4])]

example : ∀ t ∈ mosaicShapes, shapeOf (mkMosaic (t.1.map (np ·)) t.2.1) = t.2.2 := by decide +kernel

/-- `test_getitem`, `test_ndarray`. -/
def mosaicValues : List (Res (Arr ℚ) × List Key × Res (List Nat × List ℚ)) := [
  (m1, [.int 1], .ok ([4], [4, 5, 6, 7])),
  (m1, [al, .int 2], .ok ([3], [2, 6, 10])),
  (m1, [.int 2, .int 1], .ok ([], [9])),
  (m2, [.int 1], .ok ([8], [4, 5, 6, 7, 4, 5, 6, 7])),
  (m2, [sl 1 2], .ok ([1, 8], [4, 5, 6, 7, 4, 5, 6, 7])),
  (m2, [sl 0 2], .ok ([2, 8], [0, 1, 2, 3, 0, 1, 2, 3, 4, 5, 6, 7, 4, 5, 6, 7])),
  (m2, [.slice ⟨some 2, some 0, some (-1)⟩],
    .ok ([2, 8], [8, 9, 10, 11, 8, 9, 10, 11, 4, 5, 6, 7, 4, 5, 6, 7])),
  (m2, [al, .int 5], .ok ([3], [1, 5, 9])),
  (m2, [al, fromBy 1 3], .ok ([3, 3], [1, 0, 3, 5, 4, 7, 9, 8, 11])),
  (m2, [stp (-2)], .ok ([2, 8], [8, 9, 10, 11, 8, 9, 10, 11, 0, 1, 2, 3, 0, 1, 2, 3])),
  (m2, [stp (-2), fromBy 1 3], .ok ([2, 3], [9, 8, 11, 1, 0, 3])),
  (m2, [.tuple [0, 0, 2, 1], fromBy 1 3], .ok ([4, 3], [1, 0, 3, 1, 0, 3, 9, 8, 11, 5, 4, 7])),
  (m2, [al, .tuple [3, 6, 1]], .ok ([3, 3], [3, 2, 1, 7, 6, 5, 11, 10, 9])),
  (m2, [.int 1, .int 6], .ok ([], [6])),
  (m2, [al, .tuple [0, 1, 3]], .ok ([3, 3], [0, 1, 3, 4, 5, 7, 8, 9, 11])),
  (m2, [.bad], .error .type),
  (m1, [], .ok ([3, 4], [0, 1, 2, 3, 4, 5, 6, 7, 8, 9, 10, 11])),
  (mkMosaic [np [3, 4], np [2, 4]] 0, [],
    .ok ([5, 4], [0, 1, 2, 3, 4, 5, 6, 7, 8, 9, 10, 11, 0, 1, 2, 3, 4, 5, 6, 7])),
  (mkMosaic [np [3, 4], np [3, 5]] 1, [],
    .ok ([3, 9], [0, 1, 2, 3, 0, 1, 2, 3, 4, 4, 5, 6, 7, 5, 6, 7, 8, 9, 8, 9, 10, 11, 10, 11, 12, 13, 14])),
  -- test__getitem_full_keys: an ndarray key on the other axis
  (mkMosaic [np [5, 2], np [5, 3]] 1, [.iarr [0, 1], al], .ok ([2, 5], [0, 1, 0, 1, 2, 2, 3, 3, 4, 5]))]

example : mosaicValues.all (fun t => decide (values (cuts t.1 [t.2.1]) = t.2.2)) = true := by decide +kernel

/-- `test_getitem_adjust_axis`, `test_getitem_adjust_axis_2`. -/
def mosaicAdjust : List (List Key × List Nat) := [
  ([.int 1, al, al], [4, 7]), ([al, .int 1, al], [3, 7]), ([.int 1, .int 1, al], [7])]

example : ∀ t ∈ mosaicAdjust,
    shapes (cuts (mkMosaic [np [3, 4, 5], np [3, 4, 2]] 2) [t.1]) = .ok (t.2, t.2) := by decide +kernel

/-! ### test_stack.py -/

def stackTable : List (List (List Key) × Res (List Nat)) := [
  ([], .ok [6, 70, 30, 40]),
  ([[.int 5]], .ok [70, 30, 40]),
  ([[.int 5], [.int 3]], .ok [30, 40]),
  ([[.int 5, .int 3]], .ok [30, 40]),
  ([[.int 5], [.int 3], [.int 2]], .ok [40]),
  ([[.int 5, .int 3, .int 2]], .ok [40]),
  ([[.int 5], [.int 3], [.int 2], [.int 1]], .ok []),
  ([[.int 5, .int 3, .int 2, .int 1]], .ok []),
  ([[.int 5], [.int 3, .int 2], [.int 1]], .ok []),
  ([[al, .int 6]], .ok [6, 30, 40]),
  ([[al, nx, .int 6]], .ok [6, 1, 30, 40]),
  ([[al, sl 1 5]], .ok [6, 4, 30, 40]),
  ([[al], [.int 4]], .ok [70, 30, 40]),
  ([[.int 5], [al]], .ok [70, 30, 40]),
  ([[upTo 10]], .ok [6, 70, 30, 40]),
  ([[upTo 10], [.int 5]], .ok [70, 30, 40]),
  ([[upTo 10], [upTo 3]], .ok [3, 70, 30, 40]),
  ([[upTo 10], [stp 2]], .ok [3, 70, 30, 40]),
  ([[sl 5 10], [al, sl 2 6]], .ok [1, 4, 30, 40]),
  ([[al, sl 2 6], [sl 5 10]], .ok [1, 4, 30, 40]),
  ([[.bad]], .error .value)]

example : ∀ t ∈ stackTable, shapeOf (cuts (mkStack [6, 70] (fun _ => np [30, 40])) t.1) = t.2 := by decide +kernel

/-- `test_ndarray`, without the largest row. -/
def stackValues : List (List Nat × List Nat) := [([1], [3]), ([1], [3, 4]), ([6], [3, 4]), ([6, 7], [3, 4])]

example : ∀ t ∈ stackValues,
    values (mkStack t.1 (fun i => np t.2 (flatIndex t.1 i * t.2.prod))) =
      .ok (t.1 ++ t.2, (List.range (t.1.prod * t.2.prod)).map (fun (n : Nat) => (n : ℚ))) := by decide +kernel

end Biggus.RepoTests

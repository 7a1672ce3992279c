import Verif.Props.Containers3
/-
Further failures of the code, on concrete arrays: what NumPy gives and what biggus gives.
-/
namespace Biggus
open Spec

/-- Two 1 x 2 constants (7 and 8) stretched to 3 x 2, one above the other. -/
def exBcastMosaic : Arr ℚ := .mosaic 2 (fun i => .bcast (.const [1, 2] (7 + i) 0) [(0, 3)] []) 0

/-- C14, C09: a slice of two elements or more out of a tile reaches the tile as an index array, which a broadcast array refuses on a stretched axis (`NotImplementedError`). -/
theorem C14_broadcast_tiles_fail :
    exBcastMosaic.shape = .ok [6, 2] ∧
    Res.view (exBcastMosaic.eval exMode 100 1) = .ok ([6, 2], [7, 7, 7, 7, 7, 7, 8, 8, 8, 8, 8, 8]) ∧
    (exBcastMosaic.getitem [.slice ⟨some 1, some 4, none⟩]).map (fun _ => ()) = .error .notImpl ∧
    Res.view (exBcastMosaic.getitem [.slice ⟨some 2, some 4, none⟩] >>= fun a => a.eval exMode 100 1) = .ok ([2, 2], [7, 7, 8, 8]) := by
  refine ⟨by decide +kernel, by decide +kernel, by decide +kernel, by decide +kernel⟩

/-- C14: a mosaic of empty tiles cannot be indexed by an integer on another axis. -/
theorem C14_empty_mosaic_fails :
    ∃ b : Arr ℚ, b.shape = .ok [0, 2] ∧ Res.view (b.eval exMode 100 1) = .ok ([0, 2], []) ∧ (b.getitem [Key.full, .int 0]).map (fun _ => ()) = .error .index :=
  ⟨.mosaic 2 (fun _ => .const [0, 2] 0 0) 0, by decide +kernel, by decide +kernel, by decide +kernel⟩

/-- C14: the tuple `(-1,)` on a mosaic of one tile selects nothing instead of the last element (`slice(-1, 0)`). -/
theorem C14_negative_index_in_tuple_wrong :
    ∃ b : Arr ℚ, b.shape = .ok [3] ∧
      Res.view (b.eval exMode 100 1 >>= fun x => npIndex x [.tuple [-1]]) = .ok ([1], [4]) ∧
      Res.view (b.getitem [.tuple [-1]] >>= fun a => a.eval exMode 100 1) = .ok ([0], []) :=
  ⟨.mosaic 1 (fun _ => .const [3] 4 0) 0, by decide +kernel, by decide +kernel, by decide +kernel⟩

/-- C09: indexing broadcast arrays.  A tuple on a stretched axis raises `NotImplementedError`, an array of two indices or more on another axis `ValueError` (its comparison with a slice has no truth value), and a slice that selects
nothing of a leading dimension `ValueError`. -/
theorem C09_keys_refused :
    ∃ b : Arr ℚ, b.shape = .ok [2, 3, 2] ∧ Res.view (b.eval exMode 100 1) = .ok ([2, 3, 2], [5, 5, 5, 5, 5, 5, 5, 5, 5, 5, 5, 5]) ∧
      (b.getitem [Key.full, .tuple [0, 2]]).map (fun _ => ()) = .error .notImpl ∧
      (b.getitem [Key.full, Key.full, .iarr [1, 0]]).map (fun _ => ()) = .error .value ∧
      (b.getitem [.slice ⟨some 0, some 0, none⟩]).map (fun _ => ()) = .error .value ∧
      Res.view (b.getitem [Key.full, .slice ⟨some 0, some 0, none⟩] >>= fun a => a.eval exMode 100 1) = .ok ([2, 0, 2], []) :=
  ⟨.bcast (.const [1, 2] 5 0) [(0, 3)] [2], by decide +kernel, by decide +kernel, by decide +kernel, by decide +kernel, by decide +kernel, by decide +kernel⟩

/-- C03: an adapter accepts a slice with step 0, and then has no shape and cannot be evaluated; NumPy raises `ValueError` at once. -/
theorem C03_zero_step_accepted :
    ((Arr.adapter true exSource [] : Arr ℚ).getitem [.slice ⟨none, none, some 0⟩]).map Arr.shape = .ok (.error .value) ∧
      (npIndex exSource.data [.slice ⟨none, none, some 0⟩]).map (fun _ => ()) = .error .value := by
  refine ⟨by decide +kernel, by decide +kernel⟩

/-- C30: an aggregation of a stack indexed with two tuples raises `IndexError`, because the stack does. -/
theorem C30_stack_source_fails :
    ∃ a : Arr ℚ, (Arr.agg a 2 .sum).shape = .ok [2, 3] ∧
      Res.view ((Arr.agg a 2 .sum).eval exMode 100 2 >>= fun x => npIndex x [.tuple [0, 1], .tuple [2]]) = .ok ([2, 1], [4, 4]) ∧
      ((Arr.agg a 2 .sum).getitem [.tuple [0, 1], .tuple [2]]).map (fun _ => ()) = .error .index :=
  ⟨.stack [2, 3] (fun _ => .const [4] 1 0), by decide +kernel, by decide +kernel, by decide +kernel⟩

/-- C30, C22: the minimum over an axis that is cut into chunks is the minimum of the last chunk; indexed, the axis may fit one chunk.  Here `min(a, 1)` of the 2 x 3 x 4 array of 0 ... 23 in chunks of at most 7
elements starts with 8, 9, and `min(a, 1)[0, 0:2]` is 0, 1. -/
theorem C30_min_differs :
    Res.view ((Arr.agg (.adapter true exSource []) 1 .min : Arr ℚ).eval exMode 7 2 >>= fun x => npIndex x [.int 0]) = .ok ([4], [8, 9, 10, 11]) ∧
    Res.view ((Arr.agg (.adapter true exSource []) 1 .min : Arr ℚ).getitem [.int 0, .slice ⟨some 0, some 2, none⟩] >>= fun a => a.eval exMode 7 2) = .ok ([2], [0, 1]) := by
  refine ⟨by decide +kernel, by decide +kernel⟩

/-- C11: an index array, a slice and an integer on a transposed NumPy source: evaluated with the transposed shape. -/
theorem C11_numpy_source_transposed :
    ((Arr.transposed (.adapter false exSource []) [2, 1, 0] : Arr ℚ).getitem [.tuple [0, 2], Key.full, .int 0] >>= Arr.shape) = .ok [2, 3] ∧
    Res.view ((Arr.transposed (.adapter false exSource []) [2, 1, 0] : Arr ℚ).eval exMode 100 1 >>= fun x => npIndex x [.tuple [0, 2], Key.full, .int 0]) = .ok ([2, 3], [0, 4, 8, 2, 6, 10]) ∧
    Res.view ((Arr.transposed (.adapter false exSource []) [2, 1, 0] : Arr ℚ).getitem [.tuple [0, 2], Key.full, .int 0] >>= fun a => a.eval exMode 100 1) = .ok ([3, 2], [0, 2, 4, 6, 8, 10]) := by
  refine ⟨by decide +kernel, by decide +kernel, by decide +kernel⟩

end Biggus

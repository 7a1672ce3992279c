import Verif.Props.Program
import Verif.Props.Save
import Verif.Props.Groups
import Verif.Props.GroupsWitness
import Verif.Props.Dask
/-
C85, continued: the arrays of programs saved with `biggus.save`, and evaluated together by threads with `biggus.ndarrays` / `biggus.masked_arrays`.
-/
namespace Biggus
open Spec

section
variable {α V : Type} [Inhabited α] [Inhabited V] {m : Mode α V} {limit : Nat} {isAgg : AggKind α → List V → V → Prop}

/-- Saving: the common argument. -/
theorem program_saved (hsound : ∀ k col v, col ≠ [] → isAgg k col v → v = (m.handler k).run col.length [col]) (a : Arr α) (x target : NDA V)
    (hp : a.Program m limit isAgg true true false .whole x) (ht : target.shape = x.shape) :
    ∃ N, ∀ n, N ≤ n → ∃ t ws, save limit x.shape (fun ks => a.getitem ks >>= fun b => b.eval m limit n) target = .ok t ∧ t ≈ₐ x ∧
      saveWrites limit x.shape target.shape (fun ks => a.getitem ks >>= fun b => b.eval m limit n) = .ok ws ∧
      (ws.map Prod.fst).Perm (ndindex x.shape) := by
  obtain ⟨N, hN⟩ := eventually_all (saveKeys limit x.shape)
    (fun ks n => ∀ r, npIndex x ks = .ok r → ∃ d, (a.getitem ks >>= fun b => b.eval m limit n) = .ok d ∧ d ≈ₐ r) (by
      intro ks hks
      obtain ⟨fk, hf, hs⟩ := saveKeys_simple limit x.shape ks hks
      obtain ⟨b, r, k1, k2, k3⟩ := C85_index_step hsound hp ⟨fk, hf, hs, fun h => by cases h⟩ (fun h => by cases h)
      obtain ⟨N, hN⟩ := (program_fine hsound k3).yields.2
      refine ⟨N, fun n hn r' hr' => ?_⟩
      rw [k2] at hr'; cases hr'
      obtain ⟨d, hd, e⟩ := hN n hn
      exact ⟨d, by rw [k1]; exact hd, e⟩)
  refine ⟨N, fun n hn => ?_⟩
  obtain ⟨⟨t, t1, t2⟩, ws, w1, w2⟩ := C19_save_writes_every_element_once limit x target
    (fun ks => a.getitem ks >>= fun b => b.eval m limit n) ht (hN n hn)
  exact ⟨t, ws, t1, t2, w1, w2⟩

/-- Evaluating together: the common argument. -/
theorem program_together (hsound : ∀ k col v, col ≠ [] → isAgg k col v → v = (m.handler k).run col.length [col]) (fwd : Bool) (xs : List (AObj α))
    (ys : List (NDA V)) (hp : List.Forall₂ (fun (x : AObj α) y => x.toArr.Program m limit isAgg fwd false false .sliced y) xs ys)
    (hc : Compatible xs) (hsp : ∀ x ∈ xs, x.toArr.samePace) :
    ∃ N, ∀ n, N ≤ n → ∃ rs, (∀ out, GroupOutcome m limit queueSize (Arr.eval m limit n) xs out ↔ out = some (.ok rs)) ∧ List.Forall₂ (· ≈ₐ ·) rs ys :=
  C28_values hc (fun x hx => by
    obtain ⟨y, _, h⟩ := forall₂_mem_left hp hx
    exact (program_fine hsound h).wf) hsp (hp.imp (fun _ _ h => (program_fine hsound h).engine (by simp)))

theorem engineReturns_unique {a : Arr α} {r r' : NDA V} (h : a.EngineReturns m limit r) (h' : a.EngineReturns m limit r') : r ≈ₐ r' := by
  obtain ⟨N, h⟩ := h
  obtain ⟨N', h'⟩ := h'
  obtain ⟨x, hx, hr⟩ := h (max N N') (le_max_left _ _)
  obtain ⟨x', hx', hr'⟩ := h' (max N N') (le_max_right _ _)
  rw [hx] at hx'
  cases hx'
  exact hr.symm.trans hr'

/-- Evaluating with the dask engine: the common argument. -/
theorem program_dask (hsound : ∀ k col v, col ≠ [] → isAgg k col v → v = (m.handler k).run col.length [col]) (fwd : Bool) (xs : List (AObj α))
    (ys : List (NDA V)) (hp : List.Forall₂ (fun (x : AObj α) y => x.toArr.Program m limit isAgg fwd false false .sliced y) xs ys)
    (hpr : ∀ x ∈ xs, x.Proper) (hco : ∃ heap, ∀ x ∈ xs, x.inHeap heap) (hfew : ∀ x ∈ xs, x.toArr.fewChunks limit) :
    ∃ N, ∀ n, N ≤ n → ∃ rs, (∀ out, DaskOutcome m limit (Arr.eval m limit n) xs out ↔ out = .ok (rs.map DVal.array)) ∧ List.Forall₂ (· ≈ₐ ·) rs ys := by
  have hF : ∀ x ∈ xs, ∃ y, Fine m limit fwd false false .sliced x.toArr y := fun x hx => by
    obtain ⟨y, _, h⟩ := forall₂_mem_left hp hx
    exact ⟨y, program_fine hsound h⟩
  obtain ⟨N, hN⟩ := C38_dask_is_threaded_partial (m := m) (limit := limit) (xs := xs) ⟨hpr, hco, fun x hx => (hF x hx).choose_spec.wf,
    fun x hx => (hF x hx).choose_spec.ok, fun x hx => (hF x hx).choose_spec.stream (by simp), hfew⟩
  refine ⟨N, fun n hn => ?_⟩
  obtain ⟨rs, h1, h2⟩ := hN n hn
  refine ⟨rs, h1, ?_⟩
  clear h1 hN hF hpr hco hfew
  induction hp generalizing rs with
  | nil => cases h2; exact .nil
  | cons h _ ih =>
    cases h2 with
    | cons h' h2 => exact .cons (engineReturns_unique h' ((program_fine hsound h).engine (by simp))) (ih _ h2)

end

section
variable {α : Type} [Inhabited α] [Field α] [LinearOrder α] [IsStrictOrderedRing α] {limit : Nat}

/-- C85 and `biggus.save([a], [target])`: the target receives the array NumPy computes, every element once. -/
theorem C85_saved (sqrt : α → α) (cast : Nat → α → α) (a : Arr α) (x target : NDA α)
    (hp : a.Program (ndMode sqrt cast) limit (TheAgg sqrt) true true false .whole x) (ht : target.shape = x.shape) :
    ∃ N, ∀ n, N ≤ n → ∃ t ws, save limit x.shape (fun ks => a.getitem ks >>= fun b => b.eval (ndMode sqrt cast) limit n) target = .ok t ∧ t ≈ₐ x ∧
      saveWrites limit x.shape target.shape (fun ks => a.getitem ks >>= fun b => b.eval (ndMode sqrt cast) limit n) = .ok ws ∧
      (ws.map Prod.fst).Perm (ndindex x.shape) := program_saved (theAgg_sound sqrt cast) a x target hp ht

/-- The same with `masked=True`. -/
theorem C85_saved_masked (sqrt : α → α) (cast : Nat → α → α) (a : Arr α) (x target : NDA (Option α))
    (hp : a.Program (maMode sqrt cast) limit (TheAggMasked sqrt) true true false .whole x) (ht : target.shape = x.shape) :
    ∃ N, ∀ n, N ≤ n → ∃ t ws, save limit x.shape (fun ks => a.getitem ks >>= fun b => b.eval (maMode sqrt cast) limit n) target = .ok t ∧ t ≈ₐ x ∧
      saveWrites limit x.shape target.shape (fun ks => a.getitem ks >>= fun b => b.eval (maMode sqrt cast) limit n) = .ok ws ∧
      (ws.map Prod.fst).Perm (ndindex x.shape) := program_saved (fun k col v _ => theAggMasked_sound sqrt cast k col v) a x target hp ht

/-- C85 and `biggus.ndarrays(xs)`: programs evaluated together by threads, whatever the schedule and however much they share (every object is asked for its chunks in
one order; operands of element-wise operations are streamed in the same way), end with the arrays NumPy computes. -/
theorem C85_together (sqrt : α → α) (cast : Nat → α → α) (fwd : Bool) (xs : List (AObj α)) (ys : List (NDA α))
    (hp : List.Forall₂ (fun (x : AObj α) y => x.toArr.Program (ndMode sqrt cast) limit (TheAgg sqrt) fwd false false .sliced y) xs ys)
    (hc : Compatible xs) (hsp : ∀ x ∈ xs, x.toArr.samePace) :
    ∃ N, ∀ n, N ≤ n → ∃ rs, (∀ out, GroupOutcome (ndMode sqrt cast) limit queueSize (Arr.eval (ndMode sqrt cast) limit n) xs out ↔ out = some (.ok rs)) ∧
      List.Forall₂ (· ≈ₐ ·) rs ys := program_together (theAgg_sound sqrt cast) fwd xs ys hp hc hsp

/-- The same for `biggus.masked_arrays(xs)`. -/
theorem C85_together_masked (sqrt : α → α) (cast : Nat → α → α) (fwd : Bool) (xs : List (AObj α)) (ys : List (NDA (Option α)))
    (hp : List.Forall₂ (fun (x : AObj α) y => x.toArr.Program (maMode sqrt cast) limit (TheAggMasked sqrt) fwd false false .sliced y) xs ys)
    (hc : Compatible xs) (hsp : ∀ x ∈ xs, x.toArr.samePace) :
    ∃ N, ∀ n, N ≤ n → ∃ rs, (∀ out, GroupOutcome (maMode sqrt cast) limit queueSize (Arr.eval (maMode sqrt cast) limit n) xs out ↔ out = some (.ok rs)) ∧
      List.Forall₂ (· ≈ₐ ·) rs ys := program_together (fun k col v _ => theAggMasked_sound sqrt cast k col v) fwd xs ys hp hc hsp

/-- C85 and the dask engine: programs evaluated by dask, in whatever order it executes the tasks (each array in fewer chunks than the engine can number), give the
arrays NumPy computes. -/
theorem C85_dask (sqrt : α → α) (cast : Nat → α → α) (fwd : Bool) (xs : List (AObj α)) (ys : List (NDA α))
    (hp : List.Forall₂ (fun (x : AObj α) y => x.toArr.Program (ndMode sqrt cast) limit (TheAgg sqrt) fwd false false .sliced y) xs ys)
    (hpr : ∀ x ∈ xs, x.Proper) (hco : ∃ heap, ∀ x ∈ xs, x.inHeap heap) (hfew : ∀ x ∈ xs, x.toArr.fewChunks limit) :
    ∃ N, ∀ n, N ≤ n → ∃ rs, (∀ out, DaskOutcome (ndMode sqrt cast) limit (Arr.eval (ndMode sqrt cast) limit n) xs out ↔ out = .ok (rs.map DVal.array)) ∧
      List.Forall₂ (· ≈ₐ ·) rs ys := program_dask (theAgg_sound sqrt cast) fwd xs ys hp hpr hco hfew

/-- The same for masked arrays. -/
theorem C85_dask_masked (sqrt : α → α) (cast : Nat → α → α) (fwd : Bool) (xs : List (AObj α)) (ys : List (NDA (Option α)))
    (hp : List.Forall₂ (fun (x : AObj α) y => x.toArr.Program (maMode sqrt cast) limit (TheAggMasked sqrt) fwd false false .sliced y) xs ys)
    (hpr : ∀ x ∈ xs, x.Proper) (hco : ∃ heap, ∀ x ∈ xs, x.inHeap heap) (hfew : ∀ x ∈ xs, x.toArr.fewChunks limit) :
    ∃ N, ∀ n, N ≤ n → ∃ rs, (∀ out, DaskOutcome (maMode sqrt cast) limit (Arr.eval (maMode sqrt cast) limit n) xs out ↔ out = .ok (rs.map DVal.array)) ∧
      List.Forall₂ (· ≈ₐ ·) rs ys := program_dask (fun k col v _ => theAggMasked_sound sqrt cast k col v) fwd xs ys hp hpr hco hfew

end

theorem sum_program {limit : Nat} {fwd ix arr : Bool} {cut : Cut} {a : Arr ℚ} {x : NDA ℚ} {axis : Nat}
    (h : a.Program exMode limit (TheAgg id) fwd ix arr cut.streamed x) (hax : axis < x.shape.length) (hne : x.shape.getD axis 0 ≠ 0) :
    ∃ r : NDA ℚ, r.shape = x.shape.eraseIdx axis ∧ (Arr.agg a axis .sum).Program exMode limit (TheAgg id) fwd ix arr cut r := by
  have hc : ∀ idx, x.column axis idx ≠ [] := by
    intro idx e
    have := column_length x axis idx
    rw [e] at this
    exact hne this.symm
  have hx := fun idx => exists_theAgg .sum (by simp) _ (hc idx)
  exact ⟨⟨x.shape.eraseIdx axis, fun idx => (hx idx).choose⟩, rfl, .agg h hax hne (Or.inl sumH_lawful) ⟨rfl, fun idx _ => (hx idx).choose_spec⟩⟩

/-- The hypotheses of `C85_saved` are met by `sum(source, 1)[:, ::2]`, say. -/
theorem exProgram_saved : ∃ (b : Arr ℚ) (x : NDA ℚ), (Arr.agg (.adapter false exSource []) 1 .sum).getitem [Key.full, .slice ⟨none, none, some 2⟩] = .ok b ∧
    b.Program exMode 5 (TheAgg id) true true false .whole x ∧ x.shape = [2, 2] := by
  obtain ⟨r, h1, h2⟩ := sum_program (limit := 5) (fwd := true) (ix := true) (arr := false) (cut := .whole) (axis := 1)
    (.source _ _ _ false exSource (fun _ _ => rfl) (fun _ h => by cases h)) (by decide) (by decide)
  have h1 : r.shape = [2, 4] := h1
  obtain ⟨b, y, k1, k2, k3⟩ := C85_index_step (theAgg_sound id (fun _ x => x)) h2 (ks := [Key.full, .slice ⟨none, none, some 2⟩]) (by
    rw [h1]
    exact ⟨_, rfl, .cons (Or.inr (Or.inl ⟨_, [0, 1], rfl, fun _ => rfl, rfl, fun _ => by simp⟩))
      (.cons (Or.inr (Or.inl ⟨_, [0, 2], rfl, fun _ => rfl, rfl, fun _ => by simp⟩)) .nil), fun h => by cases h⟩) (fun h => by cases h)
  refine ⟨b, y, k1, k3, ?_⟩
  obtain ⟨fk, σ, q1, q2, rfl⟩ := npIndex_ok_iff.mp k2
  rw [h1] at q1 q2
  cases q1
  cases q2
  rfl

/-- The hypotheses of `C85_together` are met by `[sum(x, 1), sum(x, 1) * sum(x, 1), x]` with everything shared. -/
theorem exTogether_programs : ∃ ys : List (NDA ℚ),
    List.Forall₂ (fun (x : AObj ℚ) y => x.toArr.Program exMode 3 (TheAgg id) false false false .sliced y) exTogether ys ∧
    Compatible exTogether ∧ ∀ x ∈ exTogether, x.toArr.samePace := by
  have hX : exX.toArr.Program exMode 3 (TheAgg id) false false false .sliced _ :=
    .source _ _ _ _ _ (fun _ _ => rfl) (fun h => by cases h)
  obtain ⟨r, h1, h2⟩ := sum_program (cut := .sliced) (axis := 1) hX (by decide) (by decide)
  exact ⟨[r, r.zip r (fun x y => x * y), _], .cons h2 (.cons (.elem2 h2 h2 rfl rfl (Or.inr (Or.inl rfl))) (.cons hX .nil)), exTogether_ok.1, exTogether_ok.2.2.1⟩

/-- The hypotheses of `C85_dask` are met by `[sum(x, 0), sum(x, 1)]` in chunks of one element. -/
theorem exTwoSums_programs : ∃ ys : List (NDA ℚ),
    List.Forall₂ (fun (x : AObj ℚ) y => x.toArr.Program exMode 1 (TheAgg id) false false false .sliced y) exTwoSums ys ∧
    (∀ x ∈ exTwoSums, x.Proper) ∧ (∃ heap, ∀ x ∈ exTwoSums, x.inHeap heap) ∧ ∀ x ∈ exTwoSums, x.toArr.fewChunks 1 := by
  have hX : exX.toArr.Program exMode 1 (TheAgg id) false false false .sliced _ :=
    .source _ _ _ _ _ (fun _ _ => rfl) (fun h => by cases h)
  obtain ⟨r, _, h2⟩ := sum_program (cut := .sliced) (axis := 0) hX (by decide) (by decide)
  obtain ⟨r', _, h2'⟩ := sum_program (cut := .sliced) (axis := 1) hX (by decide) (by decide)
  exact ⟨[r, r'], .cons h2 (.cons h2' .nil), exTwoSums_fine.proper, exTwoSums_fine.coherent, exTwoSums_fine.few⟩

end Biggus

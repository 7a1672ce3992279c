import Verif.Proofs.Rounding
import Verif.Model.Rounding
import Verif.Props.Pieces
import Mathlib.Data.Int.Log
import Mathlib.Algebra.Order.Round
import Mathlib.Data.Rat.Floor
/-
C80: sums and means with rounding errors.
-/
namespace Biggus
open Spec

section
variable {α : Type} [Field α] [LinearOrder α] [IsStrictOrderedRing α] {fl : α → α} {u : α}

theorem fold_sumsTo (npSum : List α → α) (hnp : NpSum fl npSum) (chunks : List (List α)) (l : List α) (s : α) (h : SumsTo fl l s) :
    SumsTo fl (l ++ chunks.flatten) (chunks.foldl (fun s col => fl (s + npSum col)) s) := by
  induction chunks generalizing l s with
  | nil => simpa using h
  | cons c cs ih =>
    rw [List.flatten_cons, ← List.append_assoc, List.foldl_cons]
    exact ih _ _ (.add h (hnp c))

/-- C80: however the column is cut into chunks, `sum` adds up its numbers, each exactly once, in some order. -/
theorem C80_sum_order (npSum : List α → α) (hnp : NpSum fl npSum) (col : List α) (chunks : List (List α)) (hcut : CutOf col chunks) (n : Nat) :
    SumsTo fl col ((sumRH fl npSum).run n chunks) := by
  have := fold_sumsTo npSum hnp chunks [] 0 .nil
  rw [List.nil_append, hcut] at this
  exact this

/-- C80: the error of `sum` is at most that of adding the numbers one by one, however the column is cut. -/
theorem C80_sum_error (h : Rounding fl u) (npSum : List α → α) (hnp : NpSum fl npSum) (col : List α) (chunks : List (List α)) (hcut : CutOf col chunks)
    (hf : Floats fl col) (n : Nat) :
    |(sumRH fl npSum).run n chunks - col.sum| ≤ ((1 + u) ^ (col.length - 1) - 1) * sumAbs col :=
  sumsTo_error h (C80_sum_order npSum hnp col chunks hcut n) hf

/-- C80: if all partial sums are numbers of the format (for example integers that are not too large), `sum` is exact, however the column is cut. -/
theorem C80_sum_exact (npSum : List α → α) (hnp : NpSum fl npSum) (col : List α) (chunks : List (List α)) (hcut : CutOf col chunks)
    (hex : ∀ l : List α, l.Subperm col → fl l.sum = l.sum) (n : Nat) : (sumRH fl npSum).run n chunks = col.sum :=
  sumsTo_exact (C80_sum_order npSum hnp col chunks hcut n) hex

theorem div_error (h : Rounding fl u) (s S A : α) (k : Nat) (hA : |S| ≤ A) (e : |s - S| ≤ ((1 + u) ^ k - 1) * A) (c : α) (hc : 0 < c) :
    |fl (s / c) - S / c| ≤ ((1 + u) ^ (k + 1) - 1) * (A / c) := by
  have h1 : |fl (s / c) - S / c| ≤ u * |s / c| + |s / c - S / c| := by
    have e : fl (s / c) - S / c = (fl (s / c) - s / c) + (s / c - S / c) := by ring
    rw [e]
    exact (abs_add_le _ _).trans (add_le_add (h.error _) le_rfl)
  have h2 : |s / c - S / c| ≤ ((1 + u) ^ k - 1) * (A / c) := by
    rw [← sub_div, abs_div, abs_of_pos hc, ← mul_div_assoc]
    exact div_le_div_of_nonneg_right e hc.le
  have h3 : |s / c| ≤ |s / c - S / c| + A / c := by
    have e : s / c = (s / c - S / c) + S / c := by ring
    calc |s / c| = |(s / c - S / c) + S / c| := by rw [← e]
      _ ≤ |s / c - S / c| + |S / c| := abs_add_le _ _
      _ ≤ _ := by
        rw [abs_div S, abs_of_pos hc]
        exact add_le_add le_rfl (div_le_div_of_nonneg_right hA hc.le)
  have h4 := mul_le_mul_of_nonneg_left h3 h.nonneg
  have h5 := mul_le_mul_of_nonneg_left h2 h.nonneg
  rw [pow_succ]
  nlinarith [h1, h2, h4, h5]

/-- C80: the error of `mean`, however the column is cut; the length of the axis is a number of the format. -/
theorem C80_mean_error (h : Rounding fl u) (npSum : List α → α) (hnp : NpSum fl npSum) (col : List α) (chunks : List (List α)) (hcut : CutOf col chunks)
    (hf : Floats fl col) (hne : col ≠ []) (hn : fl (col.length : α) = (col.length : α)) :
    |(meanRH fl npSum).run col.length chunks - mean col| ≤ ((1 + u) ^ col.length - 1) * (sumAbs col / (col.length : α)) := by
  have h1 := C80_sum_error h npSum hnp col chunks hcut hf col.length
  have hl := List.length_pos_of_ne_nil hne
  have h2 := div_error h _ _ _ _ (abs_sum_le col) h1 (col.length : α) (Nat.cast_pos.mpr hl)
  rw [show col.length - 1 + 1 = col.length by omega] at h2
  show |fl (_ / fl (col.length : α)) - _| ≤ _
  rw [hn]
  exact h2

theorem div_error_long (h : Rounding fl u) (hu : u < 1) (s S A : α) (k m : Nat) (hA : |S| ≤ A) (e : |s - S| ≤ ((1 + u) ^ k - 1) * A) (c c' : α) (hc : 0 < c)
    (h1 : (1 - u) ^ m * c ≤ c') (h2 : c' ≤ (1 + u) ^ m * c) :
    |fl (s / c') - S / c| ≤ ((1 + u) ^ (k + 1) / (1 - u) ^ m - 1) * (A / c) := by
  have hv : 0 < 1 - u := by linarith
  have hvm : 0 < (1 - u) ^ m := pow_pos hv m
  have hA0 : 0 ≤ A := (abs_nonneg _).trans hA
  have hp : 0 < (1 - u) ^ m * c := mul_pos hvm hc
  have hc0 : 0 < c' := lt_of_lt_of_le hp h1
  have hwm : 0 < (1 + u) ^ m := pow_pos (by linarith [h.nonneg]) m
  have hprod : (1 - u) ^ m * (1 + u) ^ m ≤ 1 := by
    rw [← mul_pow]
    exact pow_le_one₀ (mul_nonneg hv.le (by linarith [h.nonneg])) (by nlinarith [h.nonneg])
  have hdist : |c - c'| / c' ≤ 1 / (1 - u) ^ m - 1 := by
    rw [div_le_iff₀ hc0, sub_mul, one_mul, div_mul_eq_mul_div, one_mul, le_sub_iff_add_le, le_div_iff₀ hvm]
    rcases abs_cases (c - c') with ⟨e, _⟩ | ⟨e, _⟩
    · rw [e]; linarith
    · rw [e]
      generalize (1 - u) ^ m = p at *
      generalize (1 + u) ^ m = w at *
      have hp1 : p ≤ 1 := by
        by_contra hcon
        push Not at hcon
        nlinarith
      nlinarith
  have e1 : |s / c' - S / c| ≤ ((1 + u) ^ k / (1 - u) ^ m - 1) * (A / c) := by
    have e0 : s / c' - S / c = (s - S) / c' + (S / c) * ((c - c') / c') := by field_simp; ring
    have i1 : |(s - S) / c'| ≤ ((1 + u) ^ k - 1) * A / ((1 - u) ^ m * c) := by
      rw [abs_div, abs_of_pos hc0]
      exact div_le_div₀ ((abs_nonneg _).trans e) e hp h1
    have i2 : |(S / c) * ((c - c') / c')| ≤ (A / c) * (1 / (1 - u) ^ m - 1) := by
      rw [abs_mul, abs_div, abs_div, abs_of_pos hc, abs_of_pos hc0]
      exact mul_le_mul (div_le_div_of_nonneg_right hA hc.le) hdist (by positivity) (by positivity)
    rw [e0]
    refine (abs_add_le _ _).trans ((add_le_add i1 i2).trans (le_of_eq ?_))
    field_simp
    ring
  have e2 : |fl (s / c') - S / c| ≤ (1 + u) * |s / c' - S / c| + u * (A / c) := by
    have e : fl (s / c') - S / c = (fl (s / c') - s / c') + (s / c' - S / c) := by ring
    have h3 : |s / c'| ≤ |s / c' - S / c| + A / c := by
      have e : s / c' = (s / c' - S / c) + S / c := by ring
      calc |s / c'| = |(s / c' - S / c) + S / c| := by rw [← e]
        _ ≤ |s / c' - S / c| + |S / c| := abs_add_le _ _
        _ ≤ _ := by
          rw [abs_div S, abs_of_pos hc]
          exact add_le_add le_rfl (div_le_div_of_nonneg_right hA hc.le)
    have h4 := mul_le_mul_of_nonneg_left h3 h.nonneg
    rw [e]
    have := (abs_add_le (fl (s / c') - s / c') (s / c' - S / c)).trans (add_le_add (h.error _) le_rfl)
    linarith
  refine e2.trans ((add_le_add (mul_le_mul_of_nonneg_left e1 (by linarith [h.nonneg])) le_rfl).trans (le_of_eq ?_))
  have hvm' := hvm.ne'
  field_simp
  ring

/-- C80: the error of `mean`, however the column is cut, whatever the length of the axis. -/
theorem C80_mean_error_long (h : Rounding fl u) (hu : u < 1) (npSum : List α → α) (hnp : NpSum fl npSum) (col : List α) (chunks : List (List α)) (hcut : CutOf col chunks)
    (hf : Floats fl col) (hne : col ≠ []) :
    |(meanRH fl npSum).run col.length chunks - mean col| ≤ ((1 + u) ^ col.length / (1 - u) - 1) * (sumAbs col / (col.length : α)) := by
  have h1 := C80_sum_error h npSum hnp col chunks hcut hf col.length
  have hl : (0 : α) < (col.length : α) := Nat.cast_pos.mpr (List.length_pos_of_ne_nil hne)
  have hc := abs_le.mp (h.error (col.length : α))
  rw [abs_of_pos hl] at hc
  have h2 := div_error_long h hu _ _ _ _ 1 (abs_sum_le col) h1 (col.length : α) (fl (col.length : α)) hl (by rw [pow_one]; linarith [hc.1]) (by rw [pow_one]; linarith [hc.2])
  rw [show col.length - 1 + 1 = col.length by have := List.length_pos_of_ne_nil hne; omega, pow_one] at h2
  exact h2

/-! ### Masked data -/

theorem filled_filter (col : List (Option α)) :
    (col.map (·.getD 0)).filter (fun x => decide (x ≠ 0)) = (valid col).filter (fun x => decide (x ≠ 0)) := by
  induction col with
  | nil => rfl
  | cons a col ih =>
    cases a with
    | none => simpa [valid] using ih
    | some x =>
      by_cases hx : x = 0
      · simpa [valid, hx] using ih
      · simpa [valid, hx] using ih

theorem filled_error (h : Rounding fl u) (col : List (Option α)) (hf : Floats fl (valid col)) (v : α) (hs : SumsTo fl (col.map (·.getD 0)) v) :
    |v - (valid col).sum| ≤ ((1 + u) ^ ((valid col).length - 1) - 1) * sumAbs (valid col) := by
  have h1 := sumsTo_filter hs
  rw [filled_filter] at h1
  have h2 := sumsTo_error h h1 (fun x hx => hf x (List.mem_of_mem_filter hx))
  rw [sum_filter_ne_zero, sumAbs_filter_ne_zero] at h2
  refine h2.trans (mul_le_mul_of_nonneg_right (sub_le_sub_right (pow_le_pow_right₀ (by linarith [h.nonneg]) ?_) _) (sumAbs_nonneg _))
  have := List.length_filter_le (fun x => decide (x ≠ 0)) (valid col)
  omega

theorem sumRMH_fold (npSum : List α → α) (chunks : List (List (Option α))) (b : Bool) (s : α) :
    chunks.foldl (fun (s : Bool × α) (col : List (Option α)) => (s.1 && col.all Option.isNone, fl (s.2 + npSum (col.map (·.getD 0))))) (b, s) =
      (b && chunks.flatten.all Option.isNone, (chunks.map (fun c => c.map (·.getD 0))).foldl (fun s col => fl (s + npSum col)) s) := by
  induction chunks generalizing b s with
  | nil => simp
  | cons c cs ih => rw [List.foldl_cons, ih, List.flatten_cons, List.all_append, Bool.and_assoc]; rfl

theorem all_none_iff (col : List (Option α)) : col.all Option.isNone = true ↔ valid col = [] := by
  induction col with
  | nil => simp [valid]
  | cons a col ih =>
    cases a with
    | none => simpa [valid] using ih
    | some x => simp [valid]

/-- C80, masked: `sum` is masked iff all values are; its error otherwise, however the column is cut. -/
theorem C80_masked_sum (h : Rounding fl u) (npSum : List α → α) (hnp : NpSum fl npSum) (col : List (Option α)) (chunks : List (List (Option α))) (hcut : CutOf col chunks)
    (hf : Floats fl (valid col)) (n : Nat) :
    match (sumRMH fl npSum).run n chunks with
    | none => valid col = []
    | some v => valid col ≠ [] ∧ |v - (valid col).sum| ≤ ((1 + u) ^ ((valid col).length - 1) - 1) * sumAbs (valid col) := by
  have e : (sumRMH fl npSum).run n chunks =
      if (chunks.foldl (fun (s : Bool × α) (col : List (Option α)) => (s.1 && col.all Option.isNone, fl (s.2 + npSum (col.map (·.getD 0))))) (true, 0)).1 then none
      else some (chunks.foldl (fun (s : Bool × α) (col : List (Option α)) => (s.1 && col.all Option.isNone, fl (s.2 + npSum (col.map (·.getD 0))))) (true, 0)).2 := rfl
  rw [e, sumRMH_fold, Bool.true_and, hcut]
  by_cases hv : col.all Option.isNone = true
  · simp only [hv, if_true]
    exact (all_none_iff col).mp hv
  · simp only [hv]
    refine ⟨fun h0 => hv ((all_none_iff col).mpr h0), filled_error h col hf _ ?_⟩
    have := fold_sumsTo npSum hnp (chunks.map (fun c => c.map (·.getD 0))) [] 0 .nil
    rw [List.nil_append, ← List.map_flatten, hcut] at this
    exact this

theorem meanRMH_fold (npSum : List α → α) (chunks : List (List (Option α))) (c d : Nat) (s : α)
    (hex : ∀ j : Nat, j ≤ c + d + chunks.flatten.length → fl (j : α) = (j : α)) :
    chunks.foldl (meanRMStep fl npSum) ⟨(c : α), (d : α), s⟩ =
      ⟨((c + (valid chunks.flatten).length : Nat) : α), ((d + chunks.flatten.countP Option.isNone : Nat) : α),
        (chunks.map (fun c => c.map (·.getD 0))).foldl (fun s col => fl (s + npSum col)) s⟩ := by
  induction chunks generalizing c d s with
  | nil => simp [valid]
  | cons x xs ih =>
    have hle : (unmasked x).length ≤ x.length := List.length_filterMap_le _ _
    have hle' : x.countP Option.isNone ≤ x.length := List.countP_le_length
    have hcount : x.countP Option.isNone + (unmasked x).length = x.length := by
      clear ih hex hle hle'
      induction x with
      | nil => rfl
      | cons a l ih => cases a <;> simp [unmasked] at ih ⊢ <;> omega
    rw [List.flatten_cons, List.length_append] at hex
    have e : meanRMStep fl npSum ⟨(c : α), (d : α), s⟩ x =
        ⟨((c + (unmasked x).length : Nat) : α), ((d + x.countP Option.isNone : Nat) : α), fl (s + npSum (x.map (·.getD 0)))⟩ := by
      unfold meanRMStep
      rw [← Nat.cast_add, ← Nat.cast_add, hex _ (by omega), hex _ (by omega)]
    rw [List.foldl_cons, e, ih _ _ _ (fun j hj => hex j (by omega))]
    simp only [List.flatten_cons, List.countP_append, List.map_cons, List.foldl_cons, valid, List.filterMap_append, List.length_append, unmasked, Nat.add_assoc]

/-- C80, masked: `mean` is masked iff all values are masked or more of them than `mdtol` (the fraction is rounded too); its error otherwise, however the column is cut.
The counts must be numbers of the format. -/
theorem C80_masked_mean (h : Rounding fl u) (npSum : List α → α) (hnp : NpSum fl npSum) (mdtol : α) (col : List (Option α)) (chunks : List (List (Option α)))
    (hcut : CutOf col chunks) (hf : Floats fl (valid col)) (hex : ∀ j : Nat, j ≤ col.length → fl (j : α) = (j : α)) (n : Nat) :
    match (meanRMH fl npSum mdtol).run n chunks with
    | none => valid col = [] ∨ mdtol < 1 ∧ mdtol < fl (((col.length - (valid col).length : Nat) : α) / (col.length : α))
    | some v => valid col ≠ [] ∧ ¬ (mdtol < 1 ∧ mdtol < fl (((col.length - (valid col).length : Nat) : α) / (col.length : α))) ∧
      |v - mean (valid col)| ≤ ((1 + u) ^ (valid col).length - 1) * (sumAbs (valid col) / ((valid col).length : α)) := by
  have hcount : ∀ l : List (Option α), l.countP Option.isNone + (valid l).length = l.length := by
    intro l
    induction l with
    | nil => rfl
    | cons a l ih => cases a <;> simp [valid] at ih ⊢ <;> omega
  have e : (meanRMH fl npSum mdtol).run n chunks = meanRMFin fl mdtol (chunks.foldl (meanRMStep fl npSum) ⟨((0 : Nat) : α), ((0 : Nat) : α), 0⟩) := by
    rw [Nat.cast_zero]; rfl
  rw [e, meanRMH_fold npSum chunks 0 0 0 (fun j hj => hex j (by rw [hcut] at hj; omega)), hcut]
  simp only [Nat.zero_add]
  have hs := fold_sumsTo npSum hnp (chunks.map (fun c => c.map (·.getD 0))) [] 0 .nil
  rw [List.nil_append, ← List.map_flatten, hcut] at hs
  have herr := filled_error h col hf _ hs
  generalize (chunks.map (fun c => c.map (·.getD 0))).foldl (fun s col => fl (s + npSum col)) 0 = s at hs herr
  have hcl : col.length - (valid col).length = col.countP Option.isNone := by have := hcount col; omega
  rw [hcl]
  unfold meanRMFin
  simp only [← Nat.cast_add, hcount col, hex _ le_rfl, Nat.cast_eq_zero, ne_eq]
  by_cases hv : valid col = []
  · rw [if_pos (show (valid col).length = 0 by rw [hv]; rfl), ite_self]
    exact Or.inl hv
  · have hl := List.length_pos_of_ne_nil hv
    have hl2 : col.length ≠ 0 := by have := hcount col; omega
    rw [if_neg (by omega : ¬ (valid col).length = 0)]
    by_cases hm : mdtol < 1 ∧ mdtol < fl ((col.countP Option.isNone : α) / (col.length : α))
    · rw [if_pos ⟨hm.1, hl2, hm.2⟩]
      exact Or.inr hm
    · rw [if_neg (fun ⟨a, _, b⟩ => hm ⟨a, b⟩)]
      refine ⟨hv, hm, ?_⟩
      have h2 := div_error h _ _ _ _ (abs_sum_le (valid col)) herr ((valid col).length : α) (Nat.cast_pos.mpr hl)
      rw [show (valid col).length - 1 + 1 = (valid col).length by omega] at h2
      exact h2

theorem meanRMH_fold_long (npSum : List α → α) (chunks : List (List (Option α))) (s : MeanRState α) :
    (chunks.foldl (meanRMStep fl npSum) s).count = chunks.foldl (fun c col => fl (c + ((unmasked col).length : α))) s.count ∧
    (chunks.foldl (meanRMStep fl npSum) s).total = (chunks.map (fun c => c.map (·.getD 0))).foldl (fun s col => fl (s + npSum col)) s.total := by
  induction chunks generalizing s with
  | nil => exact ⟨rfl, rfl⟩
  | cons x xs ih => exact ih _

theorem count_error (h : Rounding fl u) (hu : u < 1) (chunks : List (List (Option α))) (N : Nat) (c : α) (m : Nat)
    (h1 : (1 - u) ^ m * (N : α) ≤ c) (h2 : c ≤ (1 + u) ^ m * (N : α)) :
    (1 - u) ^ (m + chunks.length) * ((N + (valid chunks.flatten).length : Nat) : α) ≤ chunks.foldl (fun c col => fl (c + ((unmasked col).length : α))) c ∧
    chunks.foldl (fun c col => fl (c + ((unmasked col).length : α))) c ≤ (1 + u) ^ (m + chunks.length) * ((N + (valid chunks.flatten).length : Nat) : α) := by
  induction chunks generalizing N c m with
  | nil => simpa [valid] using ⟨h1, h2⟩
  | cons x xs ih =>
    have hv : 0 < 1 - u := by linarith
    have hle1 : (1 - u) ^ m ≤ 1 := pow_le_one₀ hv.le (by linarith [h.nonneg])
    have hge1 : 1 ≤ (1 + u) ^ m := one_le_pow₀ (by linarith [h.nonneg])
    have hl : (0 : α) ≤ ((unmasked x).length : α) := Nat.cast_nonneg _
    have hc0 : 0 ≤ c := (mul_nonneg (pow_nonneg hv.le _) (Nat.cast_nonneg _)).trans h1
    have he := abs_le.mp (h.error (c + ((unmasked x).length : α)))
    rw [abs_of_nonneg (by linarith)] at he
    have k1 : (1 - u) ^ m * ((N + (unmasked x).length : Nat) : α) ≤ c + ((unmasked x).length : α) := by
      rw [Nat.cast_add, mul_add]
      have := mul_le_mul_of_nonneg_right hle1 hl
      linarith
    have k2 : c + ((unmasked x).length : α) ≤ (1 + u) ^ m * ((N + (unmasked x).length : Nat) : α) := by
      rw [Nat.cast_add, mul_add]
      have := mul_le_mul_of_nonneg_right hge1 hl
      linarith
    have := ih (N + (unmasked x).length) (fl (c + ((unmasked x).length : α))) (m + 1)
      (by rw [pow_succ']; have := mul_le_mul_of_nonneg_left k1 hv.le; linarith [he.1])
      (by rw [pow_succ']; have := mul_le_mul_of_nonneg_left k2 (show 0 ≤ 1 + u by linarith [h.nonneg]); linarith [he.2])
    rw [show m + 1 + xs.length = m + (x :: xs).length by rw [List.length_cons]; omega,
      show N + (unmasked x).length + (valid xs.flatten).length = N + (valid (x :: xs).flatten).length by
        rw [List.flatten_cons, show valid (x ++ xs.flatten) = valid x ++ valid xs.flatten from List.filterMap_append, List.length_append]
        show N + (valid x).length + _ = _
        omega] at this
    exact this

/-- C80, masked, whatever the length of the column: the counts are kept as numbers of the format, so their rounding errors (one per chunk) count too. -/
theorem C80_masked_mean_long (h : Rounding fl u) (hu : u < 1) (npSum : List α → α) (hnp : NpSum fl npSum) (mdtol : α) (hm : 1 ≤ mdtol) (col : List (Option α))
    (chunks : List (List (Option α))) (hcut : CutOf col chunks) (hf : Floats fl (valid col)) (n : Nat) :
    match (meanRMH fl npSum mdtol).run n chunks with
    | none => valid col = []
    | some v => valid col ≠ [] ∧
      |v - mean (valid col)| ≤ ((1 + u) ^ (valid col).length / (1 - u) ^ chunks.length - 1) * (sumAbs (valid col) / ((valid col).length : α)) := by
  have e : (meanRMH fl npSum mdtol).run n chunks = meanRMFin fl mdtol (chunks.foldl (meanRMStep fl npSum) ⟨0, 0, 0⟩) := rfl
  obtain ⟨f1, f2⟩ := meanRMH_fold_long (fl := fl) npSum chunks ⟨0, 0, 0⟩
  have hs := fold_sumsTo npSum hnp (chunks.map (fun c => c.map (·.getD 0))) [] 0 .nil
  rw [List.nil_append, ← List.map_flatten, hcut] at hs
  have herr := filled_error h col hf _ hs
  obtain ⟨c1, c2⟩ := count_error h hu chunks 0 0 0 (by simp) (by simp)
  rw [Nat.zero_add, Nat.zero_add, hcut] at c1 c2
  rw [e]
  unfold meanRMFin
  rw [if_neg (fun hcon => absurd hcon.1 (not_lt.mpr hm)), f1, f2]
  simp only
  generalize chunks.foldl (fun c col => fl (c + ((unmasked col).length : α))) 0 = c at c1 c2
  generalize (chunks.map (fun c => c.map (·.getD 0))).foldl (fun s col => fl (s + npSum col)) 0 = s at hs herr
  have hv : 0 < 1 - u := by linarith
  by_cases hz : valid col = []
  · rw [hz] at c1 c2
    have : c = 0 := le_antisymm (by simpa using c2) (by simpa using c1)
    rw [if_pos this]
    exact hz
  · have hl : (0 : α) < ((valid col).length : α) := Nat.cast_pos.mpr (List.length_pos_of_ne_nil hz)
    have hc : c ≠ 0 := (lt_of_lt_of_le (mul_pos (pow_pos hv _) hl) c1).ne'
    rw [if_neg hc]
    refine ⟨hz, ?_⟩
    have h2 := div_error_long h hu _ _ _ _ chunks.length (abs_sum_le (valid col)) herr ((valid col).length : α) c hl c1 c2
    rw [show (valid col).length - 1 + 1 = (valid col).length by have := List.length_pos_of_ne_nil hz; omega] at h2
    exact h2

/-! ### Arrays -/

variable [Inhabited α] {limit : Nat}

/-- C80 for arrays: `sum` and `mean` of every expression of the grammar, evaluated directly or by the engine, with any chunk limit. -/
theorem C80_arrays (h : Rounding fl u) (npSum : List α → α) (hnp : NpSum fl npSum) (sqrt : α → α) (cast : Nat → α → α) (fwd : Bool) (a : Arr α) (x : NDA α) (axis : Nat)
    (hb : a.Built (roundMode fl npSum sqrt cast) limit fwd false .sliced) (hx : a.Yields (roundMode fl npSum sqrt cast) limit x)
    (hax : axis < x.shape.length) (hne : x.shape.getD axis 0 ≠ 0) (hf : ∀ idx, InB x.shape idx → fl (x.get idx) = x.get idx) (hu : u < 1) :
    (∃ r, (Arr.agg a axis .sum).Yields (roundMode fl npSum sqrt cast) limit r ∧ (Arr.agg a axis .sum).EngineReturns (roundMode fl npSum sqrt cast) limit r ∧
      AggregateOf (fun col v => SumsTo fl col v ∧ |v - col.sum| ≤ ((1 + u) ^ (col.length - 1) - 1) * sumAbs col) x axis r) ∧
    ∀ mdtol, ∃ r, (Arr.agg a axis (.mean mdtol)).Yields (roundMode fl npSum sqrt cast) limit r ∧
      (Arr.agg a axis (.mean mdtol)).EngineReturns (roundMode fl npSum sqrt cast) limit r ∧
      AggregateOf (fun col v => |v - mean col| ≤ ((1 + u) ^ col.length / (1 - u) - 1) * (sumAbs col / (col.length : α)) ∧
        (fl (col.length : α) = (col.length : α) → |v - mean col| ≤ ((1 + u) ^ col.length - 1) * (sumAbs col / (col.length : α)))) x axis r := by
  have hcol : ∀ idx, x.column axis idx ≠ [] := fun idx e => hne (by rw [← column_length x axis idx, e]; rfl)
  have hfl : ∀ idx, InB (x.shape.eraseIdx axis) idx → Floats fl (x.column axis idx) := by
    intro idx hi y hy
    obtain ⟨j, hj, rfl⟩ := List.mem_map.mp hy
    exact hf _ (inB_insert_axis hax hi (List.mem_range.mp hj))
  have hcut : ∀ idx, CutOf (x.column axis idx) (enginePieces limit (a.skel.right axis) (x.column axis idx)) := fun idx => enginePieces_flatten _ _ _
  obtain ⟨r, h1, h2, h3⟩ := aggregation_exact fwd a x axis .sum hb hx hax (Or.inl hne)
  refine ⟨⟨r, h1, h2, h3.1, fun idx hi => ?_⟩, fun mdtol => ?_⟩
  · rw [h3.2 idx hi]
    exact ⟨C80_sum_order npSum hnp _ _ (hcut idx) _, C80_sum_error h npSum hnp _ _ (hcut idx) (hfl idx (by rw [← h3.1]; exact hi)) _⟩
  · obtain ⟨r, h1, h2, h3⟩ := aggregation_exact fwd a x axis (.mean mdtol) hb hx hax (Or.inl hne)
    refine ⟨r, h1, h2, h3.1, fun idx hi => ?_⟩
    rw [h3.2 idx hi]
    exact ⟨C80_mean_error_long h hu npSum hnp _ _ (hcut idx) (hfl idx (by rw [← h3.1]; exact hi)) (hcol idx),
      C80_mean_error h npSum hnp _ _ (hcut idx) (hfl idx (by rw [← h3.1]; exact hi)) (hcol idx)⟩

/-- C80 for arrays with masked data. -/
theorem C80_masked_arrays (h : Rounding fl u) (npSum : List α → α) (hnp : NpSum fl npSum) (sqrt : α → α) (cast : Nat → α → α) (fwd : Bool) (a : Arr α) (x : NDA (Option α))
    (axis : Nat) (hb : a.Built (roundMaMode fl npSum sqrt cast) limit fwd false .sliced) (hx : a.Yields (roundMaMode fl npSum sqrt cast) limit x)
    (hax : axis < x.shape.length) (hne : x.shape.getD axis 0 ≠ 0) (hf : ∀ idx, InB x.shape idx → ∀ v ∈ x.get idx, fl v = v)
    (hex : ∀ j : Nat, j ≤ x.shape.getD axis 0 → fl (j : α) = (j : α)) :
    (∃ r, (Arr.agg a axis .sum).Yields (roundMaMode fl npSum sqrt cast) limit r ∧ (Arr.agg a axis .sum).EngineReturns (roundMaMode fl npSum sqrt cast) limit r ∧
      AggregateOf (fun col v => match v with
        | none => valid col = []
        | some v => valid col ≠ [] ∧ |v - (valid col).sum| ≤ ((1 + u) ^ ((valid col).length - 1) - 1) * sumAbs (valid col)) x axis r) ∧
    ∀ mdtol, ∃ r, (Arr.agg a axis (.mean mdtol)).Yields (roundMaMode fl npSum sqrt cast) limit r ∧
      (Arr.agg a axis (.mean mdtol)).EngineReturns (roundMaMode fl npSum sqrt cast) limit r ∧
      AggregateOf (fun col v => match v with
        | none => valid col = [] ∨ mdtol < 1 ∧ mdtol < fl (((col.length - (valid col).length : Nat) : α) / (col.length : α))
        | some v => valid col ≠ [] ∧ ¬ (mdtol < 1 ∧ mdtol < fl (((col.length - (valid col).length : Nat) : α) / (col.length : α))) ∧
          |v - mean (valid col)| ≤ ((1 + u) ^ (valid col).length - 1) * (sumAbs (valid col) / ((valid col).length : α))) x axis r := by
  have hfl : ∀ idx, InB (x.shape.eraseIdx axis) idx → Floats fl (valid (x.column axis idx)) := by
    intro idx hi y hy
    obtain ⟨w, hw, hwy⟩ := List.mem_filterMap.mp hy
    obtain ⟨j, hj, rfl⟩ := List.mem_map.mp hw
    exact hf _ (inB_insert_axis hax hi (List.mem_range.mp hj)) y hwy
  have hcut : ∀ idx, CutOf (x.column axis idx) (enginePieces limit (a.skel.right axis) (x.column axis idx)) := fun idx => enginePieces_flatten _ _ _
  obtain ⟨r, h1, h2, h3⟩ := aggregation_exact fwd a x axis .sum hb hx hax (Or.inl hne)
  refine ⟨⟨r, h1, h2, h3.1, fun idx hi => ?_⟩, fun mdtol => ?_⟩
  · rw [h3.2 idx hi]
    exact C80_masked_sum h npSum hnp _ _ (hcut idx) (hfl idx (by rw [← h3.1]; exact hi)) _
  · obtain ⟨r, h1, h2, h3⟩ := aggregation_exact fwd a x axis (.mean mdtol) hb hx hax (Or.inl hne)
    refine ⟨r, h1, h2, h3.1, fun idx hi => ?_⟩
    rw [h3.2 idx hi]
    exact C80_masked_mean h npSum hnp mdtol _ _ (hcut idx) (hfl idx (by rw [← h3.1]; exact hi)) (by rw [column_length]; exact hex) _

/-- C80 for arrays with masked data, whatever the length of the axis. -/
theorem C80_masked_mean_arrays_long (h : Rounding fl u) (hu : u < 1) (npSum : List α → α) (hnp : NpSum fl npSum) (sqrt : α → α) (cast : Nat → α → α) (fwd : Bool) (a : Arr α)
    (x : NDA (Option α)) (axis : Nat) (hb : a.Built (roundMaMode fl npSum sqrt cast) limit fwd false .sliced) (hx : a.Yields (roundMaMode fl npSum sqrt cast) limit x)
    (hax : axis < x.shape.length) (hne : x.shape.getD axis 0 ≠ 0) (hf : ∀ idx, InB x.shape idx → ∀ v ∈ x.get idx, fl v = v) (mdtol : α) (hm : 1 ≤ mdtol) :
    ∃ r, (Arr.agg a axis (.mean mdtol)).Yields (roundMaMode fl npSum sqrt cast) limit r ∧ (Arr.agg a axis (.mean mdtol)).EngineReturns (roundMaMode fl npSum sqrt cast) limit r ∧
      AggregateOf (fun col v => match v with
        | none => valid col = []
        | some v => valid col ≠ [] ∧ |v - mean (valid col)| ≤
          ((1 + u) ^ (valid col).length / (1 - u) ^ (enginePieces limit (a.skel.right axis) col).length - 1) * (sumAbs (valid col) / ((valid col).length : α))) x axis r := by
  obtain ⟨r, h1, h2, h3⟩ := aggregation_exact fwd a x axis (.mean mdtol) hb hx hax (Or.inl hne)
  refine ⟨r, h1, h2, h3.1, fun idx hi => ?_⟩
  rw [h3.2 idx hi]
  refine C80_masked_mean_long h hu npSum hnp mdtol hm _ _ (enginePieces_flatten _ _ _) ?_ _
  intro y hy
  obtain ⟨w, hw, hwy⟩ := List.mem_filterMap.mp hy
  obtain ⟨j, hj, rfl⟩ := List.mem_map.mp hw
  exact hf _ (inB_insert_axis hax (by rw [← h3.1]; exact hi) (List.mem_range.mp hj)) y hwy

end

/-! ### A format: binary numbers with `p` digits -/

/-- Rounding to the nearest binary number with `p` digits (halves up), exponents unbounded. -/
def binary {K : Type} [Field K] [LinearOrder K] [IsStrictOrderedRing K] [FloorRing K] (p : Nat) (z : K) : K := if z = 0 then 0 else (round (z / 2 ^ (Int.log 2 |z| + 1 - p)) : K) * 2 ^ (Int.log 2 |z| + 1 - p)

/-- NumPy's `sum` for few numbers: one after the other. -/
def seqSum (fl : ℚ → ℚ) : List ℚ → ℚ
  | [] => 0
  | x :: xs => xs.foldl (fun s y => fl (s + y)) x

theorem seqSum_npSum (fl : ℚ → ℚ) : NpSum fl (seqSum fl) := by
  intro l
  cases l with
  | nil => exact .nil
  | cons x xs =>
    have key : ∀ (xs l : List ℚ) (s : ℚ), SumsTo fl l s → SumsTo fl (l ++ xs) (xs.foldl (fun s y => fl (s + y)) s) := by
      intro xs
      induction xs with
      | nil => intro l s h; simpa using h
      | cons y ys ih =>
        intro l s h
        have := ih (l ++ [y]) _ (.add h (.single y))
        rw [List.append_assoc] at this
        exact this
    exact key xs [x] x (.single x)

section
variable {K : Type} [Field K] [LinearOrder K] [IsStrictOrderedRing K] [FloorRing K]

theorem binary_fix (p : Nat) (k e : ℤ) (z : K) (hz : z = k * 2 ^ (e + 1 - p)) (hlog : z ≠ 0 → Int.log 2 |z| = e) : binary p z = z := by
  unfold binary
  by_cases h0 : z = 0
  · rw [if_pos h0, h0]
  have hq : (2 : K) ^ (e + 1 - p) ≠ 0 := zpow_ne_zero _ (by norm_num)
  rw [if_neg h0, hlog h0, show z / 2 ^ (e + 1 - p) = (k : K) by rw [hz]; field_simp, round_intCast, ← hz]

theorem round_between (a b : ℤ) (x : K) (h1 : (a : K) ≤ x) (h2 : x ≤ b) : a ≤ round x ∧ round x ≤ b := by
  rw [round_eq]
  constructor
  · exact Int.le_floor.mpr (by linarith)
  · exact Int.lt_add_one_iff.mp (Int.floor_lt.mpr (by push_cast; linarith))

theorem binary_rounding (p : Nat) (hp : 1 ≤ p) : Rounding (binary (K := K) p) (1 / 2 ^ p) := by
  have h2 : (0 : K) < 2 := by norm_num
  refine ⟨by positivity, fun z => ?_, fun z => ?_⟩
  · unfold binary
    by_cases hz : z = 0
    · simp [hz]
    rw [if_neg hz]
    have ha : 0 < |z| := abs_pos.mpr hz
    have hle := Int.zpow_log_le_self (b := 2) (by norm_num) ha
    generalize Int.log 2 |z| = e at hle
    have hpos : (0 : K) < 2 ^ (e + 1 - p) := zpow_pos h2 _
    have hr := abs_sub_round (z / 2 ^ (e + 1 - p))
    have e1 : (round (z / 2 ^ (e + 1 - p)) : K) * 2 ^ (e + 1 - p) - z = -(z / 2 ^ (e + 1 - p) - round (z / 2 ^ (e + 1 - p))) * 2 ^ (e + 1 - p) := by
      field_simp; ring
    rw [e1, abs_mul, abs_neg, abs_of_pos hpos]
    refine (mul_le_mul_of_nonneg_right hr hpos.le).trans ?_
    have e2 : (1 / 2 : K) * 2 ^ (e + 1 - p) = 1 / 2 ^ p * 2 ^ e := by
      rw [show e + 1 - (p : ℤ) = e + 1 + (-(p : ℤ)) by ring, zpow_add₀ h2.ne', zpow_add₀ h2.ne', zpow_neg, zpow_natCast, zpow_one]
      field_simp
    rw [e2]
    exact mul_le_mul_of_nonneg_left (by exact_mod_cast hle) (by positivity)
  · by_cases hz : z = 0
    · simp [hz, binary]
    have ha : 0 < |z| := abs_pos.mpr hz
    have hle : (2 : K) ^ Int.log 2 |z| ≤ |z| := by exact_mod_cast Int.zpow_log_le_self (b := 2) (by norm_num) ha
    have hlt : |z| < (2 : K) ^ (Int.log 2 |z| + 1) := by exact_mod_cast Int.lt_zpow_succ_log_self (b := 2) (by norm_num) |z|
    have hb : binary p z = (round (z / 2 ^ (Int.log 2 |z| + 1 - p)) : K) * 2 ^ (Int.log 2 |z| + 1 - p) := by unfold binary; rw [if_neg hz]
    rw [hb]
    generalize Int.log 2 |z| = e at hle hlt
    obtain ⟨P, rfl⟩ : ∃ P, p = P + 1 := ⟨p - 1, by omega⟩
    have hq : (0 : K) < 2 ^ (e + 1 - (P + 1 : Nat)) := zpow_pos h2 _
    have hqe : (2 : K) ^ P * 2 ^ (e + 1 - (P + 1 : Nat)) = 2 ^ e := by
      rw [← zpow_natCast, ← zpow_add₀ h2.ne']; congr 1; push_cast; ring
    have hqe1 : (2 : K) ^ (P + 1) * 2 ^ (e + 1 - (P + 1 : Nat)) = 2 ^ (e + 1) := by
      rw [← zpow_natCast, ← zpow_add₀ h2.ne']; congr 1; push_cast; ring
    have hq2 : (2 : K) ^ (e + 1 + 1 - (P + 1 : Nat)) = 2 * 2 ^ (e + 1 - (P + 1 : Nat)) := by
      rw [show e + 1 + 1 - ((P + 1 : Nat) : ℤ) = 1 + (e + 1 - (P + 1 : Nat)) by ring, zpow_add₀ h2.ne', zpow_one]
    generalize hQ : (2 : K) ^ (e + 1 - ((P + 1 : Nat) : ℤ)) = q at hq hqe hqe1 hq2 ⊢
    have hm : (2 : ℤ) ^ P ≤ |round (z / q)| ∧ |round (z / q)| ≤ 2 ^ (P + 1) := by
      rcases lt_or_gt_of_ne hz with hneg | hpos
      · rw [abs_of_neg hneg] at hle hlt
        have := round_between (-(2 ^ (P + 1))) (-(2 ^ P)) (z / q) (by rw [le_div_iff₀ hq]; push_cast; linarith) (by rw [div_le_iff₀ hq]; push_cast; linarith)
        have hp2 : (0 : ℤ) < 2 ^ P := by positivity
        rw [abs_of_neg (by linarith [this.2])]
        constructor <;> linarith [this.1, this.2]
      · rw [abs_of_pos hpos] at hle hlt
        have := round_between (2 ^ P) (2 ^ (P + 1)) (z / q) (by rw [le_div_iff₀ hq]; push_cast; linarith) (by rw [div_le_iff₀ hq]; push_cast; linarith)
        have hp2 : (0 : ℤ) < 2 ^ P := by positivity
        rw [abs_of_pos (by linarith [this.1])]
        exact this
    generalize round (z / q) = k at hm
    have habs : |(k : K) * q| = (|k| : ℤ) * q := by rw [abs_mul, abs_of_pos hq, Int.cast_abs]
    have hp2 : (0 : ℤ) < 2 ^ P := by positivity
    have hk0 : (0 : K) < (|k| : ℤ) := by exact_mod_cast lt_of_lt_of_le hp2 hm.1
    have hge : (2 : K) ^ e ≤ (|k| : ℤ) * q := by
      rw [← hqe]; exact mul_le_mul_of_nonneg_right (by exact_mod_cast hm.1) hq.le
    rcases lt_or_eq_of_le hm.2 with hlt' | heq
    · refine binary_fix _ k e _ (by rw [hQ]) (fun _ => ?_)
      rw [habs]
      have hup : ((|k| : ℤ) : K) * q < 2 ^ (e + 1) := by
        rw [← hqe1]; exact mul_lt_mul_of_pos_right (by exact_mod_cast hlt') hq
      have l1 : e ≤ Int.log 2 (((|k| : ℤ) : K) * q) := (Int.zpow_le_iff_le_log (by norm_num) (mul_pos hk0 hq)).mp (by exact_mod_cast hge)
      have l2 : Int.log 2 (((|k| : ℤ) : K) * q) < e + 1 := (Int.lt_zpow_iff_log_lt (by norm_num) (mul_pos hk0 hq)).mp (by exact_mod_cast hup)
      omega
    · have hlog : Int.log 2 |(k : K) * q| = e + 1 := by
        rw [habs, heq]
        have : (((2 : ℤ) ^ (P + 1) : ℤ) : K) * q = ((2 : Nat) : K) ^ (e + 1) := by push_cast; exact hqe1
        rw [this]
        exact Int.log_zpow (by norm_num) _
      obtain ⟨k', hk'⟩ : ∃ k', k = 2 * k' := by
        rcases abs_choice k with hk | hk
        · exact ⟨2 ^ P, by rw [← hk, heq, pow_succ]; ring⟩
        · exact ⟨-2 ^ P, by rw [← neg_neg k, ← hk, heq, pow_succ]; ring⟩
      refine binary_fix _ k' (e + 1) _ ?_ (fun _ => hlog)
      rw [hq2, hk']; push_cast; ring

end

theorem binary_at (p : Nat) (e : ℤ) (z : ℚ) (h1 : 2 ^ e ≤ |z|) (h2 : |z| < 2 ^ (e + 1)) : binary p z = (round (z / 2 ^ (e + 1 - p)) : ℚ) * 2 ^ (e + 1 - p) := by
  have hz : 0 < |z| := lt_of_lt_of_le (zpow_pos (by norm_num) _) h1
  have l1 : e ≤ Int.log 2 |z| := (Int.zpow_le_iff_le_log (by norm_num) hz).mp (by exact_mod_cast h1)
  have l2 : Int.log 2 |z| < e + 1 := (Int.lt_zpow_iff_log_lt (by norm_num) hz).mp (by exact_mod_cast h2)
  unfold binary
  rw [if_neg (abs_pos.mp hz), show Int.log 2 |z| = e by omega]

/-- C80: the result does depend on the chunks: with 2 binary digits the sum of 4, 1, 1 is 8 in one chunk and 6 in chunks of 1 and 2 values. -/
theorem C80_chunks_matter :
    (sumRH (binary 2 : ℚ → ℚ) (seqSum (binary 2))).run 3 [[4, 1, 1]] = 8 ∧ (sumRH (binary 2) (seqSum (binary 2))).run 3 [[4], [1, 1]] = 6 ∧
    CutOf ([4, 1, 1] : List ℚ) [[4], [1, 1]] ∧ Floats (binary 2 : ℚ → ℚ) [4, 1, 1] := by
  have b1 : binary 2 (1 : ℚ) = 1 := by rw [binary_at 2 0 1 (by norm_num) (by norm_num)]; norm_num [round_eq]
  have b2 : binary 2 (2 : ℚ) = 2 := by rw [binary_at 2 1 2 (by norm_num) (by norm_num)]; norm_num [round_eq]
  have b4 : binary 2 (4 : ℚ) = 4 := by rw [binary_at 2 2 4 (by norm_num) (by norm_num)]; norm_num [round_eq]
  have b5 : binary 2 (5 : ℚ) = 6 := by rw [binary_at 2 2 5 (by norm_num) (by norm_num)]; norm_num [round_eq]
  have b6 : binary 2 (6 : ℚ) = 6 := by rw [binary_at 2 2 6 (by norm_num) (by norm_num)]; norm_num [round_eq]
  have b7 : binary 2 (7 : ℚ) = 8 := by rw [binary_at 2 2 7 (by norm_num) (by norm_num)]; norm_num [round_eq]
  have b8 : binary 2 (8 : ℚ) = 8 := by rw [binary_at 2 3 8 (by norm_num) (by norm_num)]; norm_num [round_eq]
  refine ⟨?_, ?_, rfl, ?_⟩
  · show binary 2 ((0 : ℚ) + binary 2 (binary 2 (4 + 1) + 1)) = 8
    norm_num [b5, b7, b8]
  · show binary 2 (binary 2 ((0 : ℚ) + 4) + binary 2 (1 + 1)) = 6
    norm_num [b4, b2, b6]
  · intro x hx
    simp only [List.mem_cons, List.not_mem_nil, or_false] at hx
    rcases hx with rfl | rfl | rfl
    · exact b4
    · exact b1
    · exact b1

/-- C80: the counts of masked means are rounded too: with 2 binary digits the count of sixteen values in chunks of one value stops at 8, and the mean of 8 and fifteen
times 0 is 1, twice what it is in one chunk. -/
theorem C80_masked_count_rounds :
    (meanRMH (binary 2 : ℚ → ℚ) (seqSum (binary 2)) 1).run 16 ([some 8] :: List.replicate 15 [some 0]) = some 1 ∧
    (meanRMH (binary 2 : ℚ → ℚ) (seqSum (binary 2)) 1).run 16 [some 8 :: List.replicate 15 (some 0)] = some (1 / 2) ∧
    CutOf (some 8 :: List.replicate 15 (some 0) : List (Option ℚ)) ([some 8] :: List.replicate 15 [some 0]) := by
  have b0 : binary 2 (0 : ℚ) = 0 := by simp [binary]
  have b1 : binary 2 (1 : ℚ) = 1 := by rw [binary_at 2 0 1 (by norm_num) (by norm_num)]; norm_num [round_eq]
  have b2 : binary 2 (2 : ℚ) = 2 := by rw [binary_at 2 1 2 (by norm_num) (by norm_num)]; norm_num [round_eq]
  have b3 : binary 2 (3 : ℚ) = 3 := by rw [binary_at 2 1 3 (by norm_num) (by norm_num)]; norm_num [round_eq]
  have b4 : binary 2 (4 : ℚ) = 4 := by rw [binary_at 2 2 4 (by norm_num) (by norm_num)]; norm_num [round_eq]
  have b5 : binary 2 (5 : ℚ) = 6 := by rw [binary_at 2 2 5 (by norm_num) (by norm_num)]; norm_num [round_eq]
  have b7 : binary 2 (7 : ℚ) = 8 := by rw [binary_at 2 2 7 (by norm_num) (by norm_num)]; norm_num [round_eq]
  have b8 : binary 2 (8 : ℚ) = 8 := by rw [binary_at 2 3 8 (by norm_num) (by norm_num)]; norm_num [round_eq]
  have b9 : binary 2 (9 : ℚ) = 8 := by rw [binary_at 2 3 9 (by norm_num) (by norm_num)]; norm_num [round_eq]
  have b16 : binary 2 (16 : ℚ) = 16 := by rw [binary_at 2 4 16 (by norm_num) (by norm_num)]; norm_num [round_eq]
  have bh : binary 2 (1 / 2 : ℚ) = 1 / 2 := by rw [binary_at 2 (-1) (1 / 2) (by norm_num) (by norm_num)]; norm_num [round_eq]
  have step : ∀ s : MeanRState ℚ, meanRMStep (binary 2) (seqSum (binary 2)) s [some 0] = ⟨binary 2 (s.count + 1), binary 2 s.maskedCount, binary 2 s.total⟩ := by
    intro s
    simp [meanRMStep, unmasked, seqSum]
  have first : meanRMStep (binary 2) (seqSum (binary 2)) ⟨0, 0, 0⟩ [some 8] = ⟨1, 0, 8⟩ := by
    simp [meanRMStep, unmasked, seqSum, b0, b1, b8]
  refine ⟨?_, ?_, rfl⟩
  · show meanRMFin (binary 2) 1 (([some 8] :: List.replicate 15 [some 0]).foldl (meanRMStep (binary 2) (seqSum (binary 2))) ⟨0, 0, 0⟩) = some 1
    simp only [List.replicate, List.foldl_cons, List.foldl_nil, first, step]
    norm_num [b0, b1, b2, b3, b4, b5, b7, b8, b9, meanRMFin]
  · show meanRMFin (binary 2) 1 (meanRMStep (binary 2) (seqSum (binary 2)) ⟨0, 0, 0⟩ (some 8 :: List.replicate 15 (some 0))) = some (1 / 2)
    have e : meanRMStep (binary 2) (seqSum (binary 2)) ⟨0, 0, 0⟩ (some 8 :: List.replicate 15 (some 0)) = (⟨16, 0, 8⟩ : MeanRState ℚ) := by
      simp [meanRMStep, unmasked, seqSum, List.replicate, b0, b8]
      norm_num [b16]
    rw [e]
    norm_num [meanRMFin]
    norm_num at bh
    exact bh

/-- The hypotheses of C80 are met: binary numbers with 53 digits, sums one after the other. -/
example : Rounding (binary 53 : ℚ → ℚ) (1 / 2 ^ 53) ∧ NpSum (binary 53) (seqSum (binary 53)) := ⟨binary_rounding 53 (by norm_num), seqSum_npSum _⟩

/-- For example, the mean over the first axis of any source of shape `[1000, 2]` of doubles, whatever the chunk limit. -/
example (limit : Nat) (c : Concrete ℚ) (hs : c.data.shape = [1000, 2]) (hu : ∀ idx, ∃ v, c.data.get idx = some v ∧ binary 53 v = v) :
    ∃ r, (Arr.agg (.adapter true c []) 0 (.mean 1)).Yields (roundMode (binary 53) (seqSum (binary 53)) _root_.id (fun _ x => x)) limit r ∧
      AggregateOf (fun col v => |v - mean col| ≤ ((1 + 1 / 2 ^ 53) ^ col.length / (1 - 1 / 2 ^ 53) - 1) * (sumAbs col / (col.length : ℚ))) (c.data.map (fun v => v.getD c.fill)) 0 r := by
  have hB : ∀ fwd cut, (Arr.adapter true c []).Built (roundMode (binary 53) (seqSum (binary 53)) _root_.id (fun _ x => x)) limit fwd false cut := by
    intro fwd cut
    refine .source _ _ _ _ (fun idx => ?_) (fun h => by cases h)
    obtain ⟨v, hv, _⟩ := hu idx
    rw [hv]; exact fun _ => rfl
  obtain ⟨r, h1, _, h2⟩ := (C80_arrays (binary_rounding 53 (by norm_num)) (seqSum (binary 53)) (seqSum_npSum _) _root_.id (fun _ x => x) true _ _ 0 (hB true .sliced)
    (source_yields _ limit true c hB) (by show 0 < c.data.shape.length; rw [hs]; decide) (by show c.data.shape.getD 0 0 ≠ 0; rw [hs]; decide)
    (fun idx _ => by obtain ⟨v, hv, hf⟩ := hu idx; show binary 53 ((c.data.get idx).getD c.fill) = (c.data.get idx).getD c.fill; rw [hv]; exact hf) (by norm_num)).2 1
  exact ⟨r, h1, h2.1, fun idx hi => (h2.2 idx hi).1⟩

end Biggus

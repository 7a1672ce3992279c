import Verif.Proofs.Rounding
import Verif.Model.Rounding
import Verif.Spec.Pieces
/-
PROOFS.  Standard deviations with rounding errors.
-/
namespace Biggus
open Spec

variable {α : Type} [Field α] [LinearOrder α] [IsStrictOrderedRing α] {fl : α → α} {u : α}

theorem fl_pos (h : Rounding fl u) (hu : u < 1) {z : α} (hz : 0 < z) : 0 < fl z := by
  have := (abs_le.mp (h.error z)).1
  rw [abs_of_pos hz] at this
  nlinarith

theorem fl_nonneg (h : Rounding fl u) (hu : u < 1) {z : α} (hz : 0 ≤ z) : 0 ≤ fl z := by
  rcases hz.lt_or_eq with h0 | h0
  · exact (fl_pos h hu h0).le
  · rw [← h0, h.zero]

theorem fl_ne_zero (h : Rounding fl u) (hu : u < 1) {z : α} (hz : z ≠ 0) : fl z ≠ 0 := by
  intro e
  have := h.error z
  rw [e, zero_sub, abs_neg] at this
  have hp := abs_pos.mpr hz
  nlinarith

/-- The state after the values `l`: `q` is 0 if they are all the same, else positive. -/
def RInv (k a q : α) (l : List α) : Prop := 0 < k ∧ 0 ≤ q ∧ ∃ x xs, l = x :: xs ∧ ((∀ y ∈ xs, y = x) → a = x ∧ q = 0) ∧ ((∃ y ∈ xs, y ≠ x) → 0 < q)

/-- One step of the algorithm, for the masked and the unmasked case: `k'` is the new count, `d` and `m` are the positive factors. -/
theorem rinv_step (h : Rounding fl u) (hu : u < 1) {k a q : α} {l : List α} (hi : RInv k a q l) (hf : Floats fl l) (x k' d m : α) (hk : 0 < k') (hd : 0 < d) (hm : 0 < m) :
    RInv k' (fl (a + fl (fl (x - a) / d))) (fl (q + fl (fl (fl (fl (x - a) / d) * fl (fl (x - a) / d)) * m))) (l ++ [x]) := by
  obtain ⟨_, hq, y, ys, rfl, hc, hn⟩ := hi
  have ht : ∀ t : α, 0 ≤ fl (fl (t * t) * m) := fun t => fl_nonneg h hu (mul_nonneg (fl_nonneg h hu (mul_self_nonneg t)) hm.le)
  refine ⟨hk, fl_nonneg h hu (add_nonneg hq (ht _)), y, ys ++ [x], rfl, fun hall => ?_, ?_⟩
  · obtain ⟨ha, hq0⟩ := hc (fun z hz => hall z (by simp [hz]))
    have hx := hall x (by simp)
    rw [ha, hx, hq0, sub_self, h.zero, zero_div, h.zero, mul_zero, h.zero, zero_mul, h.zero, add_zero, add_zero, h.zero]
    exact ⟨hf y (by simp), rfl⟩
  · rintro ⟨z, hz, hzy⟩
    by_cases hex : ∃ w ∈ ys, w ≠ y
    · exact fl_pos h hu (add_pos_of_pos_of_nonneg (hn hex) (ht _))
    · push Not at hex
      obtain ⟨ha, hq0⟩ := hc hex
      have hzx : z = x := by
        rcases List.mem_append.mp hz with hz | hz
        · exact absurd (hex z hz) hzy
        · simpa using hz
      have hne : fl (fl (x - a) / d) ≠ 0 := fl_ne_zero h hu (div_ne_zero (fl_ne_zero h hu (sub_ne_zero.mpr (by rw [ha, ← hzx]; exact hzy))) hd.ne')
      rw [hq0, zero_add]
      exact fl_pos h hu (fl_pos h hu (mul_pos (fl_pos h hu (mul_self_pos.mpr hne)) hm))

theorem rinv_fold (h : Rounding fl u) (hu : u < 1) (xs : List α) : ∀ (s : StdState α) (l : List α), RInv (s.k : α) s.a s.q l → s.k = l.length → Floats fl (l ++ xs) →
    RInv ((xs.foldl (welfordRStep fl) s).k : α) (xs.foldl (welfordRStep fl) s).a (xs.foldl (welfordRStep fl) s).q (l ++ xs) ∧
      (xs.foldl (welfordRStep fl) s).k = (l ++ xs).length := by
  induction xs with
  | nil => intro s l h1 h2 _; simpa using ⟨h1, h2⟩
  | cons x xs ih =>
    intro s l h1 h2 hf
    have hk : 1 ≤ s.k := by
      have := h1.1
      exact_mod_cast Nat.cast_pos.mp this
    rw [List.foldl_cons, show l ++ x :: xs = (l ++ [x]) ++ xs by simp]
    have hk0 : (0 : α) < ((s.k + 1 : Nat) : α) := Nat.cast_pos.mpr (by omega)
    refine ih _ _ (rinv_step h hu h1 (fun y hy => hf y (by simp [hy])) x _ (fl ((s.k + 1 : Nat) : α)) _ hk0 (fl_pos h hu hk0) (fl_pos h hu (mul_pos hk0 ?_))) ?_ ?_
    · rw [Nat.cast_add, Nat.cast_one, add_sub_cancel_right]
      exact h1.1
    · show s.k + 1 = _
      rw [h2]; simp
    · intro y hy
      exact hf y (by simpa using hy)

theorem rinv_kept (h : Rounding fl u) (hu : u < 1) : ∀ (chunks : List (List α)), chunks ≠ [] → (∀ c ∈ chunks, c ≠ []) → Floats fl chunks.flatten →
    ∀ s : StdState α, s.k = 1 → s.q = 0 →
    RInv ((chunks.foldl (stdRStep fl) s).k : α) (chunks.foldl (stdRStep fl) s).a (chunks.foldl (stdRStep fl) s).q (stdValues chunks) ∧
      (chunks.foldl (stdRStep fl) s).k = (stdValues chunks).length := by
  have first : ∀ (s : StdState α) (x : α), s.k = 1 → s.q = 0 → RInv (s.k : α) x s.q [x] := by
    intro s x hs hq
    rw [hs, hq]
    exact ⟨by simp, le_rfl, x, [], rfl, fun _ => ⟨rfl, rfl⟩, fun ⟨y, hy, _⟩ => by cases hy⟩
  have rest : ∀ (L : List (List α)) (s : StdState α) (l : List α), RInv (s.k : α) s.a s.q l → s.k = l.length → s.k ≠ 1 → Floats fl (l ++ L.flatten) →
      RInv ((L.foldl (stdRStep fl) s).k : α) (L.foldl (stdRStep fl) s).a (L.foldl (stdRStep fl) s).q (l ++ L.flatten) ∧ (L.foldl (stdRStep fl) s).k = (l ++ L.flatten).length := by
    intro L
    induction L with
    | nil => intro s l h1 h2 _ _; simpa using ⟨h1, h2⟩
    | cons c L ih =>
      intro s l h1 h2 h3 hf
      rw [List.foldl_cons, List.flatten_cons, ← List.append_assoc]
      rw [List.flatten_cons, ← List.append_assoc] at hf
      have e : stdRStep fl s c = c.foldl (welfordRStep fl) s := by unfold stdRStep; rw [if_neg h3]
      obtain ⟨k1, k2⟩ := rinv_fold h hu c s l h1 h2 (fun y hy => hf y (by simp [List.mem_append.mp hy |>.elim (fun h => Or.inl h) (fun h => Or.inr (Or.inl h))]))
      rw [e]
      refine ih _ _ k1 k2 ?_ hf
      have hl : l ≠ [] := by
        obtain ⟨_, _, x, xs, rfl, _⟩ := h1
        simp
      have := List.length_pos_of_ne_nil hl
      rw [k2, List.length_append]
      omega
  intro chunks
  induction chunks with
  | nil => intro h; exact absurd rfl h
  | cons c cs ih =>
    intro _ hn hf s hs hq
    obtain ⟨x, xs, rfl⟩ := List.exists_cons_of_ne_nil (hn c (by simp))
    have e : stdRStep fl s (x :: xs) = xs.foldl (welfordRStep fl) { s with a := x } := by unfold stdRStep; rw [if_pos hs]
    have hfx : Floats fl ([x] ++ xs) := fun y hy => hf y (by rw [List.flatten_cons]; exact List.mem_append_left _ hy)
    have h1 := rinv_fold h hu xs { s with a := x } [x] (first s x hs hq) hs hfx
    rw [List.foldl_cons, e]
    cases cs with
    | nil => exact h1
    | cons d cs =>
      unfold stdValues
      by_cases hl : (x :: xs).length = 1
      · rw [if_pos hl]
        have hx : xs = [] := by simpa using hl
        subst hx
        exact ih (by simp) (fun c hc => hn c (by simp [hc])) (fun y hy => hf y (by rw [List.flatten_cons]; exact List.mem_append_right _ hy)) _ hs hq
      · rw [if_neg hl]
        refine rest (d :: cs) _ _ h1.1 h1.2 (by rw [h1.2]; exact hl) ?_
        intro y hy
        exact hf y (by rw [List.flatten_cons]; exact hy)

end Biggus

import Verif.Spec.Rounding
import Mathlib.Tactic.Linarith
import Mathlib.Tactic.Ring
import Mathlib.Tactic.Positivity
import Mathlib.Tactic.GCongr
/-
PROOFS.  Sums with rounding errors.
-/
namespace Biggus
open Spec

variable {α : Type} [Field α] [LinearOrder α] [IsStrictOrderedRing α] {fl : α → α} {u : α}

theorem Spec.Rounding.zero (h : Rounding fl u) : fl 0 = 0 := by
  have := h.error 0
  rw [abs_zero, mul_zero, sub_zero] at this
  exact abs_eq_zero.mp (le_antisymm this (abs_nonneg _))

theorem sumAbs_nonneg (l : List α) : 0 ≤ sumAbs l := List.sum_nonneg (fun y hy => by
  obtain ⟨x, _, rfl⟩ := List.mem_map.mp hy
  exact abs_nonneg _)

theorem sumAbs_append (l₁ l₂ : List α) : sumAbs (l₁ ++ l₂) = sumAbs l₁ + sumAbs l₂ := by
  unfold sumAbs; rw [List.map_append, List.sum_append]

theorem abs_sum_le (l : List α) : |l.sum| ≤ sumAbs l := by
  induction l with
  | nil => simp [sumAbs]
  | cons a l ih =>
    rw [List.sum_cons, show sumAbs (a :: l) = |a| + sumAbs l by simp [sumAbs]]
    exact (abs_add_le a l.sum).trans (by linarith)

theorem sumsTo_nil (h : Rounding fl u) {l : List α} {v : α} (hs : SumsTo fl l v) (hl : l = []) : v = 0 := by
  induction hs with
  | nil => rfl
  | single x => cases hl
  | add _ _ ih1 ih2 =>
    obtain ⟨h1, h2⟩ := List.append_eq_nil_iff.mp hl
    rw [ih1 h1, ih2 h2, add_zero, h.zero]
  | perm hp _ ih =>
    subst hl
    exact ih (List.perm_nil.mp hp)

theorem sumsTo_float (h : Rounding fl u) {l : List α} {v : α} (hs : SumsTo fl l v) (hf : Floats fl l) : fl v = v := by
  induction hs with
  | nil => exact h.zero
  | single x => exact hf x (by simp)
  | add _ _ _ _ => exact h.idem _
  | perm hp _ ih => exact ih (fun x hx => hf x (hp.mem_iff.mp hx))

/-- The error of a sum of `n` numbers, whatever the order. -/
theorem sumsTo_error (h : Rounding fl u) {l : List α} {v : α} (hs : SumsTo fl l v) (hf : Floats fl l) :
    |v - l.sum| ≤ ((1 + u) ^ (l.length - 1) - 1) * sumAbs l := by
  induction hs with
  | nil => simp [sumAbs]
  | single x => simp
  | @add l₁ l₂ v₁ v₂ s1 s2 ih1 ih2 =>
    have hf1 : Floats fl l₁ := fun x hx => hf x (by simp [hx])
    have hf2 : Floats fl l₂ := fun x hx => hf x (by simp [hx])
    have i1 := ih1 hf1
    have i2 := ih2 hf2
    by_cases e1 : l₁ = []
    · rw [sumsTo_nil h s1 e1, zero_add, sumsTo_float h s2 hf2, e1, List.nil_append]
      exact i2
    by_cases e2 : l₂ = []
    · rw [sumsTo_nil h s2 e2, add_zero, sumsTo_float h s1 hf1, e2, List.append_nil]
      exact i1
    have n1 := List.length_pos_of_ne_nil e1
    have n2 := List.length_pos_of_ne_nil e2
    obtain ⟨k, hk⟩ : ∃ k, l₁.length + l₂.length = k + 2 := ⟨l₁.length + l₂.length - 2, by omega⟩
    have hu1 : 1 ≤ 1 + u := by linarith [h.nonneg]
    have p1 : (1 + u) ^ (l₁.length - 1) ≤ (1 + u) ^ k := pow_le_pow_right₀ hu1 (by omega)
    have p2 : (1 + u) ^ (l₂.length - 1) ≤ (1 + u) ^ k := pow_le_pow_right₀ hu1 (by omega)
    have j1 : |v₁ - l₁.sum| ≤ ((1 + u) ^ k - 1) * sumAbs l₁ := i1.trans (mul_le_mul_of_nonneg_right (by linarith) (sumAbs_nonneg _))
    have j2 : |v₂ - l₂.sum| ≤ ((1 + u) ^ k - 1) * sumAbs l₂ := i2.trans (mul_le_mul_of_nonneg_right (by linarith) (sumAbs_nonneg _))
    have hv : |v₁ + v₂| ≤ |v₁ - l₁.sum| + |v₂ - l₂.sum| + (sumAbs l₁ + sumAbs l₂) := by
      have e : v₁ + v₂ = ((v₁ - l₁.sum) + (v₂ - l₂.sum)) + (l₁.sum + l₂.sum) := by ring
      rw [e]
      refine (abs_add_le _ _).trans (add_le_add (abs_add_le _ _) ((abs_add_le _ _).trans (add_le_add (abs_sum_le _) (abs_sum_le _))))
    have hd : |fl (v₁ + v₂) - (l₁.sum + l₂.sum)| ≤ u * |v₁ + v₂| + (|v₁ - l₁.sum| + |v₂ - l₂.sum|) := by
      have e : fl (v₁ + v₂) - (l₁.sum + l₂.sum) = (fl (v₁ + v₂) - (v₁ + v₂)) + ((v₁ - l₁.sum) + (v₂ - l₂.sum)) := by ring
      rw [e]
      exact (abs_add_le _ _).trans (add_le_add (h.error _) (abs_add_le _ _))
    rw [List.sum_append, List.length_append, hk, sumAbs_append, show k + 2 - 1 = k + 1 from rfl, pow_succ]
    have hm := mul_le_mul_of_nonneg_left (hv.trans (add_le_add_left (add_le_add j1 j2) _)) h.nonneg
    nlinarith [hd, hm, j1, j2]
  | @perm l l' v hp _ ih =>
    have := ih (fun x hx => hf x (hp.mem_iff.mp hx))
    rw [hp.sum_eq, hp.length_eq, show sumAbs l = sumAbs l' from (hp.map _).sum_eq] at this
    exact this

/-- No rounding error if all partial sums are numbers of the format. -/
theorem sumsTo_exact {l : List α} {v : α} (hs : SumsTo fl l v) (hex : ∀ l' : List α, l'.Subperm l → fl l'.sum = l'.sum) : v = l.sum := by
  induction hs with
  | nil => rfl
  | single x => simp
  | @add l₁ l₂ v₁ v₂ _ _ ih1 ih2 =>
    rw [ih1 (fun l' h' => hex l' (h'.trans (List.sublist_append_left l₁ l₂).subperm)),
      ih2 (fun l' h' => hex l' (h'.trans (List.sublist_append_right l₁ l₂).subperm)), ← List.sum_append]
    exact hex _ (List.Subperm.refl _)
  | @perm l l' v hp _ ih => rw [ih (fun l' h' => hex l' (h'.trans hp.subperm)), hp.sum_eq]

/-- Zeros do not matter. -/
theorem sumsTo_filter {l : List α} {v : α} (hs : SumsTo fl l v) : SumsTo fl (l.filter (fun x => decide (x ≠ 0))) v := by
  induction hs with
  | nil => exact .nil
  | single x =>
    by_cases hx : x = 0
    · subst hx; simpa using SumsTo.nil
    · simpa [hx] using SumsTo.single x
  | add _ _ ih1 ih2 =>
    rw [List.filter_append]
    exact .add ih1 ih2
  | perm hp _ ih => exact .perm (hp.filter _) ih

theorem sum_filter_ne_zero (l : List α) : (l.filter (fun x => decide (x ≠ 0))).sum = l.sum := by
  induction l with
  | nil => rfl
  | cons a l ih =>
    by_cases ha : a = 0
    · simp [ha, ih] at ih ⊢; exact ih
    · simp [ha] at ih ⊢; exact ih

theorem sumAbs_filter_ne_zero (l : List α) : sumAbs (l.filter (fun x => decide (x ≠ 0))) = sumAbs l := by
  induction l with
  | nil => rfl
  | cons a l ih =>
    unfold sumAbs at ih ⊢
    by_cases ha : a = 0
    · simp [ha] at ih ⊢; exact ih
    · simp [ha] at ih ⊢; exact ih

end Biggus

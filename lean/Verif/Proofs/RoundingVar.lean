import Verif.Proofs.RoundingStd
import Verif.Proofs.Handlers
import Mathlib.Tactic.Linarith
import Mathlib.Tactic.FieldSimp
import Mathlib.Tactic.Ring
/-
PROOFS.  Error bounds for Welford's algorithm.
-/
namespace Biggus
open Spec

variable {α : Type} [Field α] [LinearOrder α] [IsStrictOrderedRing α] {fl : α → α} {u : α}

/-- `p` is a factor that differs from 1 by at most `P - 1`. -/
def Near (P p : α) : Prop := |p - 1| ≤ P - 1

theorem Near.one_le {P p : α} (h : Near P p) : 1 ≤ P := by
  have := (abs_nonneg _).trans h
  linarith

theorem Near.mul {P Q p q : α} (hp : Near P p) (hq : Near Q q) : Near (P * Q) (p * q) := by
  have h1 := hp.one_le
  unfold Near at *
  have e : p * q - 1 = (p - 1) * (q - 1) + (p - 1) + (q - 1) := by ring
  rw [e]
  refine (abs_add_le _ _).trans ((add_le_add (abs_add_le _ _) le_rfl).trans ?_)
  rw [abs_mul]
  nlinarith [mul_le_mul hp hq (abs_nonneg _) ((abs_nonneg _).trans hp)]

theorem Near.abs_le {P p : α} (h : Near P p) : |p| ≤ P := by
  have := abs_add_le (p - 1) 1
  rw [sub_add_cancel, abs_one] at this
  unfold Near at h
  linarith

theorem Near.mono {P Q p : α} (h : Near P p) (hPQ : P ≤ Q) : Near Q p := by
  unfold Near at *; linarith

theorem fl_near (h : Rounding fl u) (z : α) : ∃ p, Near (1 + u) p ∧ fl z = z * p := by
  by_cases hz : z = 0
  · exact ⟨1, by unfold Near; simp [h.nonneg], by rw [hz, h.zero, zero_mul]⟩
  · refine ⟨fl z / z, ?_, by field_simp⟩
    unfold Near
    have e : fl z / z - 1 = (fl z - z) / z := by field_simp
    rw [e, abs_div, div_le_iff₀ (abs_pos.mpr hz)]
    simpa using h.error z

/-- The running mean. -/
theorem mean_err {u M G K x m a p r : α} (hu : 0 ≤ u) (hK : 2 ≤ K) (hG : 1 ≤ G) (hx : |x| ≤ M) (hm : |m| ≤ M) (he : |a - m| ≤ M * (G - 1))
    (hp : Near ((1 + u) ^ 2) p) (hr : Near (1 + u) r) :
    |(a + (x - a) / K * p) * r - (m + (x - m) / K)| ≤ M * (G * (1 + u) ^ 4 - 1) := by
  have hM : 0 ≤ M := (abs_nonneg _).trans hx
  have hK0 : 0 < K := by linarith
  have e : (a + (x - a) / K * p) * r - (m + (x - m) / K) = (a + (x - a) / K * p) * (r - 1) + ((a - m) * (1 - 1 / K) + (x - a) / K * (p - 1)) := by
    field_simp; ring
  have h1K : 0 ≤ 1 - 1 / K ∧ 1 - 1 / K ≤ 1 := by
    have : 1 / K ≤ 1 := by rw [div_le_one hK0]; linarith
    have : 0 ≤ 1 / K := by positivity
    constructor <;> linarith
  have hT : |(x - a) / K| ≤ M * G := by
    rw [abs_div, abs_of_pos hK0, div_le_iff₀ hK0]
    have : |x - a| ≤ 2 * M + M * (G - 1) := by
      have e2 : x - a = x + -m + -(a - m) := by ring
      rw [e2]
      refine (abs_add_le _ _).trans ((add_le_add (abs_add_le _ _) le_rfl).trans ?_)
      rw [abs_neg, abs_neg]; linarith
    have hMG : M ≤ M * G := le_mul_of_one_le_right hM hG
    nlinarith [mul_le_mul_of_nonneg_left hK (hM.trans hMG)]
  have ha : |a| ≤ M * G := by
    have := abs_add_le m (a - m)
    rw [add_sub_cancel] at this
    linarith
  have hMG0 : 0 ≤ M * G := (abs_nonneg _).trans ha
  have hA : |a + (x - a) / K * p| ≤ M * G + M * G * (1 + u) ^ 2 := by
    refine (abs_add_le _ _).trans (add_le_add ha ?_)
    rw [abs_mul]
    exact mul_le_mul hT hp.abs_le (abs_nonneg _) hMG0
  have h2 : |(a - m) * (1 - 1 / K)| ≤ M * (G - 1) := by
    rw [abs_mul, abs_of_nonneg h1K.1]
    exact (mul_le_of_le_one_right (abs_nonneg _) h1K.2).trans he
  have h3 : |(x - a) / K * (p - 1)| ≤ M * G * ((1 + u) ^ 2 - 1) := by
    rw [abs_mul]
    exact mul_le_mul hT hp (abs_nonneg _) hMG0
  have h4 : |(a + (x - a) / K * p) * (r - 1)| ≤ (M * G + M * G * (1 + u) ^ 2) * u := by
    rw [abs_mul]
    refine mul_le_mul hA ?_ (abs_nonneg _) ((abs_nonneg _).trans hA)
    have : |r - 1| ≤ 1 + u - 1 := hr
    linarith
  rw [e]
  refine (abs_add_le _ _).trans ((add_le_add le_rfl (abs_add_le _ _)).trans ((add_le_add h4 (add_le_add h2 h3)).trans ?_))
  have hfin : u + (1 + u) ^ 3 ≤ (1 + u) ^ 4 := by nlinarith [pow_nonneg hu 2, pow_nonneg hu 3, pow_nonneg hu 4]
  nlinarith [mul_le_mul_of_nonneg_left hfin hMG0]

/-- One term of the sum of squares. -/
theorem square_err {u M G K x m a s : α} (hu : 0 ≤ u) (hK : 2 ≤ K) (hG : 1 ≤ G) (hx : |x| ≤ M) (hm : |m| ≤ M) (he : |a - m| ≤ M * (G - 1))
    (hs : Near ((1 + u) ^ 7) s) :
    |(x - a) / K * ((x - a) / K) * (K * (K - 1)) * s - (x - m) / K * ((x - m) / K) * (K * (K - 1))| ≤ 4 * M ^ 2 * (G ^ 2 * (1 + u) ^ 7 - 1) := by
  have hM : 0 ≤ M := (abs_nonneg _).trans hx
  have hK0 : 0 < K := by linarith
  have hw : 0 ≤ (K - 1) / K ∧ (K - 1) / K ≤ 1 := ⟨div_nonneg (by linarith) hK0.le, (div_le_one hK0).mpr (by linarith)⟩
  have e : (x - a) / K * ((x - a) / K) * (K * (K - 1)) * s - (x - m) / K * ((x - m) / K) * (K * (K - 1)) =
      (K - 1) / K * ((x - a) ^ 2 * (s - 1) + (a - m) * ((a - m) - 2 * (x - m))) := by
    field_simp; ring
  have hxm : |x - m| ≤ 2 * M := by
    have := abs_sub x m
    exact (abs_sub _ _).trans (by linarith)
  have hxa : |x - a| ≤ M * (1 + G) := by
    have e2 : x - a = (x - m) - (a - m) := by ring
    rw [e2]
    exact (abs_sub _ _).trans (by linarith)
  have hE0 : 0 ≤ M * (G - 1) := (abs_nonneg _).trans he
  have h7 : 1 ≤ (1 + u) ^ 7 := one_le_pow₀ (by linarith)
  have h1 : |(x - a) ^ 2 * (s - 1)| ≤ (M * (1 + G)) ^ 2 * ((1 + u) ^ 7 - 1) := by
    rw [abs_mul, abs_pow]
    exact mul_le_mul (pow_le_pow_left₀ (abs_nonneg _) hxa 2) hs (abs_nonneg _) (by positivity)
  have h2 : |(a - m) * ((a - m) - 2 * (x - m))| ≤ M * (G - 1) * (M * (G - 1) + 4 * M) := by
    rw [abs_mul]
    refine mul_le_mul he ((abs_sub _ _).trans (add_le_add he ?_)) (abs_nonneg _) hE0
    rw [abs_mul, abs_two]; linarith
  rw [e, abs_mul, abs_of_nonneg hw.1]
  refine (mul_le_of_le_one_left (abs_nonneg _) hw.2).trans ((abs_add_le _ _).trans ((add_le_add h1 h2).trans ?_))
  have hg : (1 + G) ^ 2 ≤ 4 * G ^ 2 := by nlinarith
  have := mul_le_mul_of_nonneg_left (mul_le_mul_of_nonneg_right hg (by linarith : (0 : α) ≤ (1 + u) ^ 7)) (sq_nonneg M)
  nlinarith [this]

/-- The sum of squares. -/
theorem sum_err {u B C H J q S P P0 r : α} (hu : 0 ≤ u) (hB : |S| ≤ B) (hC : |P0| ≤ C) (hq : |q - S| ≤ B * (H - 1)) (hP : |P - P0| ≤ C * (J - 1)) (hr : Near (1 + u) r) :
    |(q + P) * r - (S + P0)| ≤ B * ((1 + u) * H - 1) + C * ((1 + u) * J - 1) := by
  have e : (q + P) * r - (S + P0) = ((q - S) * r + S * (r - 1)) + ((P - P0) * r + P0 * (r - 1)) := by ring
  have hr1 : |r - 1| ≤ u := by have : |r - 1| ≤ 1 + u - 1 := hr; linarith
  have hr2 := hr.abs_le
  have t : ∀ {D B H S : α}, |S| ≤ B → |D| ≤ B * (H - 1) → |D * r + S * (r - 1)| ≤ B * ((1 + u) * H - 1) := by
    intro D B H S hS hD
    refine (abs_add_le _ _).trans ?_
    rw [abs_mul, abs_mul]
    have := mul_le_mul hD hr2 (abs_nonneg _) ((abs_nonneg _).trans hD)
    have := mul_le_mul hS hr1 (abs_nonneg _) ((abs_nonneg _).trans hS)
    nlinarith
  rw [e]
  exact (abs_add_le _ _).trans (add_le_add (t hB hq) (t hC hP))

/-- The state after the values `l`, all of them at most `M` in absolute value, compared with that of the exact algorithm. -/
def ErrInv (u M k a q : α) (l : List α) : Prop :=
  k = (l.length : α) ∧ 0 ≤ q ∧ ∃ s : StdState α, WInv s l ∧ |s.a| ≤ M ∧ 0 ≤ s.q ∧ s.q ≤ 4 * M ^ 2 * ((l.length : α) - 1) ∧
    |a - s.a| ≤ M * ((1 + u) ^ (4 * (l.length - 1)) - 1) ∧ |q - s.q| ≤ 4 * M ^ 2 * ((l.length : α) - 1) * ((1 + u) ^ (8 * (l.length - 1)) - 1)

theorem einv_first (u M x : α) (hx : |x| ≤ M) : ErrInv u M 1 x 0 [x] :=
  ⟨by simp, le_rfl, ⟨1, x, 0⟩, WInv_single x, hx, le_rfl, by simp, by simp, by simp⟩

theorem einv_step (h : Rounding fl u) (hu1 : u < 1) {M k a q : α} {l : List α} (hi : ErrInv u M k a q l) (x : α) (hx : |x| ≤ M) (hc : fl (k + 1) = k + 1) :
    ErrInv u M (k + 1) (fl (a + fl (fl (x - a) / fl (k + 1)))) (fl (q + fl (fl (fl (fl (x - a) / fl (k + 1)) * fl (fl (x - a) / fl (k + 1))) * fl ((k + 1) * (k + 1 - 1))))) (l ++ [x]) := by
  obtain ⟨hk, hqf, s, hw, hm, hq0, hqB, ha, hq⟩ := hi
  have hu := h.nonneg
  have hl : 1 ≤ l.length := by have h1 := hw.1; have h2 := hw.2.1; omega
  obtain ⟨j, hj⟩ : ∃ j, l.length = j + 1 := ⟨l.length - 1, by omega⟩
  have hM : 0 ≤ M := (abs_nonneg _).trans hx
  have hK : (2 : α) ≤ k + 1 := by
    have : (1 : α) ≤ (l.length : α) := by exact_mod_cast hl
    rw [hk]; linarith
  have hks : ((s.k + 1 : Nat) : α) = k + 1 := by rw [hw.1, hk]; push_cast; rfl
  obtain ⟨p1, n1, e1⟩ := fl_near h (x - a)
  obtain ⟨p2, n2, e2⟩ := fl_near h (fl (x - a) / (k + 1))
  obtain ⟨r, nr, er⟩ := fl_near h (a + fl (fl (x - a) / (k + 1)))
  obtain ⟨p3, n3, e3⟩ := fl_near h (fl (fl (x - a) / (k + 1)) * fl (fl (x - a) / (k + 1)))
  obtain ⟨p4, n4, e4⟩ := fl_near h ((k + 1) * (k + 1 - 1))
  obtain ⟨p5, n5, e5⟩ := fl_near h (fl (fl (fl (x - a) / (k + 1)) * fl (fl (x - a) / (k + 1))) * fl ((k + 1) * (k + 1 - 1)))
  obtain ⟨r', nr', er'⟩ := fl_near h (q + fl (fl (fl (fl (x - a) / (k + 1)) * fl (fl (x - a) / (k + 1))) * fl ((k + 1) * (k + 1 - 1))))
  have et : fl (fl (x - a) / (k + 1)) = (x - a) / (k + 1) * (p1 * p2) := by rw [e2, e1]; ring
  have hp : Near ((1 + u) ^ 2) (p1 * p2) := (n1.mul n2).mono (by rw [sq])
  have ep : fl (fl (fl (fl (x - a) / (k + 1)) * fl (fl (x - a) / (k + 1))) * fl ((k + 1) * (k + 1 - 1))) =
      (x - a) / (k + 1) * ((x - a) / (k + 1)) * ((k + 1) * (k + 1 - 1)) * ((p1 * p2) * (p1 * p2) * (p3 * p4 * p5)) := by
    rw [e5, e3, e4, et]; ring
  have hs : Near ((1 + u) ^ 7) ((p1 * p2) * (p1 * p2) * (p3 * p4 * p5)) :=
    ((hp.mul hp).mul ((n3.mul n4).mul n5)).mono (by ring_nf; exact le_rfl)
  have hlen : (l ++ [x]).length = j + 2 := by rw [List.length_append, hj]; rfl
  have hcast : (((l ++ [x]).length : Nat) : α) = k + 1 := by rw [hk, List.length_append]; simp
  have hG : (1 : α) ≤ (1 + u) ^ (4 * j) := one_le_pow₀ (by linarith)
  rw [hj, Nat.add_sub_cancel] at ha hq
  have hkj : k = (j : α) + 1 := by rw [hk, hj]; push_cast; rfl
  have hjB : ((j + 1 : Nat) : α) - 1 = (j : α) := by push_cast; ring
  rw [hjB] at hq
  rw [hj, hjB] at hqB
  have hw' := WInv_step s l x hw
  have hT : |(x - s.a) / (k + 1) * ((x - s.a) / (k + 1)) * ((k + 1) * (k + 1 - 1))| ≤ 4 * M ^ 2 ∧
      0 ≤ (x - s.a) / (k + 1) * ((x - s.a) / (k + 1)) * ((k + 1) * (k + 1 - 1)) := by
    have h0 : 0 ≤ (x - s.a) / (k + 1) * ((x - s.a) / (k + 1)) * ((k + 1) * (k + 1 - 1)) :=
      mul_nonneg (mul_self_nonneg _) (mul_nonneg (by linarith) (by linarith))
    refine ⟨?_, h0⟩
    rw [abs_of_nonneg h0]
    have e : (x - s.a) / (k + 1) * ((x - s.a) / (k + 1)) * ((k + 1) * (k + 1 - 1)) = k / (k + 1) * (x - s.a) ^ 2 := by
      have : k + 1 ≠ 0 := by linarith
      field_simp; ring
    have hk1 : k / (k + 1) ≤ 1 := (div_le_one (by linarith)).mpr (by linarith)
    rw [e]
    refine (mul_le_of_le_one_left (sq_nonneg _) hk1).trans ?_
    have : |x - s.a| ≤ 2 * M := (abs_sub _ _).trans (by linarith)
    rw [← sq_abs]
    calc |x - s.a| ^ 2 ≤ (2 * M) ^ 2 := pow_le_pow_left₀ (abs_nonneg _) this 2
      _ = 4 * M ^ 2 := by ring
  have hws : welfordStep s x = ⟨s.k + 1, s.a + (x - s.a) / (k + 1), s.q + (x - s.a) / (k + 1) * ((x - s.a) / (k + 1)) * ((k + 1) * (k + 1 - 1))⟩ := by
    unfold welfordStep
    simp only [hks]
  rw [hc]
  have hkk : 0 ≤ (k + 1) * (k + 1 - 1) := mul_nonneg (by linarith) (by linarith)
  refine ⟨hcast.symm, fl_nonneg h hu1 (add_nonneg hqf (fl_nonneg h hu1 (mul_nonneg (fl_nonneg h hu1 (mul_self_nonneg _)) (fl_nonneg h hu1 hkk)))), welfordStep s x, hw', ?_⟩
  rw [hws, hcast, hlen, show j + 2 - 1 = j + 1 by omega, show k + 1 - 1 = k by ring]
  rw [show k + 1 - 1 = k by ring] at hT ep er'
  have hme := mean_err hu hK hG hx hm ha hp nr
  have hse := square_err hu hK hG hx hm ha hs
  rw [show k + 1 - 1 = k by ring] at hse
  refine ⟨?_, ?_, ?_, ?_, ?_⟩
  · show |s.a + (x - s.a) / (k + 1)| ≤ M
    have hk0 : 0 < k + 1 := by linarith
    have e : s.a + (x - s.a) / (k + 1) = (k * s.a + x) / (k + 1) := by field_simp; ring
    rw [e, abs_div, abs_of_pos hk0, div_le_iff₀ hk0]
    refine (abs_add_le _ _).trans ?_
    have hk1 : 0 ≤ k := by linarith
    rw [abs_mul, abs_of_nonneg hk1]
    have := mul_le_mul_of_nonneg_left hm hk1
    linarith
  · show 0 ≤ s.q + _
    exact add_nonneg hq0 hT.2
  · show s.q + _ ≤ 4 * M ^ 2 * k
    have := (le_abs_self _).trans hT.1
    exact (add_le_add hqB this).trans (by rw [hkj]; linarith)
  · show |_ - (s.a + (x - s.a) / (k + 1))| ≤ _
    rw [er, et]
    have e4 : (1 + u) ^ (4 * (j + 1)) = (1 + u) ^ (4 * j) * (1 + u) ^ 4 := by rw [← pow_add]; congr 1
    rw [e4]
    exact hme
  · show |_ - (s.q + _)| ≤ 4 * M ^ 2 * k * ((1 + u) ^ (8 * (j + 1)) - 1)
    rw [er', ep]
    have hse' := sum_err hu (by rw [abs_of_nonneg hq0]; exact hqB) hT.1 hq hse nr'
    refine hse'.trans ?_
    have e8 : (1 + u) * (((1 + u) ^ (4 * j)) ^ 2 * (1 + u) ^ 7) = (1 + u) ^ (8 * (j + 1)) := by
      rw [← pow_mul, ← pow_add, ← pow_succ']; congr 1; omega
    have h8 : (1 + u) * (1 + u) ^ (8 * j) ≤ (1 + u) ^ (8 * (j + 1)) := by
      rw [← pow_succ']
      exact pow_le_pow_right₀ (by linarith) (by omega)
    rw [e8, hkj]
    have hB0 : 0 ≤ 4 * M ^ 2 * (j : α) := by positivity
    have hfin := mul_le_mul_of_nonneg_left h8 hB0
    generalize (1 + u) * (1 + u) ^ (8 * j) = Y at hfin
    generalize (1 + u) ^ (8 * (j + 1)) = X at hfin
    clear * - hfin
    linarith

end Biggus

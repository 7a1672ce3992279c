import Verif.Model.Handlers
import Verif.Spec.Agg
import Mathlib.Algebra.BigOperators.Group.List.Basic
import Mathlib.Data.Nat.Cast.Basic
import Mathlib.Algebra.CharZero.Defs
import Mathlib.Tactic.Ring
import Mathlib.Tactic.FieldSimp
import Mathlib.Tactic.LinearCombination
import Mathlib.Algebra.Order.Field.Rat
import Mathlib.Order.OrderDual
/-
Helper lemmas about the streams handlers.
-/
namespace Biggus

theorem foldl_flatten {σ V : Type} (f : σ → V → σ) (s : σ) (L : List (List V)) :
    L.foldl (fun s l => l.foldl f s) s = L.flatten.foldl f s := by
  induction L generalizing s with
  | nil => rfl
  | cons l L ih => simp [List.foldl_append, ih]

theorem foldl_add_map {σ : Type} [AddCommMonoid σ] {V : Type} (g : List V → σ)
    (hg0 : g [] = 0) (hg : ∀ a b, g (a ++ b) = g a + g b) (s : σ) (L : List (List V)) :
    L.foldl (fun s l => s + g l) s = s + g L.flatten := by
  induction L generalizing s with
  | nil => simp [hg0]
  | cons l L ih => rw [List.foldl_cons, ih, List.flatten_cons, hg, add_assoc]

section welford
variable {α : Type} [Field α] [CharZero α]

/-- Welford's invariant: `k` values seen, `a` their mean, `q` their sum of squared deviations
(as `k*a = Σx`, `q = Σx² - k*a²`). -/
def WInv (s : StdState α) (l : List α) : Prop :=
  s.k = l.length ∧ s.k ≠ 0 ∧ (s.k : α) * s.a = l.sum ∧
    s.q = (l.map (fun x => x * x)).sum - (s.k : α) * (s.a * s.a)

omit [CharZero α] in
theorem WInv_single (x : α) : WInv (⟨1, x, 0⟩ : StdState α) [x] := by
  simp [WInv]

theorem WInv_step (s : StdState α) (l : List α) (x : α) (h : WInv s l) :
    WInv (welfordStep s x) (l ++ [x]) := by
  obtain ⟨h1, h2, h3, h4⟩ := h
  have hk : ((s.k : α) + 1) ≠ 0 := by exact_mod_cast Nat.succ_ne_zero s.k
  refine ⟨by simp [welfordStep, h1], by simp [welfordStep], ?_, ?_⟩
  · simp only [welfordStep, List.sum_append, List.sum_cons, List.sum_nil, ← h3]
    push_cast
    field_simp
    ring
  · simp only [welfordStep, List.map_append, List.map_cons, List.map_nil, List.sum_append, List.sum_cons,
      List.sum_nil, h4]
    push_cast
    field_simp
    ring

theorem WInv_foldl (l' : List α) : ∀ (s : StdState α) (l : List α), WInv s l →
    WInv (l'.foldl welfordStep s) (l ++ l') := by
  induction l' with
  | nil => intro s l h; simpa using h
  | cons x l' ih =>
    intro s l h
    have := ih _ _ (WInv_step s l x h)
    simpa using this

omit [CharZero α] in
theorem sum_sub_sq (l : List α) (m : α) : (l.map (fun x => (x - m) * (x - m))).sum =
    (l.map (fun x => x * x)).sum - 2 * m * l.sum + (l.length : α) * (m * m) := by
  induction l with
  | nil => simp
  | cons x l ih => simp only [List.map_cons, List.sum_cons, ih, List.length_cons]; push_cast; ring

theorem WInv_ssd (s : StdState α) (l : List α) (h : WInv s l) : s.a = Spec.mean l ∧ s.q = Spec.ssd l := by
  obtain ⟨h1, h2, h3, h4⟩ := h
  have hk : (s.k : α) ≠ 0 := by exact_mod_cast h2
  have ha : s.a = Spec.mean l := by
    unfold Spec.mean; rw [← h1, ← h3]; field_simp
  refine ⟨ha, ?_⟩
  unfold Spec.ssd
  rw [sum_sub_sq, ← ha, h4, ← h1, ← h3]
  ring


/-- `stdH` on a chunk of at least two values, from the initial state or a state with `k = 1`. -/
theorem std_step_first (s : StdState α) (hs : s.k = 1) (hq : s.q = 0)
    (x : α) (xs : List α) : WInv (stdStep s (x :: xs)) (x :: xs) := by
  simp only [stdStep, hs, if_true]
  have := WInv_foldl xs (⟨1, x, 0⟩ : StdState α) [x] (WInv_single x)
  rw [hq]
  simpa using this

theorem std_steps_rest (L : List (List α)) : ∀ (s : StdState α) (l : List α),
    WInv s l → s.k ≠ 1 → WInv (L.foldl stdStep s) (l ++ L.flatten) := by
  induction L with
  | nil => intro s l h _; simpa using h
  | cons c L ih =>
    intro s l h hk
    have hstep : stdStep s c = c.foldl welfordStep s := by simp [stdStep, hk]
    have h' : WInv (stdStep s c) (l ++ c) := by rw [hstep]; exact WInv_foldl c s l h
    have hk' : (stdStep s c).k ≠ 1 := by
      have h1 := h'.1; have h2 := h.1; have h3 := h.2.1
      rw [List.length_append] at h1; omega
    have := ih _ _ h' hk'
    simpa using this

omit [CharZero α] in
/-- Single-element chunks at the beginning leave `k = 1` and `q = 0`. -/
theorem std_singletons (L : List (List α)) (hL : ∀ c ∈ L, c.length = 1) :
    ∀ (s : StdState α), s.k = 1 → s.q = 0 →
      (L.foldl stdStep s).k = 1 ∧ (L.foldl stdStep s).q = 0 := by
  induction L with
  | nil => intro s h1 h2; exact ⟨h1, h2⟩
  | cons c L ih =>
    intro s h1 h2
    rw [List.foldl_cons]
    have hc := hL c List.mem_cons_self
    match c, hc with
    | [x], _ =>
      apply ih (fun c hc => hL c (List.mem_cons_of_mem _ hc)) <;> simp [stdStep, h1, h2]

theorem std_fin (sqrt : α → α) (ddof : Int) (n : Nat) (s : StdState α) (l : List α) (h : WInv s l) :
    (stdH sqrt ddof).fin n s = sqrt (Spec.var ddof l) := by
  simp only [stdH, Spec.var, (WInv_ssd s l h).2, h.1]

/-- Masked invariant. -/
def WMInv (s : StdState α) (col : List (Option α)) : Prop :=
  (Spec.valid col = [] ∧ s.k = 0 ∧ s.q = 0) ∨ (Spec.valid col ≠ [] ∧ WInv s (Spec.valid col))

theorem WMInv_step (s : StdState α) (col : List (Option α)) (v : Option α) (h : WMInv s col) :
    WMInv (welfordMStep s v) (col ++ [v]) := by
  cases v with
  | none =>
    have hv : Spec.valid (col ++ [none]) = Spec.valid col := by simp [Spec.valid]
    rcases h with ⟨h1, h2, h3⟩ | ⟨h1, h2⟩
    · left; rw [hv]; refine ⟨h1, ?_, ?_⟩ <;> simp [welfordMStep, h2, h3]
    · right; rw [hv]; refine ⟨h1, ?_⟩
      have hk := h2.2.1
      have : welfordMStep s (none : Option α) = s := by simp [welfordMStep, hk]
      rw [this]; exact h2
  | some x =>
    have hv : Spec.valid (col ++ [some x]) = Spec.valid col ++ [x] := by simp [Spec.valid]
    right
    rw [hv]
    refine ⟨by simp, ?_⟩
    rcases h with ⟨h1, h2, h3⟩ | ⟨h1, h2⟩
    · have : welfordMStep s (some x) = ⟨1, x, 0⟩ := by simp [welfordMStep, h2, h3]
      rw [this, h1]; exact WInv_single x
    · have hk := h2.2.1
      have : welfordMStep s (some x) = welfordStep s x := by simp [welfordMStep, welfordStep, hk]
      rw [this]; exact WInv_step s _ x h2

theorem WMInv_foldl (l : List (Option α)) : ∀ (s : StdState α) (col : List (Option α)), WMInv s col →
    WMInv (l.foldl welfordMStep s) (col ++ l) := by
  induction l with
  | nil => intro s col h; simpa using h
  | cons v l ih =>
    intro s col h
    have := ih _ _ (WMInv_step s col v h)
    simpa using this

theorem stdM_run_state (chunks : List (List (Option α))) :
    WMInv (chunks.foldl stdMStep (⟨0, 0, 0⟩ : StdState α)) chunks.flatten := by
  have : chunks.foldl stdMStep (⟨0, 0, 0⟩ : StdState α)
      = chunks.flatten.foldl welfordMStep (⟨0, 0, 0⟩ : StdState α) := by
    rw [← foldl_flatten]; rfl
  rw [this]
  have := WMInv_foldl chunks.flatten (⟨0, 0, 0⟩ : StdState α) [] (Or.inl ⟨rfl, rfl, rfl⟩)
  simpa using this

end welford

theorem foldl_min_isMin {α : Type} [LinearOrder α] (xs : List α) : ∀ x : α,
    Spec.IsMin (x :: xs) (xs.foldl min x) := by
  induction xs with
  | nil => intro x; simp [Spec.IsMin]
  | cons y ys ih =>
    intro x
    obtain ⟨h1, h2⟩ := ih (min x y)
    rw [List.foldl_cons]
    refine ⟨?_, ?_⟩
    · rcases List.mem_cons.mp h1 with h | h
      · rw [h]; rcases min_choice x y with h' | h' <;> rw [h'] <;> simp
      · simp [h]
    · intro z hz
      have hle := h2 (min x y) List.mem_cons_self
      rcases List.mem_cons.mp hz with rfl | hz
      · exact le_trans hle (min_le_left _ _)
      · rcases List.mem_cons.mp hz with rfl | hz
        · exact le_trans hle (min_le_right _ _)
        · exact h2 z (List.mem_cons_of_mem _ hz)

theorem foldl_max_isMax {α : Type} [LinearOrder α] (xs : List α) (x : α) :
    Spec.IsMax (x :: xs) (xs.foldl max x) :=
  foldl_min_isMin (α := αᵒᵈ) xs x

end Biggus

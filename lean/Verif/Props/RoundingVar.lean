import Verif.Proofs.RoundingVar
import Verif.Props.RoundingStd
/-
C82: error bounds for standard deviations and variances.
-/
namespace Biggus
open Spec

section
variable {α : Type} [Field α] [LinearOrder α] [IsStrictOrderedRing α] {fl : α → α} {u : α}

theorem einv_fin (h : Rounding fl u) (hu1 : u < 1) (sqrt : α → α) (hs : RootRounding sqrt u) (ddof : Int) {M k a q : α} {l : List α} (hi : ErrInv u M k a q l)
    (hd : ddof < l.length) (hN : fl ((l.length : α) - (ddof : α)) = (l.length : α) - (ddof : α)) :
    |sqrt (fl (q / fl (k - (ddof : α)))) * sqrt (fl (q / fl (k - (ddof : α)))) - var ddof l| ≤
      4 * M ^ 2 * ((l.length : α) - 1) / ((l.length : α) - (ddof : α)) * ((1 + u) ^ (8 * (l.length - 1) + 3) - 1) ∧
    |fl (sqrt (fl (q / fl (k - (ddof : α)))) * sqrt (fl (q / fl (k - (ddof : α))))) - var ddof l| ≤
      4 * M ^ 2 * ((l.length : α) - 1) / ((l.length : α) - (ddof : α)) * ((1 + u) ^ (8 * (l.length - 1) + 4) - 1) := by
  obtain ⟨hk, hq0, s, hw, _, hs0, hsB, _, hq⟩ := hi
  have hu := h.nonneg
  have hN0 : 0 < (l.length : α) - (ddof : α) := by
    have : (ddof : α) < (l.length : α) := by exact_mod_cast hd
    linarith
  have hv : var ddof l = s.q / ((l.length : α) - (ddof : α)) := by unfold var; rw [(WInv_ssd s l hw).2]
  rw [hk, hN, hv]
  generalize (l.length : α) - (ddof : α) = N at hN0
  generalize 8 * (l.length - 1) = e at hq
  generalize 4 * M ^ 2 * ((l.length : α) - 1) = B at hq hsB
  have hz0 : 0 ≤ fl (q / N) := fl_nonneg h hu1 (div_nonneg hq0 hN0.le)
  obtain ⟨r1, n1, e1⟩ := fl_near h (q / N)
  have hroot : ∃ t, Near ((1 + u) ^ 2) t ∧ sqrt (fl (q / N)) * sqrt (fl (q / N)) = fl (q / N) * t := by
    have := hs _ hz0
    rcases hz0.lt_or_eq with hz | hz
    · refine ⟨sqrt (fl (q / N)) * sqrt (fl (q / N)) / fl (q / N), ?_, by field_simp⟩
      unfold Near
      have e : sqrt (fl (q / N)) * sqrt (fl (q / N)) / fl (q / N) - 1 = (sqrt (fl (q / N)) * sqrt (fl (q / N)) - fl (q / N)) / fl (q / N) := by field_simp
      rw [e, abs_div, abs_of_pos hz, div_le_iff₀ hz]
      exact this
    · refine ⟨1, ?_, ?_⟩
      · unfold Near
        have : 1 ≤ (1 + u) ^ 2 := one_le_pow₀ (by linarith)
        simpa using this
      · rw [← hz] at this ⊢
        have h0 : |sqrt 0 * sqrt 0 - 0| = 0 := le_antisymm (by simpa using this) (abs_nonneg _)
        rw [abs_eq_zero, sub_zero] at h0
        rw [h0, zero_mul]
  obtain ⟨t, nt, et⟩ := hroot
  have key : ∀ (m : Nat) (ρ : α), Near ((1 + u) ^ m) ρ → |q / N * ρ - s.q / N| ≤ B / N * ((1 + u) ^ (e + m) - 1) := by
    intro m ρ hρ
    have e2 : q / N * ρ - s.q / N = ((q - s.q) * ρ + s.q * (ρ - 1)) / N := by field_simp; ring
    have h1 := mul_le_mul hq hρ.abs_le (abs_nonneg _) ((abs_nonneg _).trans hq)
    have h2 := mul_le_mul (a := |s.q|) (b := B) (by rw [abs_of_nonneg hs0]; exact hsB) hρ (abs_nonneg _) (hs0.trans hsB)
    have h3 : |(q - s.q) * ρ + s.q * (ρ - 1)| ≤ B * ((1 + u) ^ (e + m) - 1) := by
      refine (abs_add_le _ _).trans ?_
      rw [abs_mul, abs_mul, pow_add]
      linarith
    rw [e2, abs_div, abs_of_pos hN0, div_mul_eq_mul_div]
    exact div_le_div_of_nonneg_right h3 hN0.le
  obtain ⟨r2, n2, e3⟩ := fl_near h (sqrt (fl (q / N)) * sqrt (fl (q / N)))
  constructor
  · rw [et, e1, mul_assoc]
    exact key 3 _ ((n1.mul nt).mono (by ring_nf; exact le_rfl))
  · rw [e3, et, e1, mul_assoc, mul_assoc]
    exact key 4 _ ((n1.mul (nt.mul n2)).mono (by ring_nf; exact le_rfl))

theorem einv_fold (h : Rounding fl u) (hu1 : u < 1) (M : α) (xs : List α) : ∀ (s : StdState α) (l : List α), ErrInv u M (s.k : α) s.a s.q l →
    (∀ x ∈ xs, |x| ≤ M) → (∀ j : Nat, j ≤ (l ++ xs).length → fl (j : α) = (j : α)) →
    ErrInv u M ((xs.foldl (welfordRStep fl) s).k : α) (xs.foldl (welfordRStep fl) s).a (xs.foldl (welfordRStep fl) s).q (l ++ xs) := by
  induction xs with
  | nil => intro s l h1 _ _; simpa using h1
  | cons x xs ih =>
    intro s l h1 hx hex
    rw [List.foldl_cons, show l ++ x :: xs = (l ++ [x]) ++ xs by simp]
    have hc : ((s.k + 1 : Nat) : α) = (s.k : α) + 1 := by push_cast; rfl
    have hk : s.k = l.length := by exact_mod_cast h1.1
    have hst := einv_step h hu1 h1 x (hx x (by simp)) (by rw [← hc]; exact hex _ (by rw [hk]; simp))
    refine ih _ _ ?_ (fun y hy => hx y (by simp [hy])) (by simpa using hex)
    rw [← hc] at hst
    exact hst

theorem einv_kept (h : Rounding fl u) (hu1 : u < 1) (M : α) : ∀ (chunks : List (List α)), chunks ≠ [] → (∀ c ∈ chunks, c ≠ []) →
    ∀ s : StdState α, s.k = 1 → s.q = 0 → (∀ x ∈ stdValues chunks, |x| ≤ M) → (∀ j : Nat, j ≤ (stdValues chunks).length → fl (j : α) = (j : α)) →
    ErrInv u M ((chunks.foldl (stdRStep fl) s).k : α) (chunks.foldl (stdRStep fl) s).a (chunks.foldl (stdRStep fl) s).q (stdValues chunks) := by
  have first : ∀ (s : StdState α) (x : α), s.k = 1 → s.q = 0 → |x| ≤ M → ErrInv u M (s.k : α) x s.q [x] := by
    intro s x hs hq hx
    rw [hs, hq, Nat.cast_one]
    exact einv_first u M x hx
  have rest : ∀ (L : List (List α)) (s : StdState α) (l : List α), ErrInv u M (s.k : α) s.a s.q l → s.k ≠ 1 → (∀ x ∈ l ++ L.flatten, |x| ≤ M) →
      (∀ j : Nat, j ≤ (l ++ L.flatten).length → fl (j : α) = (j : α)) →
      ErrInv u M ((L.foldl (stdRStep fl) s).k : α) (L.foldl (stdRStep fl) s).a (L.foldl (stdRStep fl) s).q (l ++ L.flatten) := by
    intro L
    induction L with
    | nil => intro s l h1 _ _ _; simpa using h1
    | cons c L ih =>
      intro s l h1 h3 hx hex
      rw [List.foldl_cons, List.flatten_cons, ← List.append_assoc]
      rw [List.flatten_cons, ← List.append_assoc] at hx hex
      have e : stdRStep fl s c = c.foldl (welfordRStep fl) s := by unfold stdRStep; rw [if_neg h3]
      have k1 := einv_fold h hu1 M c s l h1 (fun y hy => hx y (by simp [hy])) (fun j hj => hex j (hj.trans (by simp)))
      rw [e]
      refine ih _ _ k1 ?_ hx hex
      have hl : s.k = l.length := by exact_mod_cast h1.1
      have hl' : (c.foldl (welfordRStep fl) s).k = (l ++ c).length := by exact_mod_cast k1.1
      obtain ⟨_, _, s', hw, _⟩ := h1
      have := hw.1
      have := hw.2.1
      rw [hl', List.length_append]
      omega
  intro chunks
  induction chunks with
  | nil => intro h; exact absurd rfl h
  | cons c cs ih =>
    intro _ hn s hs hq hx hex
    obtain ⟨x, xs, rfl⟩ := List.exists_cons_of_ne_nil (hn c (by simp))
    have e : stdRStep fl s (x :: xs) = xs.foldl (welfordRStep fl) { s with a := x } := by unfold stdRStep; rw [if_pos hs]
    have h1 : (∀ y ∈ x :: xs, |y| ≤ M) → (∀ j : Nat, j ≤ (x :: xs).length → fl (j : α) = (j : α)) → _ :=
      fun hx hex => einv_fold h hu1 M xs { s with a := x } [x] (first s x hs hq (hx x (by simp))) (fun y hy => hx y (by simp [hy])) hex
    rw [List.foldl_cons, e]
    cases cs with
    | nil => exact h1 hx hex
    | cons d cs =>
      unfold stdValues at hx hex ⊢
      by_cases hl : (x :: xs).length = 1
      · rw [if_pos hl] at hx hex ⊢
        have hxs : xs = [] := by simpa using hl
        subst hxs
        exact ih (by simp) (fun c hc => hn c (by simp [hc])) _ hs hq hx hex
      · rw [if_neg hl] at hx hex ⊢
        rw [List.flatten_cons] at hx hex ⊢
        have h2 := h1 (fun y hy => hx y (List.mem_append_left _ hy)) (fun j hj => hex j (hj.trans (by simp)))
        have hk : (xs.foldl (welfordRStep fl) { s with a := x }).k = (x :: xs).length := by exact_mod_cast h2.1
        exact rest (d :: cs) _ _ h2 (by rw [hk]; exact hl) hx hex

/-- C82: the errors of `std` (of its square) and `var`, for the values that are not forgotten (`stdValues`, see C23). -/
theorem C82_std (h : Rounding fl u) (hu : u < 1) (sqrt : α → α) (hs : RootRounding sqrt u) (ddof : Int) (chunks : List (List α)) (hc : chunks ≠ [])
    (hne : ∀ c ∈ chunks, c ≠ []) (hd : ddof < (stdValues chunks).length) (hex : CountsExact fl (stdValues chunks).length ddof) (n : Nat) :
    VarError u 3 ddof (stdValues chunks) ((stdRH fl sqrt ddof).run n chunks * (stdRH fl sqrt ddof).run n chunks) ∧
    VarError u 4 ddof (stdValues chunks) ((varRH fl sqrt ddof).run n chunks) := by
  have key := fun M hM => einv_fin h hu sqrt hs ddof (einv_kept h hu M chunks hc hne ⟨1, 0, 0⟩ rfl rfl hM hex.1) hd hex.2
  exact ⟨fun M hM => (key M hM).1, fun M hM => (key M hM).2⟩

theorem einv_masked (h : Rounding fl u) (hu1 : u < 1) (M : α) (col : List (Option α)) : ∀ (s : StdRState α) (l : List α),
    (l = [] → s.k = 0 ∧ s.q = 0) → (l ≠ [] → ErrInv u M s.k s.a s.q l) →
    (∀ x ∈ valid col, |x| ≤ M) → (∀ j : Nat, j ≤ (l ++ valid col).length → fl (j : α) = (j : α)) →
    (l ++ valid col = [] → (col.foldl (welfordRMStep fl) s).k = 0 ∧ (col.foldl (welfordRMStep fl) s).q = 0) ∧
    (l ++ valid col ≠ [] → ErrInv u M (col.foldl (welfordRMStep fl) s).k (col.foldl (welfordRMStep fl) s).a (col.foldl (welfordRMStep fl) s).q (l ++ valid col)) := by
  induction col with
  | nil => intro s l h1 h2 _ _; simpa [valid] using ⟨h1, h2⟩
  | cons v col ih =>
    intro s l h1 h2 hM hex
    rw [List.foldl_cons]
    have hpos : l ≠ [] → s.k ≠ 0 := by
      intro hl
      rw [(h2 hl).1]
      exact_mod_cast (List.length_pos_of_ne_nil hl).ne'
    cases v with
    | none =>
      have e : valid (none :: col) = valid col := rfl
      rw [e] at hM hex ⊢
      refine ih _ _ h1 (fun hl => ?_) hM hex
      show ErrInv u M s.k (if s.k ≠ 0 then s.a else _) s.q l
      rw [if_pos (hpos hl)]
      exact h2 hl
    | some x =>
      have e : valid (some x :: col) = x :: valid col := rfl
      rw [e] at hM hex ⊢
      rw [show l ++ x :: valid col = (l ++ [x]) ++ valid col by simp] at hex ⊢
      refine ih _ _ (by simp) (fun _ => ?_) (fun y hy => hM y (by simp [hy])) hex
      have hx := hM x (by simp)
      by_cases hl : l = []
      · obtain ⟨hk, hq⟩ := h1 hl
        have hst : welfordRMStep fl s (some x) = { s with k := fl (s.k + 1), a := x } := by
          unfold welfordRMStep
          simp [hk]
        have h1f : fl 1 = 1 := by
          have := hex 1 (by simp only [List.length_append, List.length_cons, List.length_nil]; omega)
          rw [Nat.cast_one] at this
          exact this
        rw [hst, hl]
        show ErrInv u M (fl (s.k + 1)) x s.q [x]
        rw [hk, zero_add, h1f, hq]
        exact einv_first u M x hx
      · have hk := hpos hl
        have hi := h2 hl
        have hkl : s.k = (l.length : α) := hi.1
        have hc : fl (s.k + 1) = s.k + 1 := by
          have := hex (l.length + 1) (by simp)
          rw [hkl]
          push_cast at this
          exact this
        have hck : fl (s.k + 1 - 1) = s.k + 1 - 1 := by
          rw [add_sub_cancel_right, hkl]
          exact hex _ (by rw [List.length_append, List.length_append]; omega)
        have hst : welfordRMStep fl s (some x) = ⟨s.k + 1, fl (s.a + fl (fl (x - s.a) / fl (s.k + 1))),
            fl (s.q + fl (fl (fl (fl (x - s.a) / fl (s.k + 1)) * fl (fl (x - s.a) / fl (s.k + 1))) * fl ((s.k + 1) * (s.k + 1 - 1))))⟩ := by
          unfold welfordRMStep
          simp only [Option.getD_some, ne_eq, hk, not_false_eq_true, if_true, hc, hck]
        rw [hst]
        exact einv_step h hu1 hi x hx hc

/-- C82, masked: the errors of `std` (of its square) and `var` for every cut of the column into chunks. -/
theorem C82_masked_std (h : Rounding fl u) (hu : u < 1) (sqrt : α → α) (hs : RootRounding sqrt u) (ddof : Int) (col : List (Option α)) (chunks : List (List (Option α)))
    (hcut : CutOf col chunks) (hne : valid col ≠ []) (hd : ddof < (valid col).length) (hex : CountsExact fl (valid col).length ddof) (n : Nat) :
    (∃ v, (stdRMH fl sqrt ddof).run n chunks = some v ∧ VarError u 3 ddof (valid col) (v * v)) ∧
    ∃ v, (varRMH fl sqrt ddof).run n chunks = some v ∧ VarError u 4 ddof (valid col) v := by
  have hfold : ∀ (L : List (List (Option α))) (s : StdRState α), L.foldl (fun s c => c.foldl (welfordRMStep fl) s) s = L.flatten.foldl (welfordRMStep fl) s := by
    intro L
    induction L with
    | nil => intro s; rfl
    | cons c L ih => intro s; rw [List.foldl_cons, ih, List.flatten_cons, List.foldl_append]
  have hinv : ∀ M, (∀ x ∈ valid col, |x| ≤ M) → ErrInv u M (col.foldl (welfordRMStep fl) ⟨0, 0, 0⟩).k (col.foldl (welfordRMStep fl) ⟨0, 0, 0⟩).a
      (col.foldl (welfordRMStep fl) ⟨0, 0, 0⟩).q (valid col) := by
    intro M hM
    have := (einv_masked h hu M col ⟨0, 0, 0⟩ [] (fun _ => ⟨rfl, rfl⟩) (fun hn => absurd rfl hn) hM (by simpa using hex.1)).2
    simpa using this (by simpa using hne)
  have e1 : chunks.foldl (fun s c => c.foldl (welfordRMStep fl) s) ⟨0, 0, 0⟩ = col.foldl (welfordRMStep fl) ⟨0, 0, 0⟩ := by rw [hfold, hcut]
  have er : (stdRMH fl sqrt ddof).run n chunks = (fun s : StdRState α => if s.k = 0 then none else if fl (s.k - (ddof : α)) = 0 then none else
      if fl (s.q / fl (s.k - (ddof : α))) < 0 then none else some (sqrt (fl (s.q / fl (s.k - (ddof : α))))))
      (chunks.foldl (fun s c => c.foldl (welfordRMStep fl) s) (⟨0, 0, 0⟩ : StdRState α)) := rfl
  have ev : (varRMH fl sqrt ddof).run n chunks = ((stdRMH fl sqrt ddof).run n chunks).map (fun x => fl (x * x)) := rfl
  rw [ev, er, e1]
  generalize col.foldl (welfordRMStep fl) ⟨0, 0, 0⟩ = s at hinv
  beta_reduce
  obtain ⟨M, hM⟩ : ∃ M, ∀ x ∈ valid col, |x| ≤ M := by
    refine ⟨sumAbs (valid col), fun x hx => ?_⟩
    exact List.single_le_sum (fun y hy => by obtain ⟨z, _, rfl⟩ := List.mem_map.mp hy; exact abs_nonneg z) _ (List.mem_map.mpr ⟨x, hx, rfl⟩)
  have hi := hinv M hM
  have hk : s.k = ((valid col).length : α) := hi.1
  have hk0 : s.k ≠ 0 := by
    rw [hk]
    exact_mod_cast (List.length_pos_of_ne_nil hne).ne'
  have hkd : (ddof : α) < s.k := by rw [hk]; exact_mod_cast hd
  have hpos := fl_pos h hu (sub_pos.mpr hkd)
  have hq : ¬ fl (s.q / fl (s.k - (ddof : α))) < 0 := not_lt.mpr (fl_nonneg h hu (div_nonneg hi.2.1 hpos.le))
  rw [if_neg hk0, if_neg hpos.ne', if_neg hq]
  have key := fun M hM => einv_fin h hu sqrt hs ddof (hinv M hM) hd hex.2
  exact ⟨⟨_, rfl, fun M hM => (key M hM).1⟩, ⟨_, rfl, fun M hM => (key M hM).2⟩⟩

variable [Inhabited α] {limit : Nat}

/-- C82 for every expression of the grammar with room for two values of the axis in a chunk. -/
theorem C82_two_values_arrays (h : Rounding fl u) (hu : u < 1) (npSum : List α → α) (sqrt : α → α) (hs : RootRounding sqrt u) (cast : Nat → α → α) (fwd : Bool) (a : Arr α)
    (x : NDA α) (axis : Nat) (hb : a.Built (roundMode fl npSum sqrt cast) limit fwd false .sliced) (hx : a.Yields (roundMode fl npSum sqrt cast) limit x)
    (hax : axis < x.shape.length) (hne : x.shape.getD axis 0 ≠ 0) (hroom : a.skel.holds limit 2 axis)
    (ddof : Int) (hd : ddof < x.shape.getD axis 0) (hex : CountsExact fl (x.shape.getD axis 0) ddof) :
    (∃ r, (Arr.agg a axis (.std ddof)).Yields (roundMode fl npSum sqrt cast) limit r ∧ (Arr.agg a axis (.std ddof)).EngineReturns (roundMode fl npSum sqrt cast) limit r ∧
      AggregateOf (fun col v => VarError u 3 ddof col (v * v)) x axis r) ∧
    ∃ r, (Arr.agg a axis (.var ddof)).Yields (roundMode fl npSum sqrt cast) limit r ∧ (Arr.agg a axis (.var ddof)).EngineReturns (roundMode fl npSum sqrt cast) limit r ∧
      AggregateOf (VarError u 4 ddof) x axis r := by
  have hcol : ∀ idx, x.column axis idx ≠ [] := fun idx e => hne (by rw [← column_length x axis idx, e]; rfl)
  have key : ∀ idx, VarError u 3 ddof (x.column axis idx) ((stdRH fl sqrt ddof).run (x.column axis idx).length (enginePieces limit (a.skel.right axis) (x.column axis idx)) *
        (stdRH fl sqrt ddof).run (x.column axis idx).length (enginePieces limit (a.skel.right axis) (x.column axis idx))) ∧
      VarError u 4 ddof (x.column axis idx) ((varRH fl sqrt ddof).run (x.column axis idx).length (enginePieces limit (a.skel.right axis) (x.column axis idx))) := by
    intro idx
    obtain ⟨init, last, e, _⟩ := enginePieces_last limit (a.skel.right axis) _ (hcol idx)
    have := C82_std h hu sqrt hs ddof (enginePieces limit (a.skel.right axis) (x.column axis idx)) (by rw [e]; simp) (enginePieces_ne _ _ _ (hcol idx))
    rw [stdValues_whole _ hroom, column_length] at this
    rw [column_length]
    exact this hd hex _
  obtain ⟨r, h1, h2, h3⟩ := aggregation_exact fwd a x axis (.std ddof) hb hx hax (Or.inl hne)
  obtain ⟨r', h1', h2', h3'⟩ := aggregation_exact fwd a x axis (.var ddof) hb hx hax (Or.inl hne)
  refine ⟨⟨r, h1, h2, h3.1, fun idx hi => ?_⟩, ⟨r', h1', h2', h3'.1, fun idx hi => ?_⟩⟩
  · rw [h3.2 idx hi]; exact (key idx).1
  · rw [h3'.2 idx hi]; exact (key idx).2

/-- C82 for every expression of the grammar with masked data, with any chunk limit. -/
theorem C82_masked_arrays (h : Rounding fl u) (hu : u < 1) (npSum : List α → α) (sqrt : α → α) (hs : RootRounding sqrt u) (cast : Nat → α → α)
    (fwd : Bool) (a : Arr α) (x : NDA (Option α))
    (axis : Nat) (hb : a.Built (roundMaMode fl npSum sqrt cast) limit fwd false .sliced) (hx : a.Yields (roundMaMode fl npSum sqrt cast) limit x)
    (hax : axis < x.shape.length) (hne : x.shape.getD axis 0 ≠ 0) (ddof : Int) :
    (∃ r, (Arr.agg a axis (.std ddof)).Yields (roundMaMode fl npSum sqrt cast) limit r ∧ (Arr.agg a axis (.std ddof)).EngineReturns (roundMaMode fl npSum sqrt cast) limit r ∧
      AggregateOf (fun col v => valid col ≠ [] → ddof < (valid col).length → CountsExact fl (valid col).length ddof → ∃ w, v = some w ∧ VarError u 3 ddof (valid col) (w * w)) x axis r) ∧
    ∃ r, (Arr.agg a axis (.var ddof)).Yields (roundMaMode fl npSum sqrt cast) limit r ∧ (Arr.agg a axis (.var ddof)).EngineReturns (roundMaMode fl npSum sqrt cast) limit r ∧
      AggregateOf (fun col v => valid col ≠ [] → ddof < (valid col).length → CountsExact fl (valid col).length ddof → ∃ w, v = some w ∧ VarError u 4 ddof (valid col) w) x axis r := by
  obtain ⟨r, h1, h2, h3⟩ := aggregation_exact fwd a x axis (.std ddof) hb hx hax (Or.inl hne)
  obtain ⟨r', h1', h2', h3'⟩ := aggregation_exact fwd a x axis (.var ddof) hb hx hax (Or.inl hne)
  refine ⟨⟨r, h1, h2, h3.1, fun idx hi k1 k2 k3 => ?_⟩, ⟨r', h1', h2', h3'.1, fun idx hi k1 k2 k3 => ?_⟩⟩
  · rw [h3.2 idx hi]
    exact (C82_masked_std h hu sqrt hs ddof (x.column axis idx) _ (enginePieces_flatten _ _ _) k1 k2 k3 _).1
  · rw [h3'.2 idx hi]
    exact (C82_masked_std h hu sqrt hs ddof (x.column axis idx) _ (enginePieces_flatten _ _ _) k1 k2 k3 _).2

end

/-- The factors of the bounds of C80 and C82: `(1 + u) ^ n - 1` is at most `2 n u` if that is at most 1. -/
theorem pow_small {α : Type} [Field α] [LinearOrder α] [IsStrictOrderedRing α] {u : α} (hu : 0 ≤ u) : ∀ n : Nat, 2 * (n : α) * u ≤ 1 → (1 + u) ^ n ≤ 1 + 2 * (n : α) * u := by
  intro n
  induction n with
  | zero => intro _; simp
  | succ n ih =>
    intro h
    push_cast at h ⊢
    have h1 : 2 * (n : α) * u ≤ 1 := by nlinarith
    have h2 := mul_le_mul_of_nonneg_right (ih h1) (by linarith : (0 : α) ≤ 1 + u)
    rw [pow_succ]
    nlinarith [mul_le_mul_of_nonneg_right h1 hu]

/-- Natural numbers below `2 ^ p` are numbers of the format. -/
theorem binary_nat {K : Type} [Field K] [LinearOrder K] [IsStrictOrderedRing K] [FloorRing K] (p j : Nat) (hj : j < 2 ^ p) : binary p (j : K) = (j : K) := by
  rcases Nat.eq_zero_or_pos j with h0 | h0
  · subst h0; simp [binary]
  have h2 : (2 : K) ≠ 0 := two_ne_zero
  have hlt : Nat.log 2 j < p := Nat.log_lt_of_lt_pow h0.ne' hj
  obtain ⟨d, hd⟩ : ∃ d, p = Nat.log 2 j + 1 + d := ⟨p - (Nat.log 2 j + 1), by omega⟩
  refine binary_fix p ((j : ℤ) * 2 ^ d) (Nat.log 2 j : ℤ) _ ?_ (fun _ => ?_)
  · rw [show (Nat.log 2 j : ℤ) + 1 - (p : ℤ) = -(d : ℤ) by rw [hd]; push_cast; ring, zpow_neg, zpow_natCast]
    push_cast
    rw [mul_assoc, mul_inv_cancel₀ (pow_ne_zero _ h2), mul_one]
  · rw [Nat.abs_cast, Int.log_natCast]

theorem binary_counts (p n : Nat) (hn : n < 2 ^ p) : CountsExact (binary p : ℝ → ℝ) n 0 :=
  ⟨fun j hj => binary_nat p j (lt_of_le_of_lt hj hn), by simpa using binary_nat (K := ℝ) p n hn⟩

/-- The correctly rounded square root. -/
theorem binary_root_rounding (p : Nat) (hp : 1 ≤ p) : RootRounding (fun z : ℝ => binary p (Real.sqrt z)) (1 / 2 ^ p) := by
  intro z hz
  obtain ⟨t, ht, e⟩ := fl_near (binary_rounding (K := ℝ) p hp) (Real.sqrt z)
  have h2 : Near ((1 + 1 / 2 ^ p) ^ 2) (t * t) := (ht.mul ht).mono (by rw [sq])
  show |binary p (Real.sqrt z) * binary p (Real.sqrt z) - z| ≤ _
  have e2 : binary p (Real.sqrt z) * binary p (Real.sqrt z) - z = z * (t * t - 1) := by
    rw [e]
    have := Real.mul_self_sqrt hz
    calc Real.sqrt z * t * (Real.sqrt z * t) - z = (Real.sqrt z * Real.sqrt z) * (t * t) - z := by ring
      _ = z * (t * t - 1) := by rw [this]; ring
  rw [e2, abs_mul, abs_of_nonneg hz, mul_comm]
  exact mul_le_mul_of_nonneg_right h2 hz

/-- For example, the variance over the first axis of any unmasked source of shape `[1000, 2]` of numbers between -1 and 1, in double precision with any chunk limit of
at least 4 elements: the error is below `10 ^ -11`. -/
example (limit : Nat) (hl : 4 ≤ limit) (npSum : List ℝ → ℝ) (c : Concrete ℝ) (hs : c.data.shape = [1000, 2]) (hu : ∀ idx, ∃ v, c.data.get idx = some v ∧ |v| ≤ 1) :
    ∃ r, (Arr.agg (.adapter true c []) 0 (.var 0)).Yields (roundMode (binary 53) npSum (fun z => binary 53 (Real.sqrt z)) (fun _ x => x)) limit r ∧
      AggregateOf (fun col v => |v - var 0 col| ≤ 1 / 10 ^ 11) (c.data.map (fun v => v.getD c.fill)) 0 r := by
  have hB : ∀ fwd cut, (Arr.adapter true c []).Built (roundMode (binary 53) npSum (fun z => binary 53 (Real.sqrt z)) (fun _ x => x)) limit fwd false cut := by
    intro fwd cut
    refine .source _ _ _ _ (fun idx => ?_) (fun h => by cases h)
    obtain ⟨v, hv, _⟩ := hu idx
    rw [hv]; exact fun _ => rfl
  have hy := source_yields _ limit true c hB
  have hsh : (c.data.map (fun v => v.getD c.fill)).shape = [1000, 2] := hs
  obtain ⟨_, r, h1, _, h2⟩ := C82_two_values_arrays (binary_rounding (K := ℝ) 53 (by norm_num)) (by norm_num) npSum
    (fun z => binary 53 (Real.sqrt z)) (binary_root_rounding 53 (by norm_num)) (fun _ x => x) true _ (c.data.map (fun v => v.getD c.fill)) 0 (hB true .sliced) hy
    (by rw [hsh]; decide) (by rw [hsh]; decide)
    (by show 2 * _ ≤ limit; rw [source_right hy]; show 2 * (c.data.shape.drop 1).prod ≤ limit; rw [hs]; exact hl) 0 (by rw [hsh]; decide)
    (by rw [hsh]; exact binary_counts 53 1000 (by norm_num))
  refine ⟨r, h1, h2.1, fun idx hi => (h2.2 idx hi 1 ?_).trans ?_⟩
  · intro x hx
    obtain ⟨j, _, rfl⟩ := List.mem_map.mp hx
    obtain ⟨v, hv, hv1⟩ := hu (idx.insertIdx 0 j)
    show |(c.data.get (idx.insertIdx 0 j)).getD c.fill| ≤ 1
    rw [hv]; exact hv1
  · rw [column_length, hsh]
    have := pow_small (u := (1 : ℝ) / 2 ^ 53) (by positivity) (8 * (1000 - 1) + 4) (by norm_num)
    show 4 * 1 ^ 2 * (((1000 : Nat) : ℝ) - 1) / (((1000 : Nat) : ℝ) - ((0 : ℤ) : ℝ)) * ((1 + 1 / 2 ^ 53) ^ (8 * (1000 - 1) + 4) - 1) ≤ 1 / 10 ^ 11
    generalize (1 + (1 : ℝ) / 2 ^ 53) ^ (8 * (1000 - 1) + 4) = X at this
    norm_num at this ⊢
    linarith

end Biggus

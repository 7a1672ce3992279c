import Verif.Model.Floats
import Verif.Props.Handlers
/-
Infinities and NaN in the aggregation handlers.
-/
namespace Biggus

open Spec

variable {α : Type} [Field α] [LinearOrder α]

namespace Fl

/-! ### Arithmetic -/

omit [LinearOrder α] in
theorem num_sub (x y : α) : (num x : Fl α) - num y = num (x - y) := by
  show num (x + -y) = num (x - y)
  rw [sub_eq_add_neg]

theorem num_mul (x y : α) : (num x : Fl α) * num y = num (x * y) := rfl

omit [LinearOrder α] in
theorem nan_add (x : Fl α) : nan + x = nan := by cases x <;> rfl

omit [LinearOrder α] in
theorem add_nan (x : Fl α) : x + nan = nan := by cases x <;> rfl

omit [LinearOrder α] in
theorem nan_sub (x : Fl α) : nan - x = nan := by cases x <;> rfl

omit [LinearOrder α] in
theorem sub_nan (x : Fl α) : x - nan = nan := by cases x <;> rfl

theorem nan_mul (x : Fl α) : nan * x = nan := by cases x <;> rfl

omit [LinearOrder α] in
theorem finite_add (x y : Fl α) : (x + y).finite = (x.finite && y.finite) := by
  rcases x with x | (_ | _) | _ <;> rcases y with y | (_ | _) | _ <;> rfl

omit [LinearOrder α] in
theorem finite_sub (x y : Fl α) : (x - y).finite = (x.finite && y.finite) := by
  rcases x with x | (_ | _) | _ <;> rcases y with y | (_ | _) | _ <;> rfl

theorem finite_divNum (x : Fl α) {c : α} (hc : c ≠ 0) : (x.divNum c).finite = x.finite := by
  rcases x with x | s | _ <;> simp [divNum, hc, finite]

theorem finite_sq (x : Fl α) : (x * x).finite = x.finite := by
  rcases x with x | s | _ <;> rfl

theorem finite_mul_num (x : Fl α) {c : α} (hc : c ≠ 0) : (x * num c).finite = x.finite := by
  rcases x with x | s | _
  · rfl
  · show (mul (inf s) (num c)).finite = _
    simp [mul, hc, finite]
  · rfl

theorem finite_sqrt (f : α → α) (x : Fl α) (h : (x.sqrt f).finite = true) : x.finite = true := by
  rcases x with x | (_ | _) | _ <;> simp_all [sqrt, finite]

theorem divNum_inf_pos (t : Bool) {c : α} (h : 0 < c) : (inf t : Fl α).divNum c = inf t := by
  show inf (t != decide (c < 0)) = inf t
  rw [decide_eq_false (not_lt.mpr h.le)]
  cases t <;> rfl

theorem inf_mul_pos {c : α} (h : 0 < c) : (inf false : Fl α) * num c = inf false := by
  show (if c = 0 then nan else inf (false != decide (c < 0))) = _
  rw [if_neg h.ne', decide_eq_false (not_lt.mpr h.le)]
  rfl

omit [Field α] [LinearOrder α] in
theorem finite_iff (x : Fl α) : x.finite = true ↔ ∃ y, x = num y := by
  cases x <;> simp [finite]

omit [Field α] [LinearOrder α] in
theorem not_finite_iff (x : Fl α) : x.finite = false ↔ x = nan ∨ ∃ s, x = inf s := by
  cases x <;> simp [finite]

end Fl

open Fl

/-! ### Sums -/

omit [LinearOrder α] in
theorem finites_num (x : α) (l : List (Fl α)) : finites (.num x :: l) = x :: finites l := by simp [finites]

omit [Field α] [LinearOrder α] in
theorem finites_other [Field α] {x : Fl α} (hx : x.finite = false) (l : List (Fl α)) : finites (x :: l) = finites l := by
  cases x <;> simp_all [finites, finite]

theorem sum_flSum (col : List (Fl α)) : col.sum = flSum col := by
  induction col with
  | nil => simp [flSum, finites, zero_def]
  | cons x l ih =>
    rw [List.sum_cons, ih]
    by_cases h1 : Fl.nan ∈ l
    · have e : flSum l = .nan := by simp [flSum, h1]
      rw [e, add_nan]
      simp [flSum, h1]
    · by_cases h2 : Fl.inf true ∈ l <;> by_cases h3 : Fl.inf false ∈ l <;>
      · simp only [flSum, h1, h2, h3, List.mem_cons, or_true, or_false, false_or, and_self, and_true, and_false, if_true, if_false]
        rcases x with x | (_ | _) | _ <;> simp [finites, nan_add, add_nan] <;> rfl

theorem flSum_num (l : List α) : flSum (l.map .num) = .num l.sum := by
  rw [← sum_flSum]
  induction l with
  | nil => rfl
  | cons x l ih => rw [List.map_cons, List.sum_cons, ih, List.sum_cons]; rfl

theorem finite_flSum (col : List (Fl α)) : (flSum col).finite = col.all Fl.finite := by
  rw [← sum_flSum]
  induction col with
  | nil => rfl
  | cons x l ih => rw [List.sum_cons, finite_add, ih]; rfl

/-! ### Minimum and maximum -/

theorem Fl.min_nan (x : Fl α) : min x .nan = .nan := by rcases x with x | (_ | _) | _ <;> rfl
theorem Fl.nan_min (x : Fl α) : min .nan x = .nan := by rcases x with x | (_ | _) | _ <;> rfl
theorem Fl.max_nan (x : Fl α) : max x .nan = .nan := by rcases x with x | (_ | _) | _ <;> rfl
theorem Fl.nan_max (x : Fl α) : max .nan x = .nan := by rcases x with x | (_ | _) | _ <;> rfl

theorem Fl.le_refl' {x : Fl α} (h : x ≠ .nan) : x.le x := by
  rcases x with x | (_ | _) | _ <;> simp_all [Fl.le]

theorem Fl.le_trans' {x y z : Fl α} (h : x.le y) (h' : y.le z) : x.le z := by
  rcases x with x | (_ | _) | _ <;> rcases y with y | (_ | _) | _ <;> rcases z with z | (_ | _) | _ <;> simp_all [Fl.le]
  exact le_trans h h'

theorem Fl.min_cases {x y : Fl α} (hx : x ≠ .nan) (hy : y ≠ .nan) : (min x y = x ∧ x.le y) ∨ (min x y = y ∧ y.le x) := by
  rcases x with x | (_ | _) | _ <;> rcases y with y | (_ | _) | _ <;> try simp_all [Fl.le, min]
  rcases le_total x y with h | h
  · exact Or.inl ⟨inf_eq_left.mpr h, h⟩
  · exact Or.inr ⟨inf_eq_right.mpr h, h⟩

theorem Fl.max_cases {x y : Fl α} (hx : x ≠ .nan) (hy : y ≠ .nan) : (max x y = x ∧ y.le x) ∨ (max x y = y ∧ x.le y) := by
  rcases x with x | (_ | _) | _ <;> rcases y with y | (_ | _) | _ <;> try simp_all [Fl.le, max]
  rcases le_total x y with h | h
  · exact Or.inr ⟨sup_eq_right.mpr h, h⟩
  · exact Or.inl ⟨sup_eq_left.mpr h, h⟩

theorem foldl_min_fl (xs : List (Fl α)) : ∀ x, IsFlMin (x :: xs) (xs.foldl min x) := by
  induction xs with
  | nil =>
    intro x
    exact ⟨fun h => (List.mem_singleton.mp h).symm, fun h => ⟨List.mem_cons_self, fun y hy => by
      rw [List.mem_singleton.mp hy]; exact Fl.le_refl' (x := x) (fun e => h (by simp [e]))⟩⟩
  | cons y xs ih =>
    intro x
    obtain ⟨i1, i2⟩ := ih (min x y)
    rw [List.foldl_cons]
    refine ⟨fun h => ?_, fun h => ?_⟩
    · apply i1
      rcases List.mem_cons.mp h with h | h
      · subst h; rw [Fl.nan_min]; exact List.mem_cons_self
      · rcases List.mem_cons.mp h with h | h
        · subst h; rw [Fl.min_nan]; exact List.mem_cons_self
        · exact List.mem_cons_of_mem _ h
    · have hx : x ≠ .nan := fun e => h (by simp [e])
      have hy : y ≠ .nan := fun e => h (by simp [e])
      have hxs : Fl.nan ∉ xs := fun e => h (by simp [e])
      have hm := Fl.min_cases hx hy
      have hne : Fl.nan ∉ min x y :: xs := by
        rintro hh
        rcases List.mem_cons.mp hh with hh | hh
        · rcases hm with ⟨e, _⟩ | ⟨e, _⟩ <;> rw [e] at hh
          · exact hx hh.symm
          · exact hy hh.symm
        · exact hxs hh
      obtain ⟨j1, j2⟩ := i2 hne
      have hle : (xs.foldl min (min x y)).le x ∧ (xs.foldl min (min x y)).le y := by
        have h0 := j2 _ List.mem_cons_self
        rcases hm with ⟨e, hl⟩ | ⟨e, hl⟩ <;> rw [e] at h0 ⊢
        · exact ⟨h0, Fl.le_trans' h0 hl⟩
        · exact ⟨Fl.le_trans' h0 hl, h0⟩
      refine ⟨?_, fun z hz => ?_⟩
      · rcases List.mem_cons.mp j1 with e | hmem
        · rw [e]
          rcases hm with ⟨e, _⟩ | ⟨e, _⟩ <;> rw [e] <;> simp
        · simp [hmem]
      · rcases List.mem_cons.mp hz with rfl | hz
        · exact hle.1
        · rcases List.mem_cons.mp hz with rfl | hz
          · exact hle.2
          · exact j2 z (List.mem_cons_of_mem _ hz)

theorem foldl_max_fl (xs : List (Fl α)) : ∀ x, IsFlMax (x :: xs) (xs.foldl max x) := by
  induction xs with
  | nil =>
    intro x
    exact ⟨fun h => (List.mem_singleton.mp h).symm, fun h => ⟨List.mem_cons_self, fun y hy => by
      rw [List.mem_singleton.mp hy]; exact Fl.le_refl' (x := x) (fun e => h (by simp [e]))⟩⟩
  | cons y xs ih =>
    intro x
    obtain ⟨i1, i2⟩ := ih (max x y)
    rw [List.foldl_cons]
    refine ⟨fun h => ?_, fun h => ?_⟩
    · apply i1
      rcases List.mem_cons.mp h with h | h
      · subst h; rw [Fl.nan_max]; exact List.mem_cons_self
      · rcases List.mem_cons.mp h with h | h
        · subst h; rw [Fl.max_nan]; exact List.mem_cons_self
        · exact List.mem_cons_of_mem _ h
    · have hx : x ≠ .nan := fun e => h (by simp [e])
      have hy : y ≠ .nan := fun e => h (by simp [e])
      have hxs : Fl.nan ∉ xs := fun e => h (by simp [e])
      have hm := Fl.max_cases hx hy
      have hne : Fl.nan ∉ max x y :: xs := by
        rintro hh
        rcases List.mem_cons.mp hh with hh | hh
        · rcases hm with ⟨e, _⟩ | ⟨e, _⟩ <;> rw [e] at hh
          · exact hx hh.symm
          · exact hy hh.symm
        · exact hxs hh
      obtain ⟨j1, j2⟩ := i2 hne
      have hle : x.le (xs.foldl max (max x y)) ∧ y.le (xs.foldl max (max x y)) := by
        have h0 := j2 _ List.mem_cons_self
        rcases hm with ⟨e, hl⟩ | ⟨e, hl⟩ <;> rw [e] at h0 ⊢
        · exact ⟨h0, Fl.le_trans' hl h0⟩
        · exact ⟨Fl.le_trans' hl h0, h0⟩
      refine ⟨?_, fun z hz => ?_⟩
      · rcases List.mem_cons.mp j1 with e | hmem
        · rw [e]
          rcases hm with ⟨e, _⟩ | ⟨e, _⟩ <;> rw [e] <;> simp
        · simp [hmem]
      · rcases List.mem_cons.mp hz with rfl | hz
        · exact hle.1
        · rcases List.mem_cons.mp hz with rfl | hz
          · exact hle.2
          · exact j2 z (List.mem_cons_of_mem _ hz)

/-! ### Standard deviation: the fold -/

theorem stdF_rest (L : List (List (Fl α))) : ∀ s : StdState (Fl α), s.k ≠ 0 → s.k ≠ 1 → L.foldl stdFStep s = L.flatten.foldl welfordFStep s := by
  have hk : ∀ (l : List (Fl α)) (s : StdState (Fl α)), (l.foldl welfordFStep s).k = s.k + l.length := by
    intro l
    induction l with
    | nil => intro s; rfl
    | cons x l ih => intro s; rw [List.foldl_cons, ih]; simp only [welfordFStep, List.length_cons]; omega
  induction L with
  | nil => intro s _ _; rfl
  | cons c L ih =>
    intro s h0 h1
    have hc : stdFStep s c = c.foldl welfordFStep s := by simp [stdFStep, h1]
    rw [List.foldl_cons, hc, List.flatten_cons, List.foldl_append]
    have := hk c s
    exact ih _ (by omega) (by omega)

theorem welfordF_k (l : List (Fl α)) : ∀ s : StdState (Fl α), (l.foldl welfordFStep s).k = s.k + l.length := by
  induction l with
  | nil => intro s; rfl
  | cons x l ih => intro s; rw [List.foldl_cons, ih]; simp only [welfordFStep, List.length_cons]; omega

/-- With at least two values in the first chunk, or a single chunk, all values but the first are folded in one by one. -/
theorem stdF_cut {col first : List (Fl α)} {rest : List (List (Fl α))} (hcut : CutOf col (first :: rest))
    (hfirst : 2 ≤ first.length ∨ (rest = [] ∧ first ≠ [])) :
    ∃ x xs, col = x :: xs ∧ (first :: rest).foldl stdFStep (⟨1, 0, 0⟩ : StdState (Fl α)) = xs.foldl welfordFStep ⟨1, x, 0⟩ := by
  cases first with
  | nil => simp at hfirst
  | cons x xs =>
    have h1 : stdFStep (⟨1, 0, 0⟩ : StdState (Fl α)) (x :: xs) = xs.foldl welfordFStep ⟨1, x, 0⟩ := by simp [stdFStep]
    refine ⟨x, xs ++ rest.flatten, by rw [← hcut]; simp, ?_⟩
    rw [List.foldl_cons, h1, List.foldl_append]
    rcases hfirst with h | ⟨h, _⟩
    · have := welfordF_k xs (⟨1, x, 0⟩ : StdState (Fl α))
      simp only [List.length_cons] at h
      simp only at this
      exact stdF_rest rest _ (by omega) (by omega)
    · subst h; rfl

/-! ### Finite values -/

/-- The state of the float handler that holds the numbers of a state of the exact handler. -/
def liftState (s : StdState α) : StdState (Fl α) := ⟨s.k, .num s.a, .num s.q⟩

theorem welfordF_lift [IsStrictOrderedRing α] (s : StdState α) (x : α) : welfordFStep (liftState s) (.num x) = liftState (welfordStep s x) := by
  have hk : ((s.k + 1 : Nat) : α) ≠ 0 := Nat.cast_ne_zero.mpr (by omega)
  simp only [welfordFStep, liftState, welfordStep, num_sub, divNum, if_neg hk, num_add, num_mul]

theorem stdF_lift [IsStrictOrderedRing α] (s : StdState α) (c : List α) : stdFStep (liftState s) (c.map .num) = liftState (stdStep s c) := by
  have hf : ∀ (c : List α) (s : StdState α), (c.map Fl.num).foldl welfordFStep (liftState s) = liftState (c.foldl welfordStep s) := by
    intro c
    induction c with
    | nil => intro s; rfl
    | cons x c ih => intro s; rw [List.map_cons, List.foldl_cons, welfordF_lift, ih, List.foldl_cons]
  unfold stdFStep stdStep
  have : (liftState s).k = s.k := rfl
  rw [this]
  split
  · cases c with
    | nil => rfl
    | cons x c => exact hf c { s with a := x }
  · exact hf c s

theorem stdF_lift_run [IsStrictOrderedRing α] (chunks : List (List α)) : ∀ s : StdState α,
    (chunks.map (·.map Fl.num)).foldl stdFStep (liftState s) = liftState (chunks.foldl stdStep s) := by
  induction chunks with
  | nil => intro s; rfl
  | cons c chunks ih => intro s; rw [List.map_cons, List.foldl_cons, stdF_lift, ih, List.foldl_cons]

/-! ### Infinities and NaN -/

theorem wF_const [IsStrictOrderedRing α] {k : Nat} (hk : k ≠ 0) : ((k + 1 : Nat) : α) ≠ 0 ∧ (0 : α) < ((k + 1 : Nat) : α) ∧ (0 : α) < ((k + 1 : Nat) : α) * (((k + 1 : Nat) : α) - 1) := by
  have h1 : (0 : α) < (k : α) := Nat.cast_pos.mpr (by omega)
  have h2 : (0 : α) < ((k + 1 : Nat) : α) := Nat.cast_pos.mpr (by omega)
  refine ⟨h2.ne', h2, mul_pos h2 ?_⟩
  push_cast
  rw [add_sub_cancel_right]
  exact h1

theorem welfordF_finite [IsStrictOrderedRing α] (s : StdState (Fl α)) (hk : s.k ≠ 0) (x : Fl α) :
    (welfordFStep s x).a.finite = (s.a.finite && x.finite) ∧ (welfordFStep s x).q.finite = (s.q.finite && (s.a.finite && x.finite)) := by
  obtain ⟨c1, _, c3⟩ := wF_const (α := α) hk
  simp only [welfordFStep, finite_add, finite_mul_num _ c3.ne', finite_sq, finite_divNum _ c1, finite_sub]
  constructor
  · cases s.a.finite <;> simp
  · cases s.a.finite <;> cases x.finite <;> simp

theorem welfordF_fold_finite [IsStrictOrderedRing α] (xs : List (Fl α)) : ∀ s : StdState (Fl α), s.k ≠ 0 →
    (xs.foldl welfordFStep s).q.finite = (s.q.finite && (xs.all Fl.finite && (xs.isEmpty || s.a.finite))) := by
  induction xs with
  | nil => intro s _; simp
  | cons x xs ih =>
    intro s hk
    obtain ⟨h1, h2⟩ := welfordF_finite s hk x
    rw [List.foldl_cons, ih _ (by simp [welfordFStep]), h1, h2]
    rw [List.all_cons]
    generalize x.finite = X, s.q.finite = Q, s.a.finite = A
    cases xs <;> cases Q <;> cases A <;> cases X <;> simp

theorem welfordF_nan (s : StdState (Fl α)) (x : Fl α) (h : s.a = .nan ∨ x = .nan) : (welfordFStep s x).a = .nan ∧ (welfordFStep s x).q = .nan := by
  have : x - s.a = .nan := by
    rcases h with h | h <;> rw [h]
    · exact sub_nan x
    · exact nan_sub _
  simp only [welfordFStep, this, divNum, nan_mul, add_nan, and_self]

theorem welfordF_q_nan (xs : List (Fl α)) : ∀ s : StdState (Fl α), s.q = .nan → (xs.foldl welfordFStep s).q = .nan := by
  induction xs with
  | nil => intro s h; exact h
  | cons x xs ih =>
    intro s h
    rw [List.foldl_cons]
    refine ih _ ?_
    simp only [welfordFStep, h, nan_add]

theorem welfordF_fold_nan (xs : List (Fl α)) : ∀ s : StdState (Fl α), (s.a = .nan ∧ xs ≠ []) ∨ Fl.nan ∈ xs → (xs.foldl welfordFStep s).q = .nan := by
  induction xs with
  | nil => intro s h; simp at h
  | cons x xs ih =>
    intro s h
    rw [List.foldl_cons]
    by_cases hx : s.a = .nan ∨ x = .nan
    · exact welfordF_q_nan xs _ (welfordF_nan s x hx).2
    · refine ih _ (Or.inr ?_)
      rcases h with ⟨h, _⟩ | h
      · exact (hx (Or.inl h)).elim
      · rcases List.mem_cons.mp h with h | h
        · exact (hx (Or.inr h.symm)).elim
        · exact h

/-- After an infinity `s` (the running mean is `inf s`). -/
theorem welfordF_after_inf [IsStrictOrderedRing α] (s : Bool) (xs : List (Fl α)) (st : StdState (Fl α)) (hk : st.k ≠ 0) (ha : st.a = .inf s)
    (hq : (∃ q, st.q = .num q) ∨ st.q = .inf false) (hne : xs ≠ []) (hn : Fl.nan ∉ xs) :
    (xs.foldl welfordFStep st).q = if xs.length = 1 ∧ xs ≠ [.inf s] then .inf false else .nan := by
  obtain ⟨c1, c2, c3⟩ := wF_const (α := α) hk
  cases xs with
  | nil => exact (hne rfl).elim
  | cons y xs =>
    rw [List.foldl_cons]
    by_cases hy : y = .inf s
    · have hq' : (welfordFStep st y).q = .nan := by
        have : (Fl.inf s : Fl α) - .inf s = .nan := by cases s <;> rfl
        simp only [welfordFStep, ha, hy, this, divNum, nan_mul, add_nan]
      rw [welfordF_q_nan xs _ hq', if_neg]
      rintro ⟨h1, h2⟩
      cases xs with
      | nil => exact h2 (by rw [hy])
      | cons => simp at h1
    · have ht : y - .inf s = .inf (!s) := by
        rcases y with y | t | _
        · rfl
        · cases s <;> cases t <;> first | rfl | exact (hy rfl).elim
        · exact (hn (by simp)).elim
      have hd : (Fl.inf (!s) : Fl α).divNum ((st.k + 1 : Nat) : α) = .inf (!s) := by
        exact divNum_inf_pos _ c2
      have hm : ((Fl.inf (!s) : Fl α) * .inf (!s)) * .num (((st.k + 1 : Nat) : α) * (((st.k + 1 : Nat) : α) - 1)) = .inf false := by
        have e : ((Fl.inf (!s) : Fl α) * .inf (!s)) = .inf false := by cases s <;> rfl
        rw [e]
        exact inf_mul_pos c3
      have hq' : (welfordFStep st y).q = .inf false := by
        simp only [welfordFStep, ha, ht, hd, hm]
        rcases hq with ⟨q, hq⟩ | hq <;> rw [hq] <;> rfl
      have ha' : (welfordFStep st y).a = .nan := by
        simp only [welfordFStep, ha, ht, hd]
        cases s <;> rfl
      cases xs with
      | nil =>
        rw [List.foldl_nil, hq', if_pos ⟨rfl, fun e => hy (by simpa using e)⟩]
      | cons z zs =>
        rw [welfordF_fold_nan _ _ (Or.inl ⟨ha', by simp⟩), if_neg (by simp)]

/-- The step that meets the first infinity. -/
theorem welfordF_meets_inf [IsStrictOrderedRing α] (s : StdState α) (hk : s.k ≠ 0) (t : Bool) :
    (welfordFStep (liftState s) (.inf t)).a = .inf t ∧ (welfordFStep (liftState s) (.inf t)).q = .inf false := by
  obtain ⟨c1, c2, c3⟩ := wF_const (α := α) hk
  have ht : (Fl.inf t : Fl α) - .num s.a = .inf t := rfl
  have hd : (Fl.inf t : Fl α).divNum ((s.k + 1 : Nat) : α) = .inf t := by
    exact divNum_inf_pos _ c2
  have hm : ((Fl.inf t : Fl α) * .inf t) * .num (((s.k + 1 : Nat) : α) * (((s.k + 1 : Nat) : α) - 1)) = .inf false := by
    have e : ((Fl.inf t : Fl α) * .inf t) = .inf false := by cases t <;> rfl
    rw [e]
    exact inf_mul_pos c3
  simp only [welfordFStep, liftState, ht, hd, hm]
  exact ⟨rfl, rfl⟩

/-! ### NumPy's two passes -/

theorem flMean_num [IsStrictOrderedRing α] (l : List α) (hl : l ≠ []) : flMean (l.map Fl.num) = .num (mean l) := by
  have hk : ((l.length : Nat) : α) ≠ 0 := Nat.cast_ne_zero.mpr (by simpa using hl)
  simp only [flMean, flSum_num, List.length_map, divNum, if_neg hk, mean]

theorem flVar_num [IsStrictOrderedRing α] (ddof : Int) (l : List α) (hl : l ≠ []) :
    flVar ddof (l.map Fl.num) = (Fl.num (ssd l)).divNum ((l.length : α) - (ddof : α)) := by
  unfold flVar
  rw [flMean_num l hl, List.length_map]
  congr 1
  rw [List.map_map]
  have : ((fun x => (x - Fl.num (mean l)) * (x - .num (mean l))) ∘ Fl.num) = Fl.num ∘ (fun x : α => (x - mean l) * (x - mean l)) := by
    funext x
    simp only [Function.comp, num_sub, num_mul]
  rw [this, ← List.map_map, flSum_num]
  rfl

theorem flVar_nonfinite [IsStrictOrderedRing α] (ddof : Int) (col : List (Fl α)) (h : ∃ x ∈ col, x.finite = false) : flVar ddof col = .nan := by
  obtain ⟨x0, hx0, hf⟩ := h
  have hk : ((col.length : Nat) : α) ≠ 0 := Nat.cast_ne_zero.mpr (by have := List.length_pos_of_mem hx0; omega)
  have hkp : (0 : α) < ((col.length : Nat) : α) := Nat.cast_pos.mpr (List.length_pos_of_mem hx0)
  have hmf : (flMean col).finite = false := by
    rw [flMean, finite_divNum _ hk, finite_flSum]
    exact Bool.eq_false_iff.mpr (fun h => by rw [List.all_eq_true.mp h x0 hx0] at hf; cases hf)
  have key : ∃ x ∈ col, (x - flMean col) = .nan := by
    rcases (not_finite_iff _).mp hmf with e | ⟨s, e⟩
    · exact ⟨x0, hx0, by rw [e, sub_nan]⟩
    · refine ⟨.inf s, ?_, by rw [e]; cases s <;> rfl⟩
      unfold flMean flSum at e
      by_contra hni
      split at e
      · cases e
      · split at e
        · rename_i h
          cases s
          · simp [divNum, not_lt.mpr hkp.le] at e
          · exact hni h
        · split at e
          · rename_i h
            cases s
            · exact hni h
            · simp [divNum, not_lt.mpr hkp.le] at e
          · simp [divNum, hk] at e
  obtain ⟨x, hx, hxn⟩ := key
  unfold flVar
  have : flSum (col.map (fun x => (x - flMean col) * (x - flMean col))) = .nan := by
    unfold flSum
    rw [if_pos (Or.inl (List.mem_map.mpr ⟨x, hx, by simp only [hxn, nan_mul]⟩))]
  rw [this]
  rfl

end Biggus

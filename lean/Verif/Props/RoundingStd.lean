import Verif.Proofs.RoundingStd
import Verif.Props.Rounding
/-
C81: standard deviations and variances with rounding errors.
-/
namespace Biggus
open Spec

section
variable {α : Type} [Field α] [LinearOrder α] [IsStrictOrderedRing α] {fl : α → α} {u : α}

theorem RInv.allEqual {k a q : α} {l : List α} (h : RInv k a q l) : 0 ≤ q ∧ (q = 0 ↔ AllEqual l) := by
  obtain ⟨_, hq, x, xs, rfl, h1, h2⟩ := h
  refine ⟨hq, ⟨fun e => ?_, fun e => (h1 (fun y hy => e y (by simp [hy]) x (by simp))).2⟩⟩
  have hxs : ∀ y ∈ xs, y = x := by
    by_contra hc
    push Not at hc
    exact (h2 hc).ne' e
  have hall : ∀ y ∈ x :: xs, y = x := by
    intro y hy
    rcases List.mem_cons.mp hy with rfl | hy
    · rfl
    · exact hxs y hy
  exact fun y hy z hz => (hall y hy).trans (hall z hz).symm

/-- `sqrt (fl (q / d))` and its rounded square. -/
theorem spread_of (h : Rounding fl u) (hu : u < 1) (sqrt : α → α) (hs : RootLike sqrt) {k a q : α} {l : List α} (hi : RInv k a q l) {d : α} (hd : 0 < d) :
    Spread l (sqrt (fl (q / d))) ∧ Spread l (fl (sqrt (fl (q / d)) * sqrt (fl (q / d)))) := by
  obtain ⟨hq, hz⟩ := hi.allEqual
  have h0 : 0 ≤ fl (q / d) := fl_nonneg h hu (div_nonneg hq hd.le)
  have e0 : fl (q / d) = 0 ↔ AllEqual l := by
    rw [← hz]
    constructor
    · intro e
      by_contra hne
      exact fl_ne_zero h hu (div_ne_zero hne hd.ne') e
    · intro e; rw [e, zero_div, h.zero]
  obtain ⟨r0, rz⟩ := hs _ h0
  refine ⟨⟨r0, rz.trans e0⟩, fl_nonneg h hu (mul_self_nonneg _), ?_⟩
  rw [← e0, ← rz]
  constructor
  · intro e
    by_contra hne
    exact fl_ne_zero h hu (mul_self_ne_zero.mpr hne) e
  · intro e; rw [e, mul_zero, h.zero]

/-- C81: `std` and `var` with rounding after every operation are not negative, and 0 exactly if all values that are not forgotten (`stdValues`, see C23) are the same. -/
theorem C81_std (h : Rounding fl u) (hu : u < 1) (sqrt : α → α) (hs : RootLike sqrt) (ddof : Int) (chunks : List (List α)) (hc : chunks ≠ []) (hne : ∀ c ∈ chunks, c ≠ [])
    (hf : Floats fl chunks.flatten) (hd : ddof < (stdValues chunks).length) (n : Nat) :
    Spread (stdValues chunks) ((stdRH fl sqrt ddof).run n chunks) ∧ Spread (stdValues chunks) ((varRH fl sqrt ddof).run n chunks) := by
  obtain ⟨hi, hk⟩ := rinv_kept h hu chunks hc hne hf ⟨1, 0, 0⟩ rfl rfl
  have hpos : 0 < fl (((chunks.foldl (stdRStep fl) ⟨1, 0, 0⟩).k : α) - (ddof : α)) := by
    refine fl_pos h hu (sub_pos.mpr ?_)
    rw [hk]
    exact_mod_cast hd
  exact spread_of h hu sqrt hs hi hpos

/-- The state of the masked algorithm after some values: the counts stay at least 2, and are exact if the numbers of values are numbers of the format. -/
def RMInv (fl : α → α) (s : StdRState α) (l : List α) : Prop :=
  (l = [] → s.k = 0 ∧ s.q = 0) ∧ (l ≠ [] → RInv s.k s.a s.q l) ∧ (l.length = 1 → s.k = 1) ∧ (2 ≤ l.length → 2 ≤ s.k) ∧
    ((∀ j : Nat, j ≤ l.length → fl (j : α) = (j : α)) → s.k = (l.length : α))

theorem rminv_step (h : Rounding fl u) (hu : u ≤ 1 / 3) (h1 : fl 1 = 1) (h2 : fl 2 = 2) {s : StdRState α} {l : List α} (hi : RMInv fl s l) (v : Option α)
    (hf : Floats fl (l ++ valid [v])) : RMInv fl (welfordRMStep fl s v) (l ++ valid [v]) := by
  have hu1 : u < 1 := by linarith
  obtain ⟨i1, i2, i3, i4, i5⟩ := hi
  cases v with
  | none =>
    have e : l ++ valid [(none : Option α)] = l := by simp [valid]
    rw [e]
    refine ⟨i1, fun hl => ?_, i3, i4, i5⟩
    have hk := (i2 hl).1.ne'
    show RInv s.k (if s.k ≠ 0 then s.a else _) s.q l
    rw [if_pos hk]
    exact i2 hl
  | some x =>
    have e : l ++ valid [some x] = l ++ [x] := by simp [valid]
    rw [e] at hf ⊢
    have ex : (∀ j : Nat, j ≤ (l ++ [x]).length → fl (j : α) = (j : α)) → fl (s.k + 1) = ((l ++ [x]).length : α) := by
      intro hj
      rw [i5 (fun j hjl => hj j (by rw [List.length_append]; omega))]
      have := hj (l.length + 1) (by simp)
      simp only [List.length_append, List.length_cons, List.length_nil, Nat.zero_add]
      rw [← this]; push_cast; rfl
    by_cases hl : l = []
    · obtain ⟨hk, hq⟩ := i1 hl
      subst hl
      have hst : welfordRMStep fl s (some x) = { s with k := fl (s.k + 1), a := x } := by
        unfold welfordRMStep
        simp [hk]
      rw [hst]
      refine ⟨by simp, fun _ => ?_, fun _ => ?_, by simp, ex⟩
      · show RInv (fl (s.k + 1)) x s.q _
        rw [hk, zero_add, h1, hq]
        exact ⟨one_pos, le_rfl, x, [], rfl, fun _ => ⟨rfl, rfl⟩, fun ⟨y, hy, _⟩ => by cases hy⟩
      · show fl (s.k + 1) = 1
        rw [hk, zero_add, h1]
    · have hk := (i2 hl).1
      have hst : welfordRMStep fl s (some x) = ⟨fl (s.k + 1), fl (s.a + fl (fl (x - s.a) / fl (s.k + 1))),
          fl (s.q + fl (fl (fl (fl (x - s.a) / fl (s.k + 1)) * fl (fl (x - s.a) / fl (s.k + 1))) * fl (fl (s.k + 1) * fl (fl (s.k + 1) - 1))))⟩ := by
        unfold welfordRMStep
        simp [hk.ne']
      have hlen : 1 ≤ l.length := List.length_pos_of_ne_nil hl
      have hk2 : 2 ≤ fl (s.k + 1) := by
        by_cases h1l : l.length = 1
        · rw [i3 h1l, one_add_one_eq_two, h2]
        · have hk2 := i4 (by omega)
          have := (abs_le.mp (h.error (s.k + 1))).1
          rw [abs_of_pos (by linarith)] at this
          nlinarith
      rw [hst]
      refine ⟨by simp, fun _ => ?_, ?_, fun _ => hk2, ex⟩
      · exact rinv_step h hu1 (i2 hl) (fun y hy => hf y (by simp [hy])) x _ _ _ (by linarith) (by linarith)
          (fl_pos h hu1 (mul_pos (by linarith) (fl_pos h hu1 (by linarith))))
      · intro hc
        rw [List.length_append] at hc
        simp at hc
        exact absurd hc hl

theorem rminv_fold (h : Rounding fl u) (hu : u ≤ 1 / 3) (h1 : fl 1 = 1) (h2 : fl 2 = 2) (col : List (Option α)) : ∀ (s : StdRState α) (l : List α), RMInv fl s l →
    Floats fl (l ++ valid col) → RMInv fl (col.foldl (welfordRMStep fl) s) (l ++ valid col) := by
  induction col with
  | nil => intro s l hi _; simpa [valid] using hi
  | cons v col ih =>
    intro s l hi hf
    have e : l ++ valid (v :: col) = (l ++ valid [v]) ++ valid col := by
      rw [List.append_assoc]
      congr 1
      unfold valid
      rw [← List.filterMap_append]; rfl
    rw [e] at hf ⊢
    rw [List.foldl_cons]
    exact ih _ _ (rminv_step h hu h1 h2 hi v (fun y hy => hf y (List.mem_append_left _ hy))) hf

/-- C81, masked: `std` and `var` are masked exactly if all values are; else they are not negative, and 0 exactly if all unmasked values are the same, however the column is
cut into chunks. For a `ddof` above 1 the counts must be numbers of the format. -/
theorem C81_masked_std (h : Rounding fl u) (hu : u ≤ 1 / 3) (h1 : fl 1 = 1) (h2 : fl 2 = 2) (sqrt : α → α) (hs : RootLike sqrt) (ddof : Int) (col : List (Option α))
    (chunks : List (List (Option α))) (hcut : CutOf col chunks) (hf : Floats fl (valid col)) (hd : valid col ≠ [] → ddof < (valid col).length)
    (hex : ddof ≤ 1 ∨ ∀ j : Nat, j ≤ (valid col).length → fl (j : α) = (j : α)) (n : Nat) :
    MaskedSpread col ((stdRMH fl sqrt ddof).run n chunks) ∧ MaskedSpread col ((varRMH fl sqrt ddof).run n chunks) := by
  have hu1 : u < 1 := by linarith
  have hfold : ∀ (L : List (List (Option α))) (s : StdRState α), L.foldl (fun s c => c.foldl (welfordRMStep fl) s) s = L.flatten.foldl (welfordRMStep fl) s := by
    intro L
    induction L with
    | nil => intro s; rfl
    | cons c L ih => intro s; rw [List.foldl_cons, ih, List.flatten_cons, List.foldl_append]
  have hinv : RMInv fl (col.foldl (welfordRMStep fl) ⟨0, 0, 0⟩) (valid col) := by
    have := rminv_fold h hu h1 h2 col ⟨0, 0, 0⟩ [] ⟨fun _ => ⟨rfl, rfl⟩, fun hn => absurd rfl hn, by simp, by simp, fun _ => by simp⟩ (by simpa using hf)
    simpa using this
  have e1 : chunks.foldl (fun s c => c.foldl (welfordRMStep fl) s) ⟨0, 0, 0⟩ = col.foldl (welfordRMStep fl) ⟨0, 0, 0⟩ := by rw [hfold, hcut]
  have er : (stdRMH fl sqrt ddof).run n chunks = (fun s : StdRState α => if s.k = 0 then none else if fl (s.k - (ddof : α)) = 0 then none else
      if fl (s.q / fl (s.k - (ddof : α))) < 0 then none else some (sqrt (fl (s.q / fl (s.k - (ddof : α))))))
      (chunks.foldl (fun s c => c.foldl (welfordRMStep fl) s) (⟨0, 0, 0⟩ : StdRState α)) := rfl
  have ev : (varRMH fl sqrt ddof).run n chunks = ((stdRMH fl sqrt ddof).run n chunks).map (fun x => fl (x * x)) := rfl
  rw [ev, er, e1]
  generalize col.foldl (welfordRMStep fl) ⟨0, 0, 0⟩ = s at hinv
  obtain ⟨i1, i2, i3, i4, i5⟩ := hinv
  beta_reduce
  by_cases hl : valid col = []
  · rw [if_pos (i1 hl).1]
    exact ⟨hl, hl⟩
  · have hi := i2 hl
    have hlen := List.length_pos_of_ne_nil hl
    have hdl := hd hl
    have hkd : (ddof : α) < s.k := by
      rcases hex with hx | hx
      · by_cases hone : (valid col).length = 1
        · rw [i3 hone]
          have : ddof < 1 := by rw [hone] at hdl; exact_mod_cast hdl
          exact_mod_cast this
        · have hk := i4 (by omega)
          have : (ddof : α) ≤ 1 := by exact_mod_cast hx
          linarith
      · rw [i5 hx]
        exact_mod_cast hdl
    have hpos := fl_pos h hu1 (sub_pos.mpr hkd)
    have hq : ¬ fl (s.q / fl (s.k - (ddof : α))) < 0 := not_lt.mpr (fl_nonneg h hu1 (div_nonneg hi.2.1 hpos.le))
    obtain ⟨p1, p2⟩ := spread_of h hu1 sqrt hs hi hpos
    rw [if_neg hi.1.ne', if_neg hpos.ne', if_neg hq]
    exact ⟨⟨hl, p1⟩, hl, p2⟩

theorem stdValues_whole [Inhabited α] {limit p : Nat} (col : List α) (h : 2 * p ≤ limit) : stdValues (enginePieces limit p col) = col := by
  by_cases hfit : col.length * p ≤ limit
  · unfold enginePieces
    rw [if_pos hfit]; rfl
  · have h2 : 2 ≤ col.length := by
      by_contra hc
      exact hfit ((Nat.mul_le_mul_right p (by omega : col.length ≤ 2)).trans h)
    have hp : 0 < p := by
      rcases Nat.eq_zero_or_pos p with e | e
      · rw [e] at hfit; simp at hfit
      · exact e
    obtain ⟨c, d, cs, e, hc⟩ := enginePieces_many h2 hfit
    have hge : 2 ≤ limit / p := (Nat.le_div_iff_mul_le hp).mpr h
    have hf : (enginePieces limit p col).flatten = col := enginePieces_flatten limit p col
    rw [e] at hf ⊢
    unfold stdValues
    rw [if_neg (by omega)]
    exact hf

variable [Inhabited α] {limit : Nat}

/-- C81 for every expression of the grammar: `std` and `var` are not negative, and 0 exactly if all values that are not forgotten are the same. -/
theorem C81_arrays (h : Rounding fl u) (hu : u < 1) (npSum : List α → α) (sqrt : α → α) (hs : RootLike sqrt) (cast : Nat → α → α) (fwd : Bool) (a : Arr α) (x : NDA α)
    (axis : Nat) (hb : a.Built (roundMode fl npSum sqrt cast) limit fwd false .sliced) (hx : a.Yields (roundMode fl npSum sqrt cast) limit x)
    (hax : axis < x.shape.length) (hne : x.shape.getD axis 0 ≠ 0) (hf : ∀ idx, InB x.shape idx → fl (x.get idx) = x.get idx) (ddof : Int)
    (hd : ∀ idx, ddof < (stdValues (enginePieces limit (a.skel.right axis) (x.column axis idx))).length) (k : AggKind α) (hk : k = .std ddof ∨ k = .var ddof) :
    ∃ r, (Arr.agg a axis k).Yields (roundMode fl npSum sqrt cast) limit r ∧ (Arr.agg a axis k).EngineReturns (roundMode fl npSum sqrt cast) limit r ∧
      AggregateOf (fun col v => Spread (stdValues (enginePieces limit (a.skel.right axis) col)) v) x axis r := by
  have hcol : ∀ idx, x.column axis idx ≠ [] := fun idx e => hne (by rw [← column_length x axis idx, e]; rfl)
  obtain ⟨r, h1, h2, h3⟩ := aggregation_exact fwd a x axis k hb hx hax (Or.inl hne)
  refine ⟨r, h1, h2, h3.1, fun idx hi => ?_⟩
  rw [h3.2 idx hi]
  obtain ⟨init, last, e, _⟩ := enginePieces_last limit (a.skel.right axis) _ (hcol idx)
  have key := C81_std h hu sqrt hs ddof (enginePieces limit (a.skel.right axis) (x.column axis idx)) (by rw [e]; simp) (enginePieces_ne _ _ _ (hcol idx))
    (by
      rw [show (enginePieces limit (a.skel.right axis) (x.column axis idx)).flatten = _ from enginePieces_flatten _ _ _]
      intro y hy
      obtain ⟨j, hj, rfl⟩ := List.mem_map.mp hy
      exact hf _ (inB_insert_axis hax (by rw [← h3.1]; exact hi) (List.mem_range.mp hj))) (hd idx) (x.column axis idx).length
  rcases hk with rfl | rfl
  · exact key.1
  · exact key.2

/-- C81: with room for two values of the axis in a chunk, they are not negative, and 0 exactly if all values of the column are the same. -/
theorem C81_two_values_arrays (h : Rounding fl u) (hu : u < 1) (npSum : List α → α) (sqrt : α → α) (hs : RootLike sqrt) (cast : Nat → α → α) (fwd : Bool) (a : Arr α)
    (x : NDA α) (axis : Nat) (hb : a.Built (roundMode fl npSum sqrt cast) limit fwd false .sliced) (hx : a.Yields (roundMode fl npSum sqrt cast) limit x)
    (hax : axis < x.shape.length) (hne : x.shape.getD axis 0 ≠ 0) (hf : ∀ idx, InB x.shape idx → fl (x.get idx) = x.get idx) (hroom : a.skel.holds limit 2 axis)
    (ddof : Int) (hd : ddof < x.shape.getD axis 0) (k : AggKind α) (hk : k = .std ddof ∨ k = .var ddof) :
    ∃ r, (Arr.agg a axis k).Yields (roundMode fl npSum sqrt cast) limit r ∧ (Arr.agg a axis k).EngineReturns (roundMode fl npSum sqrt cast) limit r ∧
      AggregateOf Spread x axis r := by
  obtain ⟨r, h1, h2, h3⟩ := C81_arrays h hu npSum sqrt hs cast fwd a x axis hb hx hax hne hf ddof (fun idx => by rw [stdValues_whole _ hroom, column_length]; exact hd) k hk
  refine ⟨r, h1, h2, h3.1, fun idx hi => ?_⟩
  have := h3.2 idx hi
  beta_reduce at this
  rwa [stdValues_whole _ hroom] at this

/-- C81 for arrays with masked data, with any chunk limit. -/
theorem C81_masked_arrays (h : Rounding fl u) (hu : u ≤ 1 / 3) (e1 : fl 1 = 1) (e2 : fl 2 = 2) (npSum : List α → α) (sqrt : α → α) (hs : RootLike sqrt) (cast : Nat → α → α)
    (fwd : Bool) (a : Arr α) (x : NDA (Option α))
    (axis : Nat) (hb : a.Built (roundMaMode fl npSum sqrt cast) limit fwd false .sliced) (hx : a.Yields (roundMaMode fl npSum sqrt cast) limit x)
    (hax : axis < x.shape.length) (hne : x.shape.getD axis 0 ≠ 0) (hf : ∀ idx, InB x.shape idx → ∀ v ∈ x.get idx, fl v = v)
    (k : AggKind α) (hk : k = .std 0 ∨ k = .var 0) :
    ∃ r, (Arr.agg a axis k).Yields (roundMaMode fl npSum sqrt cast) limit r ∧ (Arr.agg a axis k).EngineReturns (roundMaMode fl npSum sqrt cast) limit r ∧
      AggregateOf MaskedSpread x axis r := by
  obtain ⟨r, h1, h2, h3⟩ := aggregation_exact fwd a x axis k hb hx hax (Or.inl hne)
  refine ⟨r, h1, h2, h3.1, fun idx hi => ?_⟩
  rw [h3.2 idx hi]
  have key := C81_masked_std h hu e1 e2 sqrt hs 0 (x.column axis idx) (enginePieces limit (a.skel.right axis) (x.column axis idx)) (enginePieces_flatten _ _ _) (by
      intro y hy
      obtain ⟨w, hw, hwy⟩ := List.mem_filterMap.mp hy
      obtain ⟨j, hj, rfl⟩ := List.mem_map.mp hw
      exact hf _ (inB_insert_axis hax (by rw [← h3.1]; exact hi) (List.mem_range.mp hj)) y hwy)
    (fun hl => by exact_mod_cast List.length_pos_of_ne_nil hl) (Or.inl (by norm_num)) (x.column axis idx).length
  rcases hk with rfl | rfl
  · exact key.1
  · exact key.2

end

theorem binary_one {K : Type} [Field K] [LinearOrder K] [IsStrictOrderedRing K] [FloorRing K] (p : Nat) (hp : 1 ≤ p) : binary p (1 : K) = 1 := by
  obtain ⟨q, rfl⟩ : ∃ q, p = q + 1 := ⟨p - 1, by omega⟩
  refine binary_fix _ (2 ^ q) 0 1 ?_ (fun _ => by rw [abs_one]; exact Int.log_one_right 2)
  have h2 : (2 : K) ≠ 0 := two_ne_zero
  rw [show (0 : ℤ) + 1 - ((q + 1 : Nat) : ℤ) = -(q : ℤ) by push_cast; ring, zpow_neg, zpow_natCast]
  push_cast
  rw [mul_inv_cancel₀ (pow_ne_zero _ h2)]

theorem binary_two {K : Type} [Field K] [LinearOrder K] [IsStrictOrderedRing K] [FloorRing K] (p : Nat) (hp : 1 ≤ p) : binary p (2 : K) = 2 := by
  obtain ⟨q, rfl⟩ : ∃ q, p = q + 1 := ⟨p - 1, by omega⟩
  have h2 : (2 : K) ≠ 0 := two_ne_zero
  refine binary_fix _ (2 ^ q) 1 2 ?_ (fun _ => ?_)
  · rw [show (1 : ℤ) + 1 - ((q + 1 : Nat) : ℤ) = 1 + -(q : ℤ) by push_cast; ring, zpow_add₀ h2, zpow_one, zpow_neg, zpow_natCast]
    push_cast
    field_simp
  · rw [abs_of_pos two_pos]
    have := Int.log_zpow (R := K) (b := 2) (by norm_num) 1
    simpa using this

/-- The hypotheses of C81 are met by real numbers with 53 binary digits and the correctly rounded square root. -/
theorem binary_root (p : Nat) (hp : 1 ≤ p) : RootLike (fun z : ℝ => binary p (Real.sqrt z)) := by
  have hr := binary_rounding (K := ℝ) p hp
  have hu : (1 : ℝ) / 2 ^ p < 1 := by
    rw [div_lt_one (by positivity)]
    exact one_lt_pow₀ (by norm_num) (by omega)
  intro z hz
  refine ⟨fl_nonneg hr hu (Real.sqrt_nonneg z), ⟨fun e => ?_, fun e => ?_⟩⟩
  · by_contra hne
    exact fl_ne_zero hr hu (Real.sqrt_ne_zero'.mpr (lt_of_le_of_ne hz (Ne.symm hne))) e
  · show binary p (Real.sqrt z) = 0
    rw [e, Real.sqrt_zero]; exact hr.zero

/-- For example, the variance over the first axis of a masked source of shape `[1000, 2]` of doubles, whatever the chunk limit. -/
example (limit : Nat) (npSum : List ℝ → ℝ) (c : Concrete ℝ) (hs : c.data.shape = [1000, 2]) (hu : ∀ idx, ∀ v ∈ c.data.get idx, binary 53 v = v) :
    ∃ r, (Arr.agg (.adapter true c []) 0 (.var 0)).Yields (roundMaMode (binary 53) npSum (fun z => binary 53 (Real.sqrt z)) (fun _ x => x)) limit r ∧
      AggregateOf MaskedSpread c.data 0 r := by
  have hB : ∀ fwd cut, (Arr.adapter true c []).Built (roundMaMode (binary 53) npSum (fun z => binary 53 (Real.sqrt z)) (fun _ x => x)) limit fwd false cut := by
    intro fwd cut
    exact .source _ _ _ _ (fun idx _ => rfl) (fun h => by cases h)
  have hy := source_yields _ limit true c hB
  obtain ⟨r, h1, _, h2⟩ := C81_masked_arrays (binary_rounding (K := ℝ) 53 (by norm_num)) (by norm_num) (binary_one 53 (by norm_num)) (binary_two 53 (by norm_num)) npSum
    (fun z => binary 53 (Real.sqrt z)) (binary_root 53 (by norm_num)) (fun _ x => x) true _ _ 0 (hB true .sliced) hy
    (by show 0 < c.data.shape.length; rw [hs]; decide) (by show c.data.shape.getD 0 0 ≠ 0; rw [hs]; decide) (fun idx _ v hv => hu idx v hv) (.var 0) (Or.inr rfl)
  have e : c.data.map ((roundMaMode (binary 53) npSum (fun z => binary 53 (Real.sqrt z)) (fun _ x => x)).leaf c.fill) = c.data := rfl
  rw [e] at h2
  exact ⟨r, h1, h2⟩

/-- C81 is not vacuous: of the doubles 1, 2, 2 in chunks of two and one values the deviation is positive, of 2, 2, 2 it is 0. -/
example (n : Nat) : 0 < (stdRH (binary 53 : ℝ → ℝ) (fun z => binary 53 (Real.sqrt z)) 0).run n [[1, 2], [2]] ∧
    (stdRH (binary 53 : ℝ → ℝ) (fun z => binary 53 (Real.sqrt z)) 0).run n [[2, 2], [2]] = 0 := by
  have hr := binary_rounding (K := ℝ) 53 (by norm_num)
  have b1 := binary_one (K := ℝ) 53 (by norm_num)
  have b2 := binary_two (K := ℝ) 53 (by norm_num)
  constructor
  · have := (C81_std hr (by norm_num) _ (binary_root 53 (by norm_num)) 0 [[1, 2], [2]] (by simp) (by simp) (by intro x hx; simp at hx; rcases hx with rfl | rfl <;> assumption)
      (by decide) n).1
    refine lt_of_le_of_ne this.1 (fun e => ?_)
    have := this.2.mp e.symm 1 (by simp [stdValues]) 2 (by simp [stdValues])
    norm_num at this
  · exact (C81_std hr (by norm_num) _ (binary_root 53 (by norm_num)) 0 [[2, 2], [2]] (by simp) (by simp) (by intro x hx; simp at hx; rw [hx]; exact b2)
      (by decide) n).1.2.mpr (by intro x hx y hy; simp [stdValues] at hx hy; rw [hx, hy])

end Biggus

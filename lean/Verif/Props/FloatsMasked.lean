import Verif.Props.Floats
import Verif.Props.Containers3
/-
C79 for masked data: infinities and NaN in masked aggregations.
-/
namespace Biggus

open Spec

variable {α : Type} [Field α] [LinearOrder α]

/-- C79: masked sum (any chunking): the float sum of the unmasked values. -/
theorem C79_masked_sum (col : List (Option (Fl α))) (chunks : List (List (Option (Fl α)))) (h : CutOf col chunks) (n : Nat) :
    sumMH.run n chunks = if valid col = [] then none else some (flSum (valid col)) := by
  rw [C21_masked_sum_partial col chunks h n, sum_flSum]

/-- C79: masked mean (any chunking, `mdtol` as in C21): as in `numpy.ma`, masked if the sum of the unmasked values is not finite. -/
theorem C79_masked_mean [IsStrictOrderedRing α] (mdtol : α) (col : List (Option (Fl α))) (chunks : List (List (Option (Fl α)))) (h : CutOf col chunks) (n : Nat) :
    (meanMFH mdtol).run n chunks =
      if mdtol < 1 ∧ mdtol < ((col.length - (valid col).length : Nat) : α) / (col.length : α) ∧ col ≠ [] then none else maFlMean (valid col) := by
  have hcount : ∀ l : List (Option (Fl α)), l.countP Option.isNone + (valid l).length = l.length := by
    intro l
    induction l with
    | nil => rfl
    | cons v l ih => cases v <;> simp_all [valid] <;> omega
  have hst : ∀ (L : List (List (Option (Fl α)))) (s : MeanState (Fl α)),
      L.foldl meanMFStep s = ⟨s.count + (valid L.flatten).length,
        s.maskedCount + L.flatten.countP Option.isNone, s.total + (valid L.flatten).sum⟩ := by
    intro L
    induction L with
    | nil => intro s; simp [valid]
    | cons c L ih =>
      intro s
      rw [List.foldl_cons, ih]
      simp only [meanMFStep, List.flatten_cons, List.countP_append, valid_append, List.sum_append,
        List.length_append, add_assoc]
      rfl
  have hrun : (meanMFH mdtol).run n chunks = meanMFFin mdtol
      ⟨(valid col).length, col.countP Option.isNone, flSum (valid col)⟩ := by
    show meanMFFin mdtol (chunks.foldl meanMFStep ⟨0, 0, 0⟩) = _
    rw [hst, h, ← sum_flSum]
    simp
  rw [hrun]
  have hc : col.countP Option.isNone = col.length - (valid col).length := by have := hcount col; omega
  have hc' : col.length - (valid col).length + (valid col).length = col.length := by
    have := hcount col; omega
  simp only [meanMFFin, hc, hc']
  have hr : (if (valid col).length = 0 then none else maDiv (flSum (valid col)) ((valid col).length : α)) = maFlMean (valid col) := by
    unfold maFlMean
    by_cases hv : valid col = []
    · simp [hv]
    · have hlen : (valid col).length ≠ 0 := by simpa using hv
      have hk : ((valid col).length : α) ≠ 0 := Nat.cast_ne_zero.mpr hlen
      rw [if_neg hv, if_neg hlen, maDiv, if_neg hk]
      rfl
  rw [hr]
  have : (mdtol < 1 ∧ col.length ≠ 0 ∧ mdtol < ((col.length - (valid col).length : Nat) : α) / (col.length : α)) ↔
      (mdtol < 1 ∧ mdtol < ((col.length - (valid col).length : Nat) : α) / (col.length : α) ∧ col ≠ []) := by
    rw [ne_eq, List.length_eq_zero_iff]; tauto
  by_cases hh : mdtol < 1 ∧ mdtol < ((col.length - (valid col).length : Nat) : α) / (col.length : α) ∧ col ≠ []
  · rw [if_pos hh, if_pos (this.mpr hh)]
  · rw [if_neg hh, if_neg (fun h => hh (this.mp h))]

/-- The state after a column depends on the unmasked values only. -/
theorem stdMF_state (col : List (Option (Fl α))) : ∀ s : StdState (Fl α),
    (s.k ≠ 0 → col.foldl welfordMFStep s = (valid col).foldl welfordFStep s) ∧
    (s.k = 0 → s.q = 0 → (valid col = [] → (col.foldl welfordMFStep s).k = 0) ∧
      ∀ x xs, valid col = x :: xs → col.foldl welfordMFStep s = xs.foldl welfordFStep ⟨1, x, 0⟩) := by
  induction col with
  | nil => intro s; exact ⟨fun _ => rfl, fun hk _ => ⟨fun _ => hk, fun x xs h => by simp [valid] at h⟩⟩
  | cons v col ih =>
    intro s
    rw [List.foldl_cons]
    cases v with
    | none =>
      have hv : valid (none :: col) = valid col := rfl
      rw [hv]
      refine ⟨fun hk => ?_, fun hk hq => ?_⟩
      · have : welfordMFStep s none = s := by simp [welfordMFStep, hk]
        rw [this]
        exact (ih s).1 hk
      · have e : welfordMFStep s none = { s with a := 0 } := by simp [welfordMFStep, hk]
        rw [e]
        exact (ih { s with a := 0 }).2 hk hq
    | some y =>
      have hv : valid (some y :: col) = y :: valid col := rfl
      rw [hv]
      refine ⟨fun hk => ?_, fun hk hq => ⟨fun h => by simp at h, fun x xs h => ?_⟩⟩
      · have : welfordMFStep s (some y) = welfordFStep s y := by simp [welfordMFStep, welfordFStep, hk]
        rw [this, List.foldl_cons]
        exact (ih _).1 (by simp [welfordFStep])
      · rw [List.cons.injEq] at h
        obtain ⟨rfl, rfl⟩ := h
        have e : welfordMFStep s (some y) = ⟨1, y, 0⟩ := by simp [welfordMFStep, hk, hq]
        rw [e]
        exact (ih _).1 (by simp)

theorem stdMF_flatten (f : α → α) (ddof : Int) (n : Nat) (chunks : List (List (Option (Fl α)))) :
    (stdMFH f ddof).run n chunks = (stdMFH f ddof).run n [chunks.flatten] := by
  show (stdMFH f ddof).fin n (chunks.foldl stdMFStep ⟨0, 0, 0⟩) = (stdMFH f ddof).fin n ([chunks.flatten].foldl stdMFStep ⟨0, 0, 0⟩)
  congr 1
  have : chunks.foldl stdMFStep (⟨0, 0, 0⟩ : StdState (Fl α)) = chunks.flatten.foldl welfordMFStep (⟨0, 0, 0⟩ : StdState (Fl α)) := by
    rw [← foldl_flatten]; rfl
  exact this

/-- C79: masked standard deviation and variance, for any chunking.  With at least two unmasked values, or only finite ones, and `ddof` at most their number,
they are what `numpy.ma` gives: the two-pass value of the unmasked values, masked if that is not finite. -/
theorem C79_masked_std [IsStrictOrderedRing α] (f : α → α) (hf : ∀ x, 0 ≤ x → f x * f x = x) (ddof : Int) (col : List (Option (Fl α)))
    (chunks : List (List (Option (Fl α)))) (h : CutOf col chunks) (hd : ddof ≤ (valid col).length)
    (h2 : 2 ≤ (valid col).length ∨ (valid col).all Fl.finite = true) (n : Nat) :
    (stdMFH f ddof).run n chunks = maFlStd f ddof (valid col) ∧ (varMFH f ddof).run n chunks = maFlVar ddof (valid col) := by
  let F : StdState (Fl α) → Option (Fl α) := fun s => if s.k = 0 then none else (maDiv s.q ((s.k : α) - (ddof : α))).bind (maSqrt f)
  have hrun : (stdMFH f ddof).run n chunks = F (col.foldl welfordMFStep (⟨0, 0, 0⟩ : StdState (Fl α))) := by
    rw [stdMF_flatten, h]; rfl
  have hvar : (varMFH f ddof).run n chunks = ((stdMFH f ddof).run n chunks).map (fun x => x * x) := rfl
  rw [hvar, hrun]
  obtain ⟨hnil, hcons⟩ := (stdMF_state col (⟨0, 0, 0⟩ : StdState (Fl α))).2 rfl rfl
  cases hv : valid col with
  | nil =>
    have hk := hnil hv
    have : F (col.foldl welfordMFStep (⟨0, 0, 0⟩ : StdState (Fl α))) = none := if_pos hk
    rw [this]
    simp [maFlStd, maFlVar]
  | cons x xs =>
    rw [hcons x xs hv]
    have hk : (xs.foldl welfordFStep (⟨1, x, 0⟩ : StdState (Fl α))).k = (x :: xs).length := by
      rw [welfordF_k]; simp only [List.length_cons]; omega
    have hk0 : (xs.foldl welfordFStep (⟨1, x, 0⟩ : StdState (Fl α))).k ≠ 0 := by rw [hk]; simp
    have hfin : F (xs.foldl welfordFStep (⟨1, x, 0⟩ : StdState (Fl α))) =
        (maDiv (xs.foldl welfordFStep (⟨1, x, 0⟩ : StdState (Fl α))).q (((x :: xs).length : α) - (ddof : α))).bind (maSqrt f) := by
      show (if _ then _ else _) = _
      rw [if_neg hk0, hk]
    rw [hfin]
    rw [hv] at hd h2
    unfold maFlStd maFlVar
    by_cases hle : ((x :: xs).length : Int) ≤ ddof
    · have e : (ddof : Int) = ((x :: xs).length : Int) := le_antisymm hd hle
      have e' : ((x :: xs).length : α) - (ddof : α) = 0 := by rw [e, Int.cast_natCast, sub_self]
      rw [e', maDiv, if_pos rfl, if_pos (Or.inl hle), if_pos (Or.inl hle)]
      exact ⟨rfl, rfl⟩
    · have hlt : ddof < ((x :: xs).length : Int) := lt_of_not_ge hle
      have hlt' : (ddof : α) < ((x :: xs).length : α) := by exact_mod_cast (Int.cast_lt (R := α)).mpr hlt
      have hpos := sub_pos.mpr hlt'
      rw [if_neg (by rintro (h | h); exact hle h; cases h), if_neg (by rintro (h | h); exact hle h; cases h)]
      by_cases hall : (x :: xs).all Fl.finite = true
      · -- only finite values
        obtain ⟨l, hl⟩ : ∃ l : List α, x :: xs = l.map .num := by
          refine ⟨finites (x :: xs), ?_⟩
          generalize x :: xs = z at hall
          induction z with
          | nil => rfl
          | cons y z ih =>
            rw [List.all_cons, Bool.and_eq_true] at hall
            obtain ⟨w, rfl⟩ := (Fl.finite_iff _).mp hall.1
            rw [finites_num, List.map_cons, ← ih hall.2]
        obtain ⟨y, ys, rfl⟩ : ∃ y ys, l = y :: ys := by
          cases l with
          | nil => simp at hl
          | cons y ys => exact ⟨y, ys, rfl⟩
        have hl' := hl
        rw [List.map_cons, List.cons.injEq] at hl'
        obtain ⟨rfl, rfl⟩ := hl'
        have hlift : ∀ (l : List α) (t : StdState α), (l.map Fl.num).foldl welfordFStep (liftState t) = liftState (l.foldl welfordStep t) := by
          intro l
          induction l with
          | nil => intro t; rfl
          | cons y l ih => intro t; rw [List.map_cons, List.foldl_cons, welfordF_lift, ih, List.foldl_cons]
        have hw : WInv (ys.foldl welfordStep (⟨1, y, 0⟩ : StdState α)) (y :: ys) := WInv_foldl ys _ [y] (WInv_single y)
        have hq : ((ys.map Fl.num).foldl welfordFStep (⟨1, .num y, 0⟩ : StdState (Fl α))).q = .num (ssd (y :: ys)) := by
          have := hlift ys ⟨1, y, 0⟩
          have e : (liftState (⟨1, y, 0⟩ : StdState α)) = ⟨1, .num y, 0⟩ := rfl
          rw [e] at this
          rw [this]
          show Fl.num _ = _
          rw [(WInv_ssd _ _ hw).2]
        have hs0 : 0 ≤ ssd (y :: ys) := by
          unfold ssd
          refine List.sum_nonneg ?_
          intro z hz
          obtain ⟨w, _, rfl⟩ := List.mem_map.mp hz
          exact mul_self_nonneg _
        have hlen : ((Fl.num y :: ys.map Fl.num).length : α) = ((y :: ys).length : α) := by simp
        rw [hq, flStd, hl, flVar_num ddof (y :: ys) (by simp)]
        rw [List.length_map]
        rw [hlen] at hpos
        have hnn : 0 ≤ ssd (y :: ys) / (((y :: ys).length : α) - (ddof : α)) := div_nonneg hs0 hpos.le
        have hd0 : (Fl.num (ssd (y :: ys))).divNum (((y :: ys).length : α) - (ddof : α)) = .num (ssd (y :: ys) / (((y :: ys).length : α) - (ddof : α))) := by
          simp only [Fl.divNum, if_neg hpos.ne']
        rw [maDiv, if_neg hpos.ne', hd0]
        simp only [Fl.finite, if_true, Option.bind_some, maSqrt, Fl.sqrt, if_neg (not_lt.mpr hnn), unlessBad, Option.map_some, Fl.num_mul, hf _ hnn, true_and]
      · -- a value that is not finite
        have hex : ∃ z ∈ x :: xs, z.finite = false := by
          by_contra hno
          push Not at hno
          exact hall (List.all_eq_true.mpr (fun z hz => by simpa using hno z hz))
        have h2' : 2 ≤ (x :: xs).length := h2.resolve_right hall
        have hxs : xs.isEmpty = false := by cases xs <;> simp_all
        have hq : (xs.foldl welfordFStep (⟨1, x, 0⟩ : StdState (Fl α))).q.finite = false := by
          rw [welfordF_fold_finite xs _ (by simp), hxs]
          obtain ⟨y, hy, hyf⟩ := hex
          rcases List.mem_cons.mp hy with rfl | hy
          · simp [hyf]
          · have : xs.all Fl.finite = false := Bool.eq_false_iff.mpr (fun h => by rw [List.all_eq_true.mp h y hy] at hyf; cases hyf)
            simp [this]
        rw [maDiv, if_neg hpos.ne', Fl.finite_divNum _ hpos.ne', hq, flStd, flVar_nonfinite ddof _ hex]
        exact ⟨rfl, rfl⟩

/-- C79: if the unmasked values are finite, the masked standard deviation is that of C23 for every `ddof` and every chunking: masked if there is no value, if `ddof` is
their number, or if the quotient is negative. -/
theorem C79_masked_std_finite [IsStrictOrderedRing α] (f : α → α) (ddof : Int) (col : List (Option (Fl α)))
    (chunks : List (List (Option (Fl α)))) (h : CutOf col chunks) (l : List α) (hl : valid col = l.map .num) (n : Nat) :
    (stdMFH f ddof).run n chunks =
      if l = [] ∨ ((l.length : α) - (ddof : α)) = 0 ∨ Spec.var ddof l < 0 then none else some (.num (f (Spec.var ddof l))) := by
  let F : StdState (Fl α) → Option (Fl α) := fun s => if s.k = 0 then none else (maDiv s.q ((s.k : α) - (ddof : α))).bind (maSqrt f)
  have hrun : (stdMFH f ddof).run n chunks = F (col.foldl welfordMFStep (⟨0, 0, 0⟩ : StdState (Fl α))) := by
    rw [stdMF_flatten, h]; rfl
  rw [hrun]
  obtain ⟨hnil, hcons⟩ := (stdMF_state col (⟨0, 0, 0⟩ : StdState (Fl α))).2 rfl rfl
  cases l with
  | nil => rw [if_pos (Or.inl rfl)]; exact if_pos (hnil hl)
  | cons y ys =>
    have hlift : ∀ (l : List α) (t : StdState α), (l.map Fl.num).foldl welfordFStep (liftState t) = liftState (l.foldl welfordStep t) := by
      intro l
      induction l with
      | nil => intro t; rfl
      | cons y l ih => intro t; rw [List.map_cons, List.foldl_cons, welfordF_lift, ih, List.foldl_cons]
    have hw : WInv (ys.foldl welfordStep (⟨1, y, 0⟩ : StdState α)) (y :: ys) := WInv_foldl ys _ [y] (WInv_single y)
    have hst : (ys.map Fl.num).foldl welfordFStep (⟨1, .num y, 0⟩ : StdState (Fl α)) = liftState (ys.foldl welfordStep (⟨1, y, 0⟩ : StdState α)) := hlift ys ⟨1, y, 0⟩
    rw [hcons (.num y) (ys.map .num) hl, hst]
    have hk : (liftState (ys.foldl welfordStep (⟨1, y, 0⟩ : StdState α))).k = (y :: ys).length := hw.1
    have hq : (liftState (ys.foldl welfordStep (⟨1, y, 0⟩ : StdState α))).q = .num (ssd (y :: ys)) := by
      show Fl.num _ = _
      rw [(WInv_ssd _ _ hw).2]
    show (if _ then _ else _) = _
    rw [if_neg (by rw [hk]; simp), hk, hq]
    by_cases h0 : (((y :: ys).length : α) - (ddof : α)) = 0
    · rw [if_pos (Or.inr (Or.inl h0)), maDiv, if_pos h0]; rfl
    · have hd : (Fl.num (ssd (y :: ys))).divNum (((y :: ys).length : α) - (ddof : α)) = .num (Spec.var ddof (y :: ys)) := by
        simp only [Fl.divNum, if_neg h0, Spec.var]
      rw [maDiv, if_neg h0, hd]
      have hb : (if (Fl.num (Spec.var ddof (y :: ys))).finite = true then some (Fl.num (Spec.var ddof (y :: ys))) else none) = some (Fl.num (Spec.var ddof (y :: ys))) := rfl
      rw [hb, Option.bind_some, maSqrt]
      by_cases hn : Spec.var ddof (y :: ys) < 0
      · have e : (Fl.num (Spec.var ddof (y :: ys))).sqrt f = .nan := if_pos hn
        rw [e, if_pos (Or.inr (Or.inr hn))]; rfl
      · have e : (Fl.num (Spec.var ddof (y :: ys))).sqrt f = .num (f (Spec.var ddof (y :: ys))) := if_neg hn
        have e2 : ¬ (y :: ys = [] ∨ (((y :: ys).length : α) - (ddof : α)) = 0 ∨ Spec.var ddof (y :: ys) < 0) := by
          rintro (h | h | h)
          · cases h
          · exact h0 h
          · exact hn h
        rw [e, if_neg e2]; rfl

/-- The hypotheses are met: `[1, --, 4]` in two chunks with `ddof = 3`: the quotient is negative and the result masked. -/
example : valid [some (.num 1), none, some (.num (4 : ℚ))] = [1, 4].map Fl.num ∧
    (stdMFH (id : ℚ → ℚ) 3).run 3 [[some (.num 1), none], [some (.num 4)]] = none := by
  refine ⟨rfl, by decide +kernel⟩

/-- C79 fails of the code for a single unmasked value that is not finite: the masked standard deviation is 0, where `numpy.ma` masks it. -/
theorem C79_masked_std_wrong : (stdMFH (id : ℚ → ℚ) 0).run 2 [[none], [some .nan]] = some (.num 0) ∧ maFlStd (id : ℚ → ℚ) 0 (valid [none, some .nan]) = none := by
  decide +kernel

/-! ### Arrays -/

/-- What C79 claims of a masked aggregate `v` of a whole column. -/
def IsFlAggMasked (f : α → α) : AggKind (Fl α) → List (Option (Fl α)) → Option (Fl α) → Prop
  | .count, col, v => v = some (.num (valid col).length)
  | .sum, col, v => v = if valid col = [] then none else some (flSum (valid col))
  | .mean (.num t), col, v => v = if t < 1 ∧ t < ((col.length - (valid col).length : Nat) : α) / (col.length : α) ∧ col ≠ [] then none else maFlMean (valid col)
  | .std d, col, v => d ≤ (valid col).length → (2 ≤ (valid col).length ∨ (valid col).all Fl.finite = true) → v = maFlStd f d (valid col)
  | .var d, col, v => d ≤ (valid col).length → (2 ≤ (valid col).length ∨ (valid col).all Fl.finite = true) → v = maFlVar d (valid col)
  | _, _, _ => True

omit [LinearOrder α] in
theorem C79_masked_count (col : List (Option (Fl α))) (chunks : List (List (Option (Fl α)))) (h : CutOf col chunks) (n : Nat) :
    (countMH : Handler (Option (Fl α))).run n chunks = some (.num (valid col).length) := by
  rw [← h]
  have := foldl_add_map (V := Option (Fl α)) (fun l => (unmasked l).length) rfl
    (fun a b => by simp [unmasked]) (0 : Nat) chunks
  simp only [Handler.run, countMH]
  rw [this, zero_add]; rfl

variable [Inhabited α] {limit : Nat}

/-- C79 for masked arrays: `count`, `sum`, `mean`, `std` and `var` over an axis of any float expression of the grammar, evaluated through chunks, directly or by the
engine. -/
theorem C79_masked_arrays [IsStrictOrderedRing α] (f : α → α) (hf : ∀ x, 0 ≤ x → f x * f x = x) (cast : Nat → Fl α → Fl α) (fwd : Bool) (a : Arr (Fl α))
    (x : NDA (Option (Fl α))) (axis : Nat) (k : AggKind (Fl α)) (hk : k = .count ∨ k = .sum ∨ (∃ t, k = .mean (.num t)) ∨ (∃ d, k = .std d) ∨ ∃ d, k = .var d)
    (hb : a.Built (maFloatMode f cast) limit fwd false .sliced)
    (hx : a.Yields (maFloatMode f cast) limit x) (hax : axis < x.shape.length) (hne : x.shape.getD axis 0 ≠ 0) :
    ∃ r, (Arr.agg a axis k).Yields (maFloatMode f cast) limit r ∧ (Arr.agg a axis k).EngineReturns (maFloatMode f cast) limit r ∧
      AggregateOf (IsFlAggMasked f k) x axis r := by
  refine aggregation_array (m := maFloatMode f cast) (IsFlAggMasked f k) fwd a x axis k hb hx hax hne (Or.inl ?_) ?_
  · rcases hk with rfl | rfl | ⟨t, rfl⟩ | ⟨d, rfl⟩ | ⟨d, rfl⟩
    · exact lawful_of_spec (fun _ col => some (.num ((valid col).length : α))) (fun n chunks _ _ => C79_masked_count _ chunks rfl n)
    · exact sumMH_lawful
    · exact lawful_of_spec (h := meanMFH t) (fun _ col => if t < 1 ∧ t < ((col.length - (valid col).length : Nat) : α) / (col.length : α) ∧ col ≠ [] then none
        else maFlMean (valid col)) (fun n chunks _ _ => C79_masked_mean t _ chunks rfl n)
    · exact fun n chunks _ _ => stdMF_flatten f d n chunks
    · intro n chunks _ _
      show ((stdMFH f d).run n chunks).map _ = ((stdMFH f d).run n [chunks.flatten]).map _
      rw [stdMF_flatten f d n chunks]
  · intro col _
    have hc : CutOf col [col] := by simp [CutOf]
    rcases hk with rfl | rfl | ⟨t, rfl⟩ | ⟨d, rfl⟩ | ⟨d, rfl⟩
    · exact C79_masked_count col [col] hc _
    · exact C79_masked_sum col [col] hc _
    · exact C79_masked_mean t col [col] hc _
    · exact fun hd h2 => (C79_masked_std f hf d col [col] hc hd h2 _).1
    · exact fun hd h2 => (C79_masked_std f hf d col [col] hc hd h2 _).2

/-- C79: masked `min` and `max` of what is read in one chunk: masked if nothing is unmasked, NaN if an unmasked value is, else the least and greatest unmasked
value. -/
theorem C79_masked_min_max_one_chunk (f : α → α) (cast : Nat → Fl α → Fl α) (fwd : Bool) (a : Arr (Fl α)) (x : NDA (Option (Fl α))) (axis : Nat)
    (hb : a.Built (maFloatMode f cast) limit fwd false .sliced) (hx : a.Yields (maFloatMode f cast) limit x) (hax : axis < x.shape.length)
    (hne : x.shape.getD axis 0 ≠ 0) (hfit : x.shape.getD axis 0 = 1 ∨ a.skel.holds limit (x.shape.getD axis 0) axis) :
    (∃ r, (Arr.agg a axis .min).Yields (maFloatMode f cast) limit r ∧ (Arr.agg a axis .min).EngineReturns (maFloatMode f cast) limit r ∧
      AggregateOf (fun col v => (v = none ↔ valid col = []) ∧ ∀ m, v = some m → IsFlMin (valid col) m) x axis r) ∧
    (∃ r, (Arr.agg a axis .max).Yields (maFloatMode f cast) limit r ∧ (Arr.agg a axis .max).EngineReturns (maFloatMode f cast) limit r ∧
      AggregateOf (fun col v => (v = none ↔ valid col = []) ∧ ∀ m, v = some m → IsFlMax (valid col) m) x axis r) := by
  refine ⟨aggregation_array (m := maFloatMode f cast) _ fwd a x axis .min hb hx hax hne (cutSafe_of_uncut hx.1 hfit) ?_,
    aggregation_array (m := maFloatMode f cast) _ fwd a x axis .max hb hx hax hne (cutSafe_of_uncut hx.1 hfit) ?_⟩
  · intro col _
    have e : ((maFloatMode f cast).handler AggKind.min).run col.length [col] = reduceMasked min col := rfl
    rw [e]
    have e2 : unmasked col = valid col := rfl
    unfold reduceMasked
    rw [e2]
    cases hv : valid col with
    | nil => simp
    | cons y ys => exact ⟨by simp, fun m h => by cases h; exact foldl_min_fl ys y⟩
  · intro col _
    have e : ((maFloatMode f cast).handler AggKind.max).run col.length [col] = reduceMasked max col := rfl
    rw [e]
    have e2 : unmasked col = valid col := rfl
    unfold reduceMasked
    rw [e2]
    cases hv : valid col with
    | nil => simp
    | cons y ys => exact ⟨by simp, fun m h => by cases h; exact foldl_max_fl ys y⟩

/-- C79: `masked_equal(a, v)` masks the elements equal to `v` in addition; no element equals NaN, so `masked_equal(a, nan)` masks nothing. -/
theorem C79_masked_equal (f : α → α) (cast : Nat → Fl α → Fl α) (a : Arr (Fl α)) (v : Fl α) (x : NDA (Option (Fl α)))
    (hx : a.Yields (maFloatMode f cast) limit x) :
    ∃ r, (Arr.maskVal a v).Yields (maFloatMode f cast) limit r ∧ r.shape = x.shape ∧
      ∀ idx, r.get idx = if v ≠ .nan ∧ x.get idx = some v then none else x.get idx :=
  ⟨_, yields_maskVal v hx, rfl, fun _ => rfl⟩

/-- The hypotheses are met: `[[0, nan, --], [3, inf, 5]]` in chunks of at most two elements. -/
def exFloatsMasked : Concrete (Fl ℚ) :=
  ⟨⟨[2, 3], fun idx => if idx = [0, 2] then none else some (if idx = [0, 1] then .nan else if idx = [1, 1] then .inf false else .num (flatIndex [2, 3] idx : Nat))⟩, .num 0, 0⟩

def exMaFloatMode : Mode (Fl ℚ) (Option (Fl ℚ)) := maFloatMode id (fun _ x => x)

example : (Arr.adapter true exFloatsMasked []).Built exMaFloatMode 2 true false .sliced :=
  .source _ _ _ _ (fun _ _ => rfl) (by simp)

example : Res.view ((Arr.agg (.adapter true exFloatsMasked []) 1 (.mean (.num 1))).eval exMaFloatMode 2 2) = .ok ([2], [none, none]) ∧
    Res.view ((Arr.agg (.adapter true exFloatsMasked []) 0 (.mean (.num 1))).eval exMaFloatMode 2 2) = .ok ([3], [some (.num (3 / 2)), none, some (.num 5)]) ∧
    Res.view ((Arr.agg (.adapter true exFloatsMasked []) 0 .sum).eval exMaFloatMode 2 2) = .ok ([3], [some (.num 3), some .nan, some (.num 5)]) ∧
    Res.view ((Arr.agg (.adapter true exFloatsMasked []) 1 (.var 0)).eval exMaFloatMode 2 2) = .ok ([2], [none, none]) :=
  ⟨by decide +kernel, by decide +kernel, by decide +kernel, by decide +kernel⟩

end Biggus

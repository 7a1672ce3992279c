import Verif.Proofs.Floats
import Verif.Props.Compute
/-
C79: infinities and NaN.
-/
namespace Biggus

open Spec

variable {α : Type} [Field α] [LinearOrder α]

/-! ### One column -/

/-- C79: the sum of a float column, however it is cut into chunks: NaN if there is a NaN or infinities of both signs, else an infinity if there is one, else
the sum of the numbers. -/
theorem C79_sum (col : List (Fl α)) (chunks : List (List (Fl α))) (h : CutOf col chunks) (n : Nat) : sumH.run n chunks = flSum col := by
  rw [C20_sum_of_any_chunking col chunks h n, sum_flSum]

/-- C79: the mean of a float column, however it is cut (also if it is empty: NaN). -/
theorem C79_mean (col : List (Fl α)) (chunks : List (List (Fl α))) (h : CutOf col chunks) : meanFH.run col.length chunks = flMean col := by
  have := C79_sum col chunks h col.length
  simp only [Handler.run, sumH] at this
  simp only [Handler.run, meanFH, flMean, this]

/-- C79: the number of values of a float column counts NaNs too. -/
theorem C79_count (col : List (Fl α)) (chunks : List (List (Fl α))) (h : CutOf col chunks) (n : Nat) : (countH : Handler (Fl α)).run n chunks = .num col.length := by
  rw [← h]
  have := foldl_add_map (V := Fl α) List.length rfl (fun a b => List.length_append) (0 : Nat) chunks
  simp only [Handler.run, countH]
  rw [this, zero_add]
  rfl

/-- C79: `min` and `max` see the last chunk only (as in C22); of that they are NaN if it contains one, else the least and greatest value. -/
theorem C79_min_max_of_last_chunk (chunks : List (List (Fl α))) (last : List (Fl α)) (hne : last ≠ []) (n : Nat) :
    IsFlMin last (minH.run n (chunks ++ [last])) ∧ IsFlMax last (maxH.run n (chunks ++ [last])) := by
  match last, hne with
  | x :: xs, _ =>
    simp only [Handler.run, minH, maxH, List.foldl_append, List.foldl_cons, List.foldl_nil]
    exact ⟨foldl_min_fl xs x, foldl_max_fl xs x⟩

/-- C79: finite data.  With at least two values in the first chunk, or a single chunk, and `ddof` at most the number of values, `std` is NumPy's two-pass value
and `var` too - NaN or infinity if `ddof` is the number of values; otherwise a number, the one the exact model gives. -/
theorem C79_std_finite [IsStrictOrderedRing α] (f : α → α) (hf : ∀ x, 0 ≤ x → f x * f x = x) (ddof : Int) (col first : List α) (rest : List (List α))
    (hcut : CutOf col (first :: rest)) (hfirst : 2 ≤ first.length ∨ (rest = [] ∧ first ≠ [])) (hd : ddof ≤ col.length) :
    (stdFH f ddof).run col.length ((first :: rest).map (·.map .num)) = flStd f ddof (col.map .num) ∧
    (varFH f ddof).run col.length ((first :: rest).map (·.map .num)) = flVar ddof (col.map .num) ∧
    (ddof < col.length → (stdFH f ddof).run col.length ((first :: rest).map (·.map .num)) = .num ((stdH f ddof).run col.length (first :: rest))) := by
  have hne : col ≠ [] := by
    rw [← hcut]
    rcases hfirst with h | ⟨_, h⟩
    · intro e
      rw [List.flatten_cons, List.append_eq_nil_iff] at e
      rw [e.1] at h
      simp at h
    · intro e
      rw [List.flatten_cons, List.append_eq_nil_iff] at e
      exact h e.1
  have key : WInv ((first :: rest).foldl stdStep (⟨1, 0, 0⟩ : StdState α)) col := by
    rw [← hcut]
    match first, hfirst with
    | [], h => simp at h
    | x :: xs, h =>
      have h1 := std_step_first (⟨1, 0, 0⟩ : StdState α) rfl rfl x xs
      rcases h with h | ⟨h, _⟩
      · have hk : (stdStep (⟨1, 0, 0⟩ : StdState α) (x :: xs)).k ≠ 1 := by
          rw [h1.1]; simp at h ⊢; intro h'; simp [h'] at h
        exact std_steps_rest rest _ _ h1 hk
      · subst h; simpa using h1
  have hq := (WInv_ssd _ _ key).2
  have hk := key.1
  have hv : flVar ddof (col.map .num) = (Fl.num (ssd col)).divNum ((col.length : α) - (ddof : α)) := flVar_num ddof col hne
  have h1 : (stdFH f ddof).run col.length ((first :: rest).map (·.map .num)) = flStd f ddof (col.map .num) := by
    have hl := stdF_lift_run (first :: rest) (⟨1, 0, 0⟩ : StdState α)
    show ((((((first :: rest).map (·.map Fl.num)).foldl stdFStep (liftState (⟨1, 0, 0⟩ : StdState α))).q).divNum
      (((((first :: rest).map (·.map Fl.num)).foldl stdFStep (liftState (⟨1, 0, 0⟩ : StdState α))).k : α) - (ddof : α))).sqrt f) = _
    rw [hl]
    show ((Fl.num ((first :: rest).foldl stdStep (⟨1, 0, 0⟩ : StdState α)).q).divNum
      ((((first :: rest).foldl stdStep (⟨1, 0, 0⟩ : StdState α)).k : α) - (ddof : α))).sqrt f = _
    rw [hq, hk, flStd, hv]
  have hs0 : 0 ≤ ssd col := by
    unfold ssd
    refine List.sum_nonneg ?_
    intro y hy
    obtain ⟨z, _, rfl⟩ := List.mem_map.mp hy
    exact mul_self_nonneg _
  have hd' : (ddof : α) ≤ (col.length : α) := by exact_mod_cast (Int.cast_le (R := α)).mpr hd
  refine ⟨h1, ?_, fun hlt => ?_⟩
  · show (stdFH f ddof).run col.length ((first :: rest).map (·.map .num)) * (stdFH f ddof).run col.length ((first :: rest).map (·.map .num)) = _
    rw [h1, flStd, hv]
    unfold Fl.divNum
    simp only
    split
    · split
      · rfl
      · rw [decide_eq_false (not_lt.mpr hs0)]
        rfl
    · have : 0 ≤ ssd col / ((col.length : α) - (ddof : α)) := div_nonneg hs0 (sub_nonneg.mpr hd')
      simp only [Fl.sqrt, if_neg (not_lt.mpr this), Fl.num_mul, hf _ this]
  · have hlt' : (ddof : α) < (col.length : α) := by exact_mod_cast (Int.cast_lt (R := α)).mpr hlt
    have hpos := sub_pos.mpr hlt'
    rw [h1, flStd, hv, (C23_std_var_partial f ddof col first rest hcut hfirst).1]
    have : 0 ≤ ssd col / ((col.length : α) - (ddof : α)) := div_nonneg hs0 hpos.le
    simp only [Fl.divNum, if_neg hpos.ne', Fl.sqrt, if_neg (not_lt.mpr this), var]

/-- C79: a NaN among at least two values makes `std` and `var` NaN, as in NumPy. -/
theorem C79_std_nan [IsStrictOrderedRing α] (f : α → α) (ddof : Int) (col first : List (Fl α)) (rest : List (List (Fl α)))
    (hcut : CutOf col (first :: rest)) (hfirst : 2 ≤ first.length ∨ (rest = [] ∧ first ≠ [])) (h2 : 2 ≤ col.length) (hn : Fl.nan ∈ col) (n : Nat) :
    (stdFH f ddof).run n (first :: rest) = .nan ∧ (varFH f ddof).run n (first :: rest) = .nan ∧ flStd f ddof col = .nan ∧ flVar ddof col = .nan := by
  obtain ⟨x, xs, rfl, he⟩ := stdF_cut hcut hfirst
  have hq : (xs.foldl welfordFStep (⟨1, x, 0⟩ : StdState (Fl α))).q = .nan := by
    refine welfordF_fold_nan xs _ ?_
    rcases List.mem_cons.mp hn with h | h
    · exact Or.inl ⟨h.symm, by rintro rfl; simp at h2⟩
    · exact Or.inr h
  have h1 : (stdFH f ddof).run n (first :: rest) = .nan := by
    show ((((first :: rest).foldl stdFStep (⟨1, 0, 0⟩ : StdState (Fl α))).q).divNum _).sqrt f = _
    rw [he, hq]; rfl
  have hv := flVar_nonfinite ddof (x :: xs) ⟨_, hn, rfl⟩
  refine ⟨h1, ?_, by rw [flStd, hv]; rfl, hv⟩
  show (stdFH f ddof).run n (first :: rest) * (stdFH f ddof).run n (first :: rest) = _
  rw [h1]; rfl

/-- C79: an infinity or NaN among at least two values never gives a finite `std` (NumPy gives NaN). -/
theorem C79_std_not_finite [IsStrictOrderedRing α] (f : α → α) (ddof : Int) (col first : List (Fl α)) (rest : List (List (Fl α)))
    (hcut : CutOf col (first :: rest)) (hfirst : 2 ≤ first.length ∨ (rest = [] ∧ first ≠ [])) (h2 : 2 ≤ col.length)
    (hn : ∃ x ∈ col, x.finite = false) (n : Nat) :
    ((stdFH f ddof).run n (first :: rest)).finite = false ∧ flStd f ddof col = .nan := by
  refine ⟨?_, by rw [flStd, flVar_nonfinite ddof col hn]; rfl⟩
  obtain ⟨x, xs, rfl, he⟩ := stdF_cut hcut hfirst
  have hq : (xs.foldl welfordFStep (⟨1, x, 0⟩ : StdState (Fl α))).q.finite = false := by
    rw [welfordF_fold_finite xs _ (by simp)]
    have hxs : xs.isEmpty = false := by cases xs <;> simp_all
    obtain ⟨y, hy, hf⟩ := hn
    rw [hxs]
    rcases List.mem_cons.mp hy with rfl | hy
    · simp [hf]
    · have : xs.all Fl.finite = false := Bool.eq_false_iff.mpr (fun h => by rw [List.all_eq_true.mp h y hy] at hf; cases hf)
      simp [this]
  refine Bool.eq_false_iff.mpr (fun h => ?_)
  have h : (((((first :: rest).foldl stdFStep (⟨1, 0, 0⟩ : StdState (Fl α))).q).divNum
    ((((first :: rest).foldl stdFStep (⟨1, 0, 0⟩ : StdState (Fl α))).k : α) - (ddof : α))).sqrt f).finite = true := h
  have h' := Fl.finite_sqrt f _ h
  rw [he] at h'
  rcases (Fl.not_finite_iff _).mp hq with e | ⟨s, e⟩ <;> rw [e] at h' <;> cases h'

/-- C79, exactly, for a column whose first value that is not finite is an infinity, without NaN (NumPy's `std` is NaN): the code gives NaN if at least two
values follow the infinity, or one value that is the same infinity; otherwise it gives infinity. -/
theorem C79_std_inf_exact [IsStrictOrderedRing α] (f : α → α) (ddof : Int) (pre : List α) (s : Bool) (post : List (Fl α)) (first : List (Fl α))
    (rest : List (List (Fl α))) (hcut : CutOf (pre.map .num ++ .inf s :: post) (first :: rest)) (hfirst : 2 ≤ first.length ∨ (rest = [] ∧ first ≠ []))
    (h2 : 2 ≤ (pre.map Fl.num ++ .inf s :: post).length) (hd : ddof ≤ (pre.map Fl.num ++ .inf s :: post).length) (hn : Fl.nan ∉ post) (n : Nat) :
    (stdFH f ddof).run n (first :: rest) = if 2 ≤ post.length ∨ post = [.inf s] then .nan else .inf false := by
  obtain ⟨x, xs, hcol, he⟩ := stdF_cut hcut hfirst
  have hlen : (xs.foldl welfordFStep (⟨1, x, 0⟩ : StdState (Fl α))).k = (pre.map Fl.num ++ .inf s :: post).length := by
    rw [welfordF_k, hcol, List.length_cons]; exact Nat.add_comm _ _
  have hfin : ∀ q : Fl α, (xs.foldl welfordFStep (⟨1, x, 0⟩ : StdState (Fl α))).q = q → (q = .nan ∨ q = .inf false) →
      (stdFH f ddof).run n (first :: rest) = q := by
    intro q hq hc
    show ((((first :: rest).foldl stdFStep (⟨1, 0, 0⟩ : StdState (Fl α))).q).divNum
      ((((first :: rest).foldl stdFStep (⟨1, 0, 0⟩ : StdState (Fl α))).k : α) - (ddof : α))).sqrt f = _
    rw [he, hq, hlen]
    have hd' : (ddof : α) ≤ ((pre.map Fl.num ++ .inf s :: post).length : α) := by exact_mod_cast (Int.cast_le (R := α)).mpr hd
    rcases hc with rfl | rfl
    · rfl
    · simp only [Fl.divNum]
      rw [decide_eq_false (not_lt.mpr (sub_nonneg.mpr hd'))]
      rfl
  -- after the infinity
  have hafter : ∀ st : StdState (Fl α), st.k ≠ 0 → st.a = .inf s → ((∃ q, st.q = .num q) ∨ st.q = .inf false) → post ≠ [] →
      (post.foldl welfordFStep st).q = if 2 ≤ post.length ∨ post = [.inf s] then .nan else .inf false := by
    intro st hk ha hq hne
    rw [welfordF_after_inf s post st hk ha hq hne hn]
    have hpos := List.length_pos_iff.mpr hne
    by_cases h1 : post.length = 1
    · by_cases h3 : post = [.inf s]
      · rw [if_neg (fun h => h.2 h3), if_pos (Or.inr h3)]
      · rw [if_pos ⟨h1, h3⟩, if_neg (by rintro (h | h) <;> [omega; exact h3 h])]
    · rw [if_neg (fun h => h1 h.1), if_pos (Or.inl (by omega))]
  cases pre with
  | nil =>
    rw [List.map_nil, List.nil_append, List.cons.injEq] at hcol
    obtain ⟨rfl, rfl⟩ := hcol
    have hne : post ≠ [] := by rintro rfl; simp at h2
    refine hfin _ (hafter _ (by simp) rfl (Or.inl ⟨0, rfl⟩) hne) ?_
    split <;> simp
  | cons p ps =>
    rw [List.map_cons, List.cons_append, List.cons.injEq] at hcol
    obtain ⟨rfl, rfl⟩ := hcol
    have hlift : ∀ (l : List α) (t : StdState α), (l.map Fl.num).foldl welfordFStep (liftState t) = liftState (l.foldl welfordStep t) := by
      intro l
      induction l with
      | nil => intro t; rfl
      | cons y l ih => intro t; rw [List.map_cons, List.foldl_cons, welfordF_lift, ih, List.foldl_cons]
    have hst : (ps.map Fl.num ++ .inf s :: post).foldl welfordFStep (⟨1, .num p, 0⟩ : StdState (Fl α)) =
        post.foldl welfordFStep (welfordFStep (liftState (ps.foldl welfordStep ⟨1, p, 0⟩)) (.inf s)) := by
      rw [List.foldl_append, List.foldl_cons]
      exact congrArg (fun z => post.foldl welfordFStep (welfordFStep z (.inf s))) (hlift ps ⟨1, p, 0⟩)
    have hk : (ps.foldl welfordStep (⟨1, p, 0⟩ : StdState α)).k ≠ 0 := by
      have : ∀ (l : List α) (t : StdState α), t.k ≠ 0 → (l.foldl welfordStep t).k ≠ 0 := by
        intro l
        induction l with
        | nil => intro t h; exact h
        | cons y l ih => intro t _; exact ih _ (by simp [welfordStep])
      exact this ps _ (by simp)
    obtain ⟨m1, m2⟩ := welfordF_meets_inf _ hk s
    by_cases hne : post = []
    · subst hne
      refine hfin _ ?_ ?_
      · rw [hst, List.foldl_nil, m2]; simp
      · simp
    · refine hfin _ ?_ ?_
      · rw [hst]
        exact hafter _ (by simp [welfordFStep]) m1 (Or.inr m2) hne
      · split <;> simp

/-! ### Where the code differs from NumPy -/

/-- C79 fails of the code for `std` of a column with an infinity: infinity for `[1, inf]`, `[1, inf, 2]` and `[inf, -inf]`, where NumPy gives NaN; and for a single
value: 0 for `[inf]` and `[nan]`, where NumPy gives NaN. -/
theorem C79_std_wrong :
    (stdFH (id : ℚ → ℚ) 0).run 2 [[.num 1, .inf false]] = .inf false ∧ flStd (id : ℚ → ℚ) 0 [.num 1, .inf false] = .nan ∧
    (stdFH (id : ℚ → ℚ) 0).run 3 [[.num 1, .inf false], [.num 2]] = .inf false ∧ flStd (id : ℚ → ℚ) 0 [.num 1, .inf false, .num 2] = .nan ∧
    (stdFH (id : ℚ → ℚ) 0).run 2 [[.inf false, .inf true]] = .inf false ∧ flStd (id : ℚ → ℚ) 0 [.inf false, .inf true] = .nan ∧
    (stdFH (id : ℚ → ℚ) 0).run 1 [[.inf false]] = .num 0 ∧ flStd (id : ℚ → ℚ) 0 [.inf false] = .nan ∧
    (stdFH (id : ℚ → ℚ) 0).run 1 [[.nan]] = .num 0 ∧ flStd (id : ℚ → ℚ) 0 [.nan] = .nan := by
  decide +kernel

/-! ### Arrays -/

/-- What C79 claims of an aggregate `v` of a whole column. -/
def IsFlAgg (f : α → α) : AggKind (Fl α) → List (Fl α) → Fl α → Prop
  | .count, col, v => v = .num col.length
  | .sum, col, v => v = flSum col
  | .mean _, col, v => v = flMean col
  | .min, col, v => IsFlMin col v
  | .max, col, v => IsFlMax col v
  | .std d, col, v => (col.all Fl.finite = true → d ≤ col.length → v = flStd f d col) ∧ (2 ≤ col.length → Fl.nan ∈ col → v = .nan) ∧
      (2 ≤ col.length → (∃ x ∈ col, x.finite = false) → v.finite = false)
  | .var d, col, v => (col.all Fl.finite = true → d ≤ col.length → v = flVar d col) ∧ (2 ≤ col.length → Fl.nan ∈ col → v = .nan)

theorem countH_lawfulF : (countH : Handler (Fl α)).Lawful :=
  lawful_of_spec (fun _ col => .num (col.length : α)) (fun n chunks _ _ => C79_count _ chunks rfl n)

theorem meanFH_lawful : (meanFH : Handler (Fl α)).Lawful :=
  lawful_of_spec (fun n col => (flSum col).divNum (n : α)) (fun n chunks _ _ => by
    have := C79_sum chunks.flatten chunks rfl n
    simp only [Handler.run, sumH] at this
    simp only [Handler.run, meanFH, this])

variable [Inhabited α] {limit : Nat}

/-- C79 for arrays: `count`, `sum` and `mean` over an axis of any float expression of the grammar, evaluated through chunks of at most `limit` elements, directly
or by the engine. -/
theorem C79_count_sum_mean_arrays (f : α → α) (cast : Nat → Fl α → Fl α) (fwd : Bool) (a : Arr (Fl α)) (x : NDA (Fl α)) (axis : Nat) (k : AggKind (Fl α))
    (hk : k = .count ∨ k = .sum ∨ ∃ t, k = .mean t) (hb : a.Built (floatMode f cast) limit fwd false .sliced)
    (hx : a.Yields (floatMode f cast) limit x) (hax : axis < x.shape.length) (hne : x.shape.getD axis 0 ≠ 0) :
    ∃ r, (Arr.agg a axis k).Yields (floatMode f cast) limit r ∧ (Arr.agg a axis k).EngineReturns (floatMode f cast) limit r ∧
      AggregateOf (IsFlAgg f k) x axis r := by
  refine aggregation_array (m := floatMode f cast) (IsFlAgg f k) fwd a x axis k hb hx hax hne (Or.inl ?_) ?_
  · rcases hk with rfl | rfl | ⟨t, rfl⟩
    · exact countH_lawfulF
    · exact sumH_lawful
    · exact meanFH_lawful
  · intro col _
    rcases hk with rfl | rfl | ⟨t, rfl⟩
    · exact C79_count col [col] (by simp [CutOf]) _
    · exact C79_sum col [col] (by simp [CutOf]) _
    · exact C79_mean col [col] (by simp [CutOf])

/-- C79 for arrays read in one chunk: all aggregations. -/
theorem C79_one_chunk_arrays [IsStrictOrderedRing α] (f : α → α) (hf : ∀ x, 0 ≤ x → f x * f x = x) (cast : Nat → Fl α → Fl α) (fwd : Bool)
    (a : Arr (Fl α)) (x : NDA (Fl α)) (axis : Nat) (k : AggKind (Fl α)) (hb : a.Built (floatMode f cast) limit fwd false .sliced)
    (hx : a.Yields (floatMode f cast) limit x) (hax : axis < x.shape.length) (hne : x.shape.getD axis 0 ≠ 0) (hfit : x.shape.getD axis 0 = 1 ∨ a.skel.holds limit (x.shape.getD axis 0) axis) :
    ∃ r, (Arr.agg a axis k).Yields (floatMode f cast) limit r ∧ (Arr.agg a axis k).EngineReturns (floatMode f cast) limit r ∧
      AggregateOf (IsFlAgg f k) x axis r := by
  refine aggregation_array (m := floatMode f cast) (IsFlAgg f k) fwd a x axis k hb hx hax hne (cutSafe_of_uncut hx.1 hfit) ?_
  intro col hcol
  have hc : CutOf col [col] := by simp [CutOf]
  have hnum : col.all Fl.finite = true → ∃ l : List α, col = l.map .num := by
    intro h
    refine ⟨finites col, ?_⟩
    clear hcol hc
    induction col with
    | nil => rfl
    | cons y col ih =>
      rw [List.all_cons, Bool.and_eq_true] at h
      obtain ⟨z, rfl⟩ := (Fl.finite_iff _).mp h.1
      rw [finites_num, List.map_cons, ← ih h.2]
  have hone : ∀ l : List α, l.map Fl.num ≠ [] → l ≠ [] := by rintro l h rfl; exact h rfl
  cases k with
  | count => exact C79_count col [col] hc _
  | min => exact (C79_min_max_of_last_chunk [] col hcol _).1
  | max => exact (C79_min_max_of_last_chunk [] col hcol _).2
  | sum => exact C79_sum col [col] hc _
  | mean t => exact C79_mean col [col] hc
  | std d =>
    refine ⟨fun hfin hd => ?_, fun h2 hn => (C79_std_nan f d col col [] hc (Or.inr ⟨rfl, hcol⟩) h2 hn _).1,
      fun h2 hn => (C79_std_not_finite f d col col [] hc (Or.inr ⟨rfl, hcol⟩) h2 hn _).1⟩
    obtain ⟨l, rfl⟩ := hnum hfin
    have := (C79_std_finite f hf d l l [] (by simp [CutOf]) (Or.inr ⟨rfl, hone l hcol⟩) (by simpa using hd)).1
    rw [← List.length_map (as := l) (f := Fl.num)] at this
    exact this
  | var d =>
    refine ⟨fun hfin hd => ?_, fun h2 hn => (C79_std_nan f d col col [] hc (Or.inr ⟨rfl, hcol⟩) h2 hn _).2.1⟩
    obtain ⟨l, rfl⟩ := hnum hfin
    have := (C79_std_finite f hf d l l [] (by simp [CutOf]) (Or.inr ⟨rfl, hone l hcol⟩) (by simpa using hd)).2.1
    rw [← List.length_map (as := l) (f := Fl.num)] at this
    exact this

/-! ### The hypotheses are met -/

/-- `[[0, nan, 2], [3, inf, 5]]`. -/
def exFloats : Concrete (Fl ℚ) :=
  ⟨⟨[2, 3], fun idx => some (if idx = [0, 1] then .nan else if idx = [1, 1] then .inf false else .num (flatIndex [2, 3] idx : Nat))⟩, .num 0, 0⟩

def exFloatMode : Mode (Fl ℚ) (Fl ℚ) := floatMode id (fun _ x => x)

example : (Arr.adapter false exFloats []).Built exFloatMode 2 true false .sliced :=
  .source _ _ _ _ (fun _ _ => rfl) (by simp)

/-- Evaluated in chunks of at most two elements. -/
example : Res.view ((Arr.agg (.adapter false exFloats []) 1 (.mean (.num 1))).eval exFloatMode 2 2) = .ok ([2], [.nan, .inf false]) ∧
    Res.view ((Arr.agg (.adapter false exFloats []) 0 .sum).eval exFloatMode 2 2) = .ok ([3], [.num 3, .nan, .num 7]) ∧
    Res.view ((Arr.agg (.adapter false exFloats []) 0 .max).eval exFloatMode 100 2) = .ok ([3], [.num 3, .nan, .num 5]) ∧
    Res.view ((Arr.agg (.adapter false exFloats []) 1 (.std 0)).eval exFloatMode 100 2) = .ok ([2], [.nan, .inf false]) := by
  decide +kernel

end Biggus

import Verif.Proofs.Handlers
import Mathlib.Algebra.Order.Ring.Rat
import Mathlib.Algebra.Order.BigOperators.Group.List
/-
PROPERTIES C20-C23: aggregation of a column of values cut into chunks.

Everywhere `CutOf col chunks` says: `chunks` are consecutive pieces which joined give the column `col`
(the values of the source along the aggregated axis, above one output element).  The handler never sees
`col`, only its pieces; the theorems say the answer is the textbook aggregate of `col`.
-/
namespace Biggus
open Spec

section plain
variable {α : Type}

/-- C20: `sum` of a column is the sum of all its values however the column is cut into chunks. -/
theorem C20_sum_of_any_chunking [AddCommMonoid α] (col : List α) (chunks : List (List α))
    (h : CutOf col chunks) (n : Nat) : sumH.run n chunks = col.sum := by
  rw [← h]
  have := foldl_add_map (V := α) List.sum rfl (fun a b => List.sum_append) (0 : α) chunks
  simp only [Handler.run, sumH]
  rw [this, zero_add]

/-- C20: `count` of a column is its length however it is cut. -/
theorem C20_count_of_any_chunking [AddMonoidWithOne α] (col : List α) (chunks : List (List α))
    (h : CutOf col chunks) (n : Nat) : countH.run n chunks = (col.length : α) := by
  rw [← h]
  have := foldl_add_map (V := α) List.length rfl (fun a b => List.length_append) (0 : Nat) chunks
  simp only [Handler.run, countH]
  rw [this, zero_add]

/-- C20: `mean` of a column is (sum of the values) / (number of values) however it is cut. -/
theorem C20_mean_of_any_chunking [Field α] (col : List α) (chunks : List (List α))
    (h : CutOf col chunks) : meanH.run col.length chunks = mean col := by
  have := C20_sum_of_any_chunking col chunks h col.length
  simp only [Handler.run, sumH] at this
  simp only [Handler.run, meanH, mean, this]

/-- C20: sum, count and mean do not depend on the chunking. -/
theorem C20_chunking_independence [Field α] (col : List α) (c₁ c₂ : List (List α))
    (h₁ : CutOf col c₁) (h₂ : CutOf col c₂) :
    sumH.run col.length c₁ = sumH.run col.length c₂ ∧
    (countH : Handler α).run col.length c₁ = countH.run col.length c₂ ∧
    meanH.run col.length c₁ = meanH.run col.length c₂ :=
  ⟨by rw [C20_sum_of_any_chunking col c₁ h₁, C20_sum_of_any_chunking col c₂ h₂],
   by rw [C20_count_of_any_chunking col c₁ h₁, C20_count_of_any_chunking col c₂ h₂],
   by rw [C20_mean_of_any_chunking col c₁ h₁, C20_mean_of_any_chunking col c₂ h₂]⟩

example : CutOf [(1 : ℚ), 2, 3, 6] [[1], [2, 3], [], [6]] := rfl
example : meanH.run 4 [[(1 : ℚ)], [2, 3], [], [6]] = 3 := by
  rw [show (4 : Nat) = [(1 : ℚ), 2, 3, 6].length from rfl,
    C20_mean_of_any_chunking [(1 : ℚ), 2, 3, 6] [[1], [2, 3], [], [6]] rfl]
  norm_num [mean]

/-- C22, what the code does: the result of `min` is the minimum of the *last* chunk only. -/
theorem C22_min_is_min_of_last_chunk [Zero α] [LinearOrder α] (chunks : List (List α)) (last : List α)
    (hne : last ≠ []) (n : Nat) : IsMin last (minH.run n (chunks ++ [last])) := by
  match last, hne with
  | x :: xs, _ =>
    simp only [Handler.run, minH, List.foldl_append, List.foldl_cons, List.foldl_nil]
    exact foldl_min_isMin xs x

/-- C22, what the code does: the result of `max` is the maximum of the *last* chunk only. -/
theorem C22_max_is_max_of_last_chunk [Zero α] [LinearOrder α] (chunks : List (List α)) (last : List α)
    (hne : last ≠ []) (n : Nat) : IsMax last (maxH.run n (chunks ++ [last])) := by
  match last, hne with
  | x :: xs, _ =>
    simp only [Handler.run, maxH, List.foldl_append, List.foldl_cons, List.foldl_nil]
    exact foldl_max_isMax xs x

/-- C22 (partial): when the whole column is in one chunk, `min`/`max` is the least/greatest value of the
column.  Missing: columns cut into several chunks, for which the claim is false
(`C22_min_wrong_for_two_chunks`). -/
theorem C22_single_chunk_partial [Zero α] [LinearOrder α] (col : List α) (hne : col ≠ []) (n : Nat) :
    IsMin col (minH.run n [col]) ∧ IsMax col (maxH.run n [col]) :=
  ⟨C22_min_is_min_of_last_chunk [] col hne n, C22_max_is_max_of_last_chunk [] col hne n⟩

/-- C22: exact condition.  For a column cut into chunks (the last one non-empty) `min` is right if and only
if the least value of the column occurs in the last chunk. -/
theorem C22_min_right_iff [Zero α] [LinearOrder α] (col : List α) (chunks : List (List α)) (last : List α)
    (hcut : CutOf col (chunks ++ [last])) (hne : last ≠ []) (n : Nat) :
    IsMin col (minH.run n (chunks ++ [last])) ↔ ∃ m ∈ last, IsMin col m := by
  have hmin := C22_min_is_min_of_last_chunk chunks last hne n
  have hsub : ∀ x ∈ last, x ∈ col := by
    intro x hx; rw [← hcut]; simp [hx]
  constructor
  · intro h; exact ⟨_, hmin.1, h⟩
  · rintro ⟨m, hm, hmc⟩
    refine ⟨hsub _ hmin.1, fun x hx => le_trans (hmin.2 m hm) (hmc.2 x hx)⟩

/-- C22 fails of the code: there is a column and a cutting for which `min` is not the minimum and
likewise for `max`. -/
theorem C22_min_wrong_for_two_chunks :
    (∃ (col : List ℤ) (chunks : List (List ℤ)), CutOf col chunks ∧ (∀ c ∈ chunks, c ≠ []) ∧
      ¬ IsMin col (minH.run col.length chunks)) ∧
    (∃ (col : List ℤ) (chunks : List (List ℤ)), CutOf col chunks ∧ (∀ c ∈ chunks, c ≠ []) ∧
      ¬ IsMax col (maxH.run col.length chunks)) := by
  refine ⟨⟨[1, 2], [[1], [2]], rfl, by simp, fun h => ?_⟩, ⟨[2, 1], [[2], [1]], rfl, by simp, fun h => ?_⟩⟩
  · have := h.2 1 (by simp); revert this; decide
  · have := h.2 2 (by simp); revert this; decide

/-- C23 (partial): standard deviation and variance of unmasked data are the two-pass values whenever the
first chunk holds at least two values, or the whole column is one chunk.
Missing: a first chunk of exactly one value followed by others, where the code is wrong
(`C23_std_wrong_for_singleton_first_chunk`; exact behaviour in `C23_std_drops_leading_singletons`). -/
theorem C23_std_var_partial [Field α] [CharZero α] (sqrt : α → α) (ddof : Int) (col first : List α)
    (rest : List (List α)) (hcut : CutOf col (first :: rest))
    (hfirst : 2 ≤ first.length ∨ (rest = [] ∧ first ≠ [])) :
    (stdH sqrt ddof).run col.length (first :: rest) = sqrt (var ddof col) ∧
    (varH sqrt ddof).run col.length (first :: rest) = sqrt (var ddof col) * sqrt (var ddof col) := by
  have key : WInv ((first :: rest).foldl stdStep (⟨1, 0, 0⟩ : StdState α)) col := by
    rw [← hcut]
    match first, hfirst with
    | [], h => simp at h
    | x :: xs, h =>
      have h1 := std_step_first (⟨1, 0, 0⟩ : StdState α) rfl rfl x xs
      rcases h with h | ⟨h, _⟩
      · have hk : (stdStep (⟨1, 0, 0⟩ : StdState α) (x :: xs)).k ≠ 1 := by
          rw [h1.1]; simp at h ⊢; intro h'; simp [h'] at h
        exact std_steps_rest rest _ _ h1 hk
      · subst h; simpa using h1
  have h1 : (stdH sqrt ddof).run col.length (first :: rest) = sqrt (var ddof col) :=
    std_fin sqrt ddof col.length _ col key
  refine ⟨h1, ?_⟩
  show (stdH sqrt ddof).run col.length (first :: rest) * (stdH sqrt ddof).run col.length (first :: rest) = _
  rw [h1]

/-- C23: `var` of the code is the square of `std`, so it is the two-pass variance when `sqrt` is a square
root. -/
theorem C23_var_value_partial [Field α] [LinearOrder α] [IsStrictOrderedRing α] (sqrt : α → α)
    (hsqrt : ∀ x, 0 ≤ x → sqrt x * sqrt x = x) (ddof : Int) (col first : List α)
    (rest : List (List α)) (hcut : CutOf col (first :: rest))
    (hfirst : 2 ≤ first.length ∨ (rest = [] ∧ first ≠ [])) (hddof : ddof ≤ col.length) :
    (varH sqrt ddof).run col.length (first :: rest) = var ddof col := by
  rw [(C23_std_var_partial sqrt ddof col first rest hcut hfirst).2]
  apply hsqrt
  unfold var
  apply div_nonneg
  · unfold ssd
    apply List.sum_nonneg
    intro y hy
    obtain ⟨x, _, rfl⟩ := List.mem_map.mp hy
    exact mul_self_nonneg _
  · rw [sub_nonneg]; exact_mod_cast hddof

/-- C23, what the code does otherwise: leading one-value chunks are forgotten.  The result is the standard
deviation of the column *without* them. -/
theorem C23_std_drops_leading_singletons [Field α] [CharZero α] (sqrt : α → α) (ddof : Int) (n : Nat)
    (singles : List (List α)) (hs : ∀ c ∈ singles, c.length = 1) (first : List α) (rest : List (List α))
    (hfirst : 2 ≤ first.length) :
    (stdH sqrt ddof).run n (singles ++ first :: rest) = sqrt (var ddof (first :: rest).flatten) := by
  have hsing := std_singletons singles hs (⟨1, 0, 0⟩ : StdState α) rfl rfl
  apply std_fin
  show WInv ((singles ++ first :: rest).foldl stdStep (⟨1, 0, 0⟩ : StdState α)) _
  rw [List.foldl_append]
  match first, hfirst with
  | x :: xs, h =>
    have h1 := std_step_first _ hsing.1 hsing.2 x xs
    have hk : (stdStep (singles.foldl stdStep (⟨1, 0, 0⟩ : StdState α)) (x :: xs)).k ≠ 1 := by
      rw [h1.1]; simp at h ⊢; intro h'; simp [h'] at h
    exact std_steps_rest rest _ _ h1 hk

/-- C23 fails of the code for unmasked data whose first chunk has one value: here the two-pass variance of
`[0, 2]` is 1, the handler (with `sqrt` the identity, so that the values stay rational) returns 0. -/
theorem C23_std_wrong_for_singleton_first_chunk :
    ∃ (col : List ℚ) (chunks : List (List ℚ)), CutOf col chunks ∧ (∀ c ∈ chunks, c ≠ []) ∧
      (stdH id 0).run col.length chunks ≠ id (var 0 col) := by
  refine ⟨[0, 2], [[0], [2]], rfl, by simp, ?_⟩
  show (id (((([[(0 : ℚ)], [2]].foldl stdStep ⟨1, 0, 0⟩).q) / _)) : ℚ) ≠ _
  norm_num [stdStep, var, ssd, mean, welfordStep]

example : (stdH (id : ℚ → ℚ) 1).run 3 [[1, 2], [6]] = 7 := by
  have := (C23_std_var_partial (id : ℚ → ℚ) 1 [1, 2, 6] [1, 2] [[6]] rfl (by simp)).1
  rw [show (3 : Nat) = [(1 : ℚ), 2, 6].length from rfl, this]
  norm_num [var, ssd, mean]

end plain

section masked
variable {α : Type}

theorem valid_append (a b : List (Option α)) : valid (a ++ b) = valid a ++ valid b := by
  simp [valid]

/-- C21 (masked mode, `none` = masked): `count` is the number of unmasked values however the column is cut. -/
theorem C21_masked_count [AddMonoidWithOne α] (col : List (Option α)) (chunks : List (List (Option α)))
    (h : CutOf col chunks) (n : Nat) : (countMH : Handler (Option α)).run n chunks = some ((valid col).length : α) := by
  rw [← h]
  have := foldl_add_map (V := Option α) (fun l => (unmasked l).length) rfl
    (fun a b => by simp [unmasked]) (0 : Nat) chunks
  simp only [Handler.run, countMH]
  rw [this, zero_add]; rfl

theorem sum_getD_zero [AddCommMonoid α] (col : List (Option α)) :
    (col.map (·.getD 0)).sum = (valid col).sum := by
  induction col with
  | nil => rfl
  | cons v col ih => cases v <;> simp_all [valid]

theorem all_isNone_iff (col : List (Option α)) : col.all Option.isNone = true ↔ valid col = [] := by
  induction col with
  | nil => simp [valid]
  | cons v col ih => cases v <;> simp_all [valid]

/-- C21 (partial; data carrying a mask array): `sum` is masked if no value is unmasked, and otherwise the sum
of the unmasked values, however the column is cut.
Missing: masked data stored with NumPy's `nomask`, for which the code raises if the axis is not 0
(`C21_nomask_sum_raises`). -/
theorem C21_masked_sum_partial [AddCommMonoid α] (col : List (Option α)) (chunks : List (List (Option α)))
    (h : CutOf col chunks) (n : Nat) :
    sumMH.run n chunks = if valid col = [] then none else some (valid col).sum := by
  have hst : ∀ (L : List (List (Option α))) (b : Bool) (s : α),
      L.foldl (fun (s : Bool × α) col => (s.1 && col.all Option.isNone, s.2 + (col.map (·.getD 0)).sum)) (b, s)
        = (b && L.flatten.all Option.isNone, s + (valid L.flatten).sum) := by
    intro L
    induction L with
    | nil => intro b s; simp [valid]
    | cons c L ih =>
      intro b s
      rw [List.foldl_cons, ih]
      simp only [List.flatten_cons, List.all_append, valid_append, List.sum_append, sum_getD_zero,
        Bool.and_assoc, add_assoc]
  simp only [Handler.run, sumMH, hst, Bool.true_and, zero_add]
  rw [h]
  by_cases hv : valid col = []
  · rw [if_pos hv, if_pos ((all_isNone_iff col).mpr hv)]
  · rw [if_neg hv, if_neg (fun hh => hv ((all_isNone_iff col).mp hh))]

/-- C21 fails of the code for masked data without a mask array (`nomask`): `np.all(data.mask, axis)` raises
for every axis but 0. -/
theorem C21_nomask_sum_raises (axis : Nat) :
    sumMaskedChunkMask .nomask axis = .error .value ↔ axis ≠ 0 := by
  by_cases h : axis = 0 <;> simp [sumMaskedChunkMask, h]

/-- C21, the `mdtol` rule: the mean of the unmasked values; masked if there is none, or if `mdtol < 1` and
the fraction of masked values exceeds `mdtol`. -/
theorem C21_masked_mean [Field α] [LinearOrder α] (mdtol : α)
    (col : List (Option α)) (chunks : List (List (Option α))) (h : CutOf col chunks) (n : Nat) :
    (meanMH mdtol).run n chunks =
      if valid col = [] ∨ (mdtol < 1 ∧ mdtol < ((col.length - (valid col).length : Nat) : α) / (col.length : α))
      then none else some (mean (valid col)) := by
  have hcount : ∀ l : List (Option α), l.countP Option.isNone + (valid l).length = l.length := by
    intro l
    induction l with
    | nil => rfl
    | cons v l ih => cases v <;> simp_all [valid] <;> omega
  have hst : ∀ (L : List (List (Option α))) (s : MeanState α),
      L.foldl meanMStep s = ⟨s.count + (valid L.flatten).length,
        s.maskedCount + L.flatten.countP Option.isNone, s.total + (valid L.flatten).sum⟩ := by
    intro L
    induction L with
    | nil => intro s; simp [valid]
    | cons c L ih =>
      intro s
      rw [List.foldl_cons, ih]
      simp only [meanMStep, List.flatten_cons, List.countP_append, valid_append, List.sum_append,
        List.length_append, add_assoc]
      rfl
  have hrun : (meanMH mdtol).run n chunks = meanMFin mdtol
      ⟨(valid col).length, col.countP Option.isNone, (valid col).sum⟩ := by
    show meanMFin mdtol (chunks.foldl meanMStep ⟨0, 0, 0⟩) = _
    rw [hst, h]
    simp
  rw [hrun]
  have hc : col.countP Option.isNone = col.length - (valid col).length := by have := hcount col; omega
  have hc' : col.length - (valid col).length + (valid col).length = col.length := by
    have := hcount col; omega
  simp only [meanMFin, hc, hc']
  by_cases hv : valid col = []
  · simp [hv]
  · have hlen : (valid col).length ≠ 0 := by simpa using hv
    have hl : col.length ≠ 0 := by have := hcount col; omega
    simp [hv, hlen, hl, mean]

example : (meanMH (1/2 : ℚ)).run 4 [[some 1, none], [some 3], [none]] = some 2 := by
  rw [C21_masked_mean (1/2 : ℚ) [some 1, none, some 3, none] [[some 1, none], [some 3], [none]] rfl,
    show valid [some (1 : ℚ), none, some 3, none] = [1, 3] from rfl]
  norm_num [mean]
  intro h; cases h
example : (meanMH (1/4 : ℚ)).run 4 [[some 1, none], [some 3], [none]] = none := by
  rw [C21_masked_mean (1/4 : ℚ) [some 1, none, some 3, none] [[some 1, none], [some 3], [none]] rfl,
    show valid [some (1 : ℚ), none, some 3, none] = [1, 3] from rfl]
  norm_num [mean]
example : (sumMH : Handler (Option ℚ)).run 4 [[some 1, none], [some 3], [none]] = some 4 := by
  rw [C21_masked_sum_partial [some 1, none, some 3, none] [[some 1, none], [some 3], [none]] rfl,
    show valid [some (1 : ℚ), none, some 3, none] = [1, 3] from rfl]
  norm_num
  intro h; cases h

/-- C22 (masked), what the code does: the result is the masked minimum of the last chunk only. -/
theorem C22_masked_min_is_min_of_last_chunk [Zero α] [LinearOrder α] (chunks : List (List (Option α)))
    (last : List (Option α)) (n : Nat) :
    match minMH.run n (chunks ++ [last]) with
    | none => valid last = []
    | some m => IsMin (valid last) m := by
  simp only [Handler.run, minMH, List.foldl_append, List.foldl_cons, List.foldl_nil, reduceMasked]
  show match (match valid last with | [] => none | x :: xs => some (xs.foldl min x)) with
    | none => _ | some m => _
  match hv : valid last with
  | [] => simp
  | x :: xs => exact foldl_min_isMin xs x

/-- C22 (masked), what the code does: the result is the masked maximum of the last chunk only. -/
theorem C22_masked_max_is_max_of_last_chunk [Zero α] [LinearOrder α] (chunks : List (List (Option α)))
    (last : List (Option α)) (n : Nat) :
    match maxMH.run n (chunks ++ [last]) with
    | none => valid last = []
    | some m => IsMax (valid last) m := by
  simp only [Handler.run, maxMH, List.foldl_append, List.foldl_cons, List.foldl_nil, reduceMasked]
  show match (match valid last with | [] => none | x :: xs => some (xs.foldl max x)) with
    | none => _ | some m => _
  match hv : valid last with
  | [] => simp
  | x :: xs => exact foldl_max_isMax xs x

/-- C22 (masked) fails of the code: a last chunk that is entirely masked masks the result although
unmasked values exist. -/
theorem C22_masked_min_lost : ∃ (col : List (Option ℤ)) (chunks : List (List (Option ℤ))),
    CutOf col chunks ∧ valid col ≠ [] ∧ (∀ c ∈ chunks, c ≠ []) ∧ minMH.run col.length chunks = none :=
  ⟨[some 1, none], [[some 1], [none]], rfl, by decide, by simp, rfl⟩

/-- C23 (masked mode): for *every* chunking the standard deviation is the two-pass value of the unmasked
values; it is masked if there is none, if `number of values = ddof`, or if the quotient is negative. -/
theorem C23_masked_std [Field α] [LinearOrder α] [CharZero α] (sqrt : α → α) (ddof : Int)
    (col : List (Option α)) (chunks : List (List (Option α))) (h : CutOf col chunks) (n : Nat) :
    (stdMH sqrt ddof).run n chunks =
      if valid col = [] ∨ ((valid col).length : α) - (ddof : α) = 0 ∨ var ddof (valid col) < 0 then none
      else some (sqrt (var ddof (valid col))) := by
  have hinv := stdM_run_state chunks
  rw [h] at hinv
  simp only [Handler.run, stdMH]
  rcases hinv with ⟨hv, hk, _⟩ | ⟨hv, hw⟩
  · rw [if_pos hk, if_pos (Or.inl hv)]
  · have hq := (WInv_ssd _ _ hw).2
    rw [if_neg hw.2.1, hw.1, hq]
    simp only [hv, false_or, var]
    split_ifs with h1 h2 h3 h3 h3 <;> first | rfl | (exfalso; tauto)

/-- C23 (masked mode), in an ordered field with a true square root and `ddof` below the number of unmasked
values: variance and standard deviation are exactly the textbook ones. -/
theorem C23_masked_var [Field α] [LinearOrder α] [IsStrictOrderedRing α] (sqrt : α → α)
    (hsqrt : ∀ x, 0 ≤ x → sqrt x * sqrt x = x) (ddof : Int)
    (col : List (Option α)) (chunks : List (List (Option α))) (h : CutOf col chunks) (n : Nat)
    (hne : valid col ≠ []) (hddof : ddof < (valid col).length) :
    (stdMH sqrt ddof).run n chunks = some (sqrt (var ddof (valid col))) ∧
    (varMH sqrt ddof).run n chunks = some (var ddof (valid col)) := by
  have hpos : (0 : α) < ((valid col).length : α) - (ddof : α) := by
    rw [sub_pos]; exact_mod_cast hddof
  have hnn : 0 ≤ var ddof (valid col) := by
    unfold var
    apply div_nonneg _ hpos.le
    unfold ssd
    apply List.sum_nonneg
    intro y hy
    obtain ⟨x, _, rfl⟩ := List.mem_map.mp hy
    exact mul_self_nonneg _
  have h1 : (stdMH sqrt ddof).run n chunks = some (sqrt (var ddof (valid col))) := by
    rw [C23_masked_std sqrt ddof col chunks h n, if_neg]
    push Not
    exact ⟨hne, hpos.ne', hnn⟩
  refine ⟨h1, ?_⟩
  show ((stdMH sqrt ddof).run n chunks).map _ = _
  rw [h1]
  simp [hsqrt _ hnn]

example : (stdMH (id : ℚ → ℚ) 0).run 4 [[none], [some 0], [some 2, none]] = some 1 := by
  rw [C23_masked_std id 0 [none, some 0, some 2, none] [[none], [some 0], [some 2, none]] rfl,
    show valid [none, some (0 : ℚ), some 2, none] = [0, 2] from rfl]
  norm_num [var, ssd, mean]
  intro h; cases h

end masked
end Biggus

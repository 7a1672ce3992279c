import Verif.Props.Containers3
/-
C20 - C24 and C30 for whole arrays: aggregations and element-wise operations evaluated through chunks.

`AggregateOf isAgg x axis r`: `r` has the shape of `x` without `axis`, and `isAgg col (r[idx])` for the column `col` of `x`
along `axis` above `idx`.  `IsAgg sqrt k col v`: `v` is the textbook aggregate `k` of `col`.
-/
namespace Biggus
open Spec

section
variable {α V : Type} [Inhabited α] [Inhabited V] {m : Mode α V} {limit : Nat}

theorem column_length {β : Type} (x : NDA β) (axis : Nat) (idx : List Nat) : (x.column axis idx).length = x.shape.getD axis 0 := by
  simp [NDA.column]

theorem inB_insert_axis : ∀ {s : List Nat} {axis : Nat} {idx : List Nat} {j : Nat}, axis < s.length → InB (s.eraseIdx axis) idx →
    j < s.getD axis 0 → InB s (idx.insertIdx axis j)
  | [], _, _, _, h, _, _ => absurd h (by simp)
  | n :: s, 0, idx, j, _, h, hj => by
    simp only [List.eraseIdx_cons_zero] at h
    simp only [List.insertIdx_zero]
    exact ⟨by simpa using hj, h⟩
  | n :: s, axis + 1, idx, j, h, hi, hj => by
    simp only [List.eraseIdx_cons_succ] at hi
    cases idx with
    | nil => exact absurd hi (by simp [InB])
    | cons i idx =>
      simp only [List.insertIdx_succ_cons]
      exact ⟨hi.1, inB_insert_axis (by simpa using h) hi.2 (by simpa using hj)⟩

theorem aggregateOf_congr {isAgg : List V → V → Prop} {x y r : NDA V} {axis : Nat} (hax : axis < x.shape.length) (h : x ≈ₐ y)
    (hr : AggregateOf isAgg x axis r) : AggregateOf isAgg y axis r := by
  refine ⟨by rw [hr.1, h.1], fun idx hi => ?_⟩
  have e : x.column axis idx = y.column axis idx := by
    unfold NDA.column
    rw [← h.1]
    refine List.map_congr_left (fun j hj => h.2 _ ?_)
    rw [hr.1] at hi
    exact inB_insert_axis hax hi (List.mem_range.mp hj)
  rw [← e]
  exact hr.2 idx hi

/-- The common argument: if the aggregation of one whole column is right, so is the aggregated array. -/
theorem aggregation_array (isAgg : List V → V → Prop) (fwd : Bool) (a : Arr α) (x : NDA V) (axis : Nat) (k : AggKind α)
    (hb : a.Built m limit fwd false .sliced) (hx : a.Yields m limit x) (hax : axis < x.shape.length) (hne : x.shape.getD axis 0 ≠ 0)
    (hl : a.cutSafe limit axis (m.handler k))
    (hcol : ∀ col : List V, col ≠ [] → isAgg col ((m.handler k).run col.length [col])) :
    ∃ r, (Arr.agg a axis k).Yields m limit r ∧ (Arr.agg a axis k).EngineReturns m limit r ∧ AggregateOf isAgg x axis r := by
  obtain ⟨h1, h2, h3, h4⟩ := hb.fineS
  have hd : a.den m ≈ₐ x := (hx.2.den_eqv h1 (h2.mono m limit a .sliced .whole (Or.inr (Or.inr rfl)))).symm
  have hso : (Arr.agg a axis k).streamOk m limit := ⟨Or.inl (by rw [hx.1]; exact hne), hl, h3⟩
  have hwf : (Arr.agg a axis k).WF := ⟨h1, x.shape, hx.1, hax⟩
  refine ⟨(Arr.agg a axis k).den m, .of_den hwf ⟨hso, h2⟩, engineReturns_den hwf hso ⟨hso, h2⟩, ?_⟩
  refine aggregateOf_congr (by rw [hd.1]; exact hax) hd ⟨rfl, fun idx hi => ?_⟩
  have hlen := column_length (a.den m) axis idx
  have := hcol ((a.den m).column axis idx) (by
    intro e
    rw [e, hd.1] at hlen
    exact hne hlen.symm)
  rw [hlen] at this
  exact this

/-- C30.  Indexing an aggregation of an expression of the grammar any number of times with simple keys equals aggregating first
and indexing the result. -/
theorem C30_aggregation_indexing (fwd : Bool) (a : Arr α) (axis : Nat) (k : AggKind α) (y : NDA V)
    (hb : (Arr.agg a axis k).Built m limit fwd false .whole) (hy : (Arr.agg a axis k).Yields m limit y) (kss : List (List Key))
    (hh : SimpleHistory fwd kss y.shape) :
    ∃ b r, kss.foldlM (fun a ks => Arr.getitem a ks) (.agg a axis k) = .ok b ∧ indexAll y kss = .ok r ∧ b.Yields m limit r := by
  obtain ⟨h1, h2, _, h4⟩ := hb.fine
  obtain ⟨b, r, k1, k2, k3, _⟩ := C06_simple_keys fwd kss _ y h1 h2 h4 hy hh
  exact ⟨b, r, k1, k2, k3⟩

/-- C30, in one step for arbitrary keys that leave the source evaluable (index arrays and masks included): the guard is
about the source only, which gets `:` on the aggregated axis.  Partial: for a handler that depends on the chunking (min,
max, std) repeated indices are excluded, since they could make the source larger than one chunk. -/
theorem C30_aggregation_supported_keys_partial (a : Arr α) (axis : Nat) (k : AggKind α) (y r : NDA V) (ks fk : List Key)
    (hwf : (Arr.agg a axis k).WF) (hok : (Arr.agg a axis k).Ok m limit .whole) (hy : (Arr.agg a axis k).Yields m limit y)
    (hf : expandKeys ks y.shape.length = .ok fk)
    (hk : a.keysOk ((dropNew fk).take axis ++ [Key.full] ++ (dropNew fk).drop axis))
    (hc : a.clean m false .sliced ((dropNew fk).take axis ++ [Key.full] ++ (dropNew fk).drop axis))
    (hl : (m.handler k).Lawful ∨ ∀ x ∈ fk, x.distinct) (hr : npIndex y ks = .ok r) :
    ∃ b, (Arr.agg a axis k).getitem ks = .ok b ∧ b.Yields m limit r := by
  refine C06_supported_keys_partial _ y r ks hwf hok hy.2 ?_ ?_ hr
  · intro s fk' hs hfk'
    rw [hy.1] at hs
    cases hs
    rw [hf] at hfk'
    cases hfk'
    exact hk
  · intro fk' hfk'
    rw [hf] at hfk'
    cases hfk'
    exact ⟨hl, hc⟩

end

section
variable {α : Type} [Inhabited α] [Field α] [LinearOrder α] {limit : Nat}

/-- C20 for arrays.  `count`, `sum` and `mean` over an axis of any expression of the grammar, evaluated through chunks of at
most `limit` elements, give in every position the count, sum and mean of the whole column. -/
theorem C20_count_sum_mean_arrays (sqrt : α → α) (cast : Nat → α → α) (fwd : Bool) (a : Arr α) (x : NDA α) (axis : Nat) (k : AggKind α)
    (hk : k = .count ∨ k = .sum ∨ ∃ t, k = .mean t) (hb : a.Built (ndMode sqrt cast) limit fwd false .sliced)
    (hx : a.Yields (ndMode sqrt cast) limit x) (hax : axis < x.shape.length) (hne : x.shape.getD axis 0 ≠ 0) :
    ∃ r, (Arr.agg a axis k).Yields (ndMode sqrt cast) limit r ∧ (Arr.agg a axis k).EngineReturns (ndMode sqrt cast) limit r ∧
      AggregateOf (IsAgg sqrt k) x axis r := by
  refine aggregation_array (m := ndMode sqrt cast) (IsAgg sqrt k) fwd a x axis k hb hx hax hne (Or.inl ?_) ?_
  · rcases hk with rfl | rfl | ⟨t, rfl⟩
    · exact countH_lawful
    · exact sumH_lawful
    · exact meanH_lawful
  · intro col _
    rcases hk with rfl | rfl | ⟨t, rfl⟩
    · exact C20_count_of_any_chunking col [col] (by simp [CutOf]) _
    · exact C20_sum_of_any_chunking col [col] (by simp [CutOf]) _
    · exact C20_mean_of_any_chunking col [col] (by simp [CutOf])

/-- C21/C23 for arrays.  Masked `count`, `sum`, `mean` (with `mdtol`), `std` and `var` of any expression of the grammar, evaluated
through chunks. -/
theorem C21_C23_masked_arrays [IsStrictOrderedRing α] (sqrt : α → α) (hsqrt : ∀ x, 0 ≤ x → sqrt x * sqrt x = x)
    (cast : Nat → α → α) (fwd : Bool) (a : Arr α) (x : NDA (Option α)) (axis : Nat) (k : AggKind α) (hk : k ≠ .min ∧ k ≠ .max)
    (hb : a.Built (maMode sqrt cast) limit fwd false .sliced)
    (hx : a.Yields (maMode sqrt cast) limit x) (hax : axis < x.shape.length) (hne : x.shape.getD axis 0 ≠ 0) :
    ∃ r, (Arr.agg a axis k).Yields (maMode sqrt cast) limit r ∧ (Arr.agg a axis k).EngineReturns (maMode sqrt cast) limit r ∧
      AggregateOf (IsAggMasked sqrt k) x axis r := by
  refine aggregation_array (m := maMode sqrt cast) (IsAggMasked sqrt k) fwd a x axis k hb hx hax hne (Or.inl ?_) ?_
  · cases k with
    | count => exact countMH_lawful
    | min => exact absurd rfl hk.1
    | max => exact absurd rfl hk.2
    | sum => exact sumMH_lawful
    | mean t => exact meanMH_lawful t
    | std d => exact stdMH_lawful sqrt d
    | var d => exact varMH_lawful sqrt d
  · intro col _
    have hc : CutOf col [col] := by simp [CutOf]
    cases k with
    | count => exact C21_masked_count col [col] hc _
    | min => exact absurd rfl hk.1
    | max => exact absurd rfl hk.2
    | sum => exact C21_masked_sum_partial col [col] hc _
    | mean t => exact C21_masked_mean t col [col] hc _
    | std d => exact C23_masked_std sqrt d col [col] hc _
    | var d =>
      have h := C23_masked_std sqrt d col [col] hc col.length
      show ((stdMH sqrt d).run col.length [col]).map (fun s => s * s) = _
      rw [h]
      split
      · rename_i h'
        rfl
      · rename_i h'
        simp only [Option.map_some, Option.some.injEq]
        push Not at h'
        exact hsqrt _ h'.2.2

/-- C22/C23 for arrays, partial: every unmasked aggregation is right if the aggregated axis is not cut: it has one element, or all of it (together with the
dimensions to its right) fits into a chunk of at most `limit` elements.  The other dimensions may be cut in any way.  Missing: axes that are cut, for which min and
max, and std for single values, are wrong
(`C22_min_wrong_for_two_chunks`, `C23_std_wrong_for_singleton_first_chunk`, `C22_min_array_wrong`). -/
theorem C22_C23_one_chunk_arrays_partial [IsStrictOrderedRing α] (sqrt : α → α) (hsqrt : ∀ x, 0 ≤ x → sqrt x * sqrt x = x)
    (cast : Nat → α → α) (fwd : Bool) (a : Arr α) (x : NDA α) (axis : Nat) (k : AggKind α)
    (hb : a.Built (ndMode sqrt cast) limit fwd false .sliced) (hx : a.Yields (ndMode sqrt cast) limit x)
    (hax : axis < x.shape.length) (hne : x.shape.getD axis 0 ≠ 0) (hfit : x.shape.getD axis 0 = 1 ∨ a.skel.holds limit (x.shape.getD axis 0) axis) :
    ∃ r, (Arr.agg a axis k).Yields (ndMode sqrt cast) limit r ∧ (Arr.agg a axis k).EngineReturns (ndMode sqrt cast) limit r ∧
      AggregateOf (IsAgg sqrt k) x axis r := by
  refine aggregation_array (m := ndMode sqrt cast) (IsAgg sqrt k) fwd a x axis k hb hx hax hne (cutSafe_of_uncut hx.1 hfit) ?_
  intro col hcol
  have hc : CutOf col [col] := by simp [CutOf]
  cases k with
  | count => exact C20_count_of_any_chunking col [col] hc _
  | min => exact (C22_single_chunk_partial col hcol _).1
  | max => exact (C22_single_chunk_partial col hcol _).2
  | sum => exact C20_sum_of_any_chunking col [col] hc _
  | mean t => exact C20_mean_of_any_chunking col [col] hc
  | std d => exact (C23_std_var_partial sqrt d col col [] hc (Or.inr ⟨rfl, hcol⟩)).1
  | var d =>
    intro h0
    rw [show (ndMode sqrt cast).handler (.var d) = varH sqrt d from rfl,
      (C23_std_var_partial sqrt d col col [] hc (Or.inr ⟨rfl, hcol⟩)).2]
    exact hsqrt _ h0

/-- C22/C23 for masked arrays whose aggregated axis is not cut: min and max too. -/
theorem C22_masked_one_chunk_arrays_partial (sqrt : α → α) (cast : Nat → α → α) (fwd : Bool) (a : Arr α) (x : NDA (Option α))
    (axis : Nat) (k : AggKind α) (hk : k = .min ∨ k = .max)
    (hb : a.Built (maMode sqrt cast) limit fwd false .sliced) (hx : a.Yields (maMode sqrt cast) limit x)
    (hax : axis < x.shape.length) (hne : x.shape.getD axis 0 ≠ 0) (hfit : x.shape.getD axis 0 = 1 ∨ a.skel.holds limit (x.shape.getD axis 0) axis) :
    ∃ r, (Arr.agg a axis k).Yields (maMode sqrt cast) limit r ∧ (Arr.agg a axis k).EngineReturns (maMode sqrt cast) limit r ∧
      AggregateOf (IsAggMasked sqrt k) x axis r := by
  refine aggregation_array (m := maMode sqrt cast) (IsAggMasked sqrt k) fwd a x axis k hb hx hax hne (cutSafe_of_uncut hx.1 hfit) ?_
  intro col hcol
  rcases hk with rfl | rfl
  · exact C22_masked_min_is_min_of_last_chunk [] col _
  · exact C22_masked_max_is_max_of_last_chunk [] col _

end

/-- The source of the examples belongs to the grammar and evaluates to its data. -/
theorem exSource_built {V : Type} (m : Mode ℚ V) (hm : m.sourceSafe exSource) (limit : Nat) (cut : Cut) : (Arr.adapter false exSource []).Built m limit true false cut :=
  .source _ _ _ _ hm (fun h => by cases h)

example : Res.view ((Arr.agg (.adapter false exSource []) 1 .sum).eval exMode 5 2) = .ok ([2, 4], [12, 15, 18, 21, 48, 51, 54, 57]) ∧
    Res.view ((Arr.agg (.agg (.adapter false exSource []) 1 .sum) 0 (.mean 1)).eval exMode 5 2) = .ok ([4], [30, 33, 36, 39]) ∧
    Res.view ((Arr.agg (.adapter false exSource []) 2 .min).eval exMode 24 2) = .ok ([2, 3], [0, 4, 8, 12, 16, 20]) := by
  refine ⟨by decide +kernel, by decide +kernel, by decide +kernel⟩

/-- C22 fails of the code as soon as the aggregated axis is split: with chunks of at most 2 elements `min` over the last axis
is the minimum of the last chunk. -/
theorem C22_min_array_wrong :
    Res.view ((Arr.agg (.adapter false exSource [.int 0, .int 0]) 0 .min).eval exMode 2 2) = .ok ([], [2]) ∧
    Res.view ((Arr.adapter false exSource [.int 0, .int 0]).eval exMode 2 2) = .ok ([4], [0, 1, 2, 3]) := by
  refine ⟨by decide +kernel, by decide +kernel⟩

end Biggus

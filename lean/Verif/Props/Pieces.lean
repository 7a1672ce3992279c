import Verif.Proofs.Pieces
import Verif.Props.Compute
import Mathlib.Tactic.Linarith
import Mathlib.Analysis.Real.Sqrt
/-
C22, C23: exactly what min, max, std and var return for any chunking, and for which shapes and chunk limits they are right.
-/
namespace Biggus
open Spec

variable {α V : Type}

section
variable [Inhabited α] [Inhabited V] {m : Mode α V} {limit : Nat}

/-- Aggregating any expression of the grammar, whatever the chunking: every element of the result is what the aggregation makes of the column, read in the pieces
`enginePieces`. -/
theorem aggregation_exact (fwd : Bool) (a : Arr α) (x : NDA V) (axis : Nat) (k : AggKind α)
    (hb : a.Built m limit fwd false .sliced) (hx : a.Yields m limit x) (hax : axis < x.shape.length)
    (hne : x.shape.getD axis 0 ≠ 0 ∨ (m.handler k).emptyErr = none) :
    ∃ r, (Arr.agg a axis k).Yields m limit r ∧ (Arr.agg a axis k).EngineReturns m limit r ∧
      AggregateOf (fun col v => v = (m.handler k).run col.length (enginePieces limit (a.skel.right axis) col)) x axis r := by
  obtain ⟨h1, h2, h3, h4⟩ := hb.fineS
  have hd : a.den m ≈ₐ x := (hx.2.den_eqv h1 (h2.mono m limit a .sliced .whole (Or.inr (Or.inr rfl)))).symm
  have hwf : (Arr.agg a axis k).WF := ⟨h1, x.shape, hx.1, hax⟩
  obtain ⟨N, hN⟩ := exists_level a
  have key : ∀ n, N ≤ n → ∃ r, engineOne m limit (Arr.eval m limit n) (.agg a axis k) = .ok r ∧
      r ≈ₐ (a.den m).reduce axis (fun col => (m.handler k).run col.length (enginePieces limit (a.skel.right axis) col)) :=
    fun n hn => engineOne_agg m limit (Arr.good m limit n) _ (fun b hb hG => eval_good m limit n b hb hG) a axis k hwf
      (streamGood_of m limit n _ (good_of m limit n) a h1 h3 h2 (Arr.levelLe.mono a N n hn hN)) (by rw [hd.1]; exact hne)
  refine ⟨(a.den m).reduce axis (fun col => (m.handler k).run col.length (enginePieces limit (a.skel.right axis) col)), ⟨?_, N + 1, ?_⟩, ⟨N, key⟩, ?_⟩
  · exact Arr.WF.shape_eq m (.agg a axis k) hwf
  · intro n hn
    obtain ⟨n, rfl⟩ : ∃ n', n = n' + 1 := ⟨n - 1, by omega⟩
    obtain ⟨r, r1, r2⟩ := key n (by omega)
    exact ⟨r, r1, r2⟩
  · exact aggregateOf_congr (by rw [hd.1]; exact hax) hd ⟨rfl, fun idx _ => rfl⟩

end

section
variable [Field α]

theorem stdH_kept [CharZero α] (sqrt : α → α) (ddof : Int) (n : Nat) (chunks : List (List α)) (hne : chunks ≠ []) (hn : ∀ c ∈ chunks, c ≠ []) :
    (stdH sqrt ddof).run n chunks = sqrt (var ddof (stdValues chunks)) := by
  have key : ∀ (chunks : List (List α)), chunks ≠ [] → (∀ c ∈ chunks, c ≠ []) → ∀ s : StdState α, s.k = 1 → s.q = 0 →
      WInv (chunks.foldl stdStep s) (stdValues chunks) := by
    intro chunks
    induction chunks with
    | nil => intro h; exact absurd rfl h
    | cons c cs ih =>
      intro _ hn s hs hq
      obtain ⟨x, xs, rfl⟩ := List.exists_cons_of_ne_nil (hn c (by simp))
      have h1 := std_step_first s hs hq x xs
      cases cs with
      | nil => exact h1
      | cons d cs =>
        rw [List.foldl_cons]
        unfold stdValues
        by_cases hl : (x :: xs).length = 1
        · rw [if_pos hl]
          have hx : xs = [] := by simpa using hl
          subst hx
          exact ih (by simp) (fun c hc => hn c (by simp [hc])) _ (by simp [stdStep, hs]) (by simp [stdStep, hs, hq])
        · rw [if_neg hl]
          exact std_steps_rest (d :: cs) _ _ h1 (by rw [h1.1]; exact hl)
  exact std_fin sqrt ddof n _ _ (key chunks hne hn _ rfl rfl)

theorem stdH_lawfulTwo [CharZero α] (sqrt : α → α) (ddof : Int) : (stdH sqrt ddof).LawfulTwo := by
  intro n c cs h2 hn
  have hc : c ≠ [] := by intro e; rw [e] at h2; simp at h2
  have hall : ∀ d ∈ c :: cs, d ≠ [] := by
    intro d hd
    rcases List.mem_cons.mp hd with rfl | hd
    · exact hc
    · exact hn d hd
  rw [stdH_kept sqrt ddof n _ (by simp) hall, stdH_kept sqrt ddof n _ (by simp) (by
    intro d hd e
    rw [List.mem_singleton.mp hd] at e
    exact hc (List.append_eq_nil_iff.mp e).1)]
  cases cs with
  | nil => simp [stdValues]
  | cons d cs =>
    have : ¬ c.length = 1 := by omega
    simp [stdValues, this]

theorem varH_lawfulTwo [CharZero α] (sqrt : α → α) (ddof : Int) : (varH sqrt ddof).LawfulTwo := by
  intro n c cs h2 hn
  have := stdH_lawfulTwo sqrt ddof n c cs h2 hn
  show (stdH sqrt ddof).run n (c :: cs) * (stdH sqrt ddof).run n (c :: cs) = _
  rw [this]
  rfl
end

section
variable [Field α] [LinearOrder α] [IsStrictOrderedRing α] [Inhabited α] {limit : Nat}

/-- C23 for arrays: `std` and `var` of any expression of the grammar over an axis of which chunks hold two values or more, for any number of chunks. -/
theorem C23_two_values_arrays_partial (sqrt : α → α) (hsqrt : ∀ x, 0 ≤ x → sqrt x * sqrt x = x) (cast : Nat → α → α) (fwd : Bool) (a : Arr α) (x : NDA α)
    (axis : Nat) (k : AggKind α) (hk : ∃ d, k = .std d ∨ k = .var d)
    (hb : a.Built (ndMode sqrt cast) limit fwd false .sliced) (hx : a.Yields (ndMode sqrt cast) limit x)
    (hax : axis < x.shape.length) (hne : x.shape.getD axis 0 ≠ 0) (hroom : a.skel.holds limit 2 axis) :
    ∃ r, (Arr.agg a axis k).Yields (ndMode sqrt cast) limit r ∧ (Arr.agg a axis k).EngineReturns (ndMode sqrt cast) limit r ∧
      AggregateOf (IsAgg sqrt k) x axis r := by
  refine aggregation_array (m := ndMode sqrt cast) (IsAgg sqrt k) fwd a x axis k hb hx hax hne (Or.inr (Or.inr (Or.inr ⟨?_, hroom⟩))) ?_
  · obtain ⟨d, rfl | rfl⟩ := hk
    · exact stdH_lawfulTwo sqrt d
    · exact varH_lawfulTwo sqrt d
  · intro col hcol
    have hc : CutOf col [col] := by simp [CutOf]
    obtain ⟨d, rfl | rfl⟩ := hk
    · exact (C23_std_var_partial sqrt d col col [] hc (Or.inr ⟨rfl, hcol⟩)).1
    · intro h0
      rw [show (ndMode sqrt cast).handler (.var d) = varH sqrt d from rfl,
        (C23_std_var_partial sqrt d col col [] hc (Or.inr ⟨rfl, hcol⟩)).2]
      exact hsqrt _ h0

/-- C22, exactly: `min` and `max` of any expression of the grammar are the least and the greatest value of the last piece of the column. -/
theorem C22_exact_arrays (sqrt : α → α) (cast : Nat → α → α) (fwd : Bool) (a : Arr α) (x : NDA α) (axis : Nat)
    (hb : a.Built (ndMode sqrt cast) limit fwd false .sliced) (hx : a.Yields (ndMode sqrt cast) limit x)
    (hax : axis < x.shape.length) (hne : x.shape.getD axis 0 ≠ 0) :
    (∃ r, (Arr.agg a axis .min).Yields (ndMode sqrt cast) limit r ∧ (Arr.agg a axis .min).EngineReturns (ndMode sqrt cast) limit r ∧
      AggregateOf (fun col v => ∃ init last, enginePieces limit (a.skel.right axis) col = init ++ [last] ∧ IsMin last v) x axis r) ∧
    ∃ r, (Arr.agg a axis .max).Yields (ndMode sqrt cast) limit r ∧ (Arr.agg a axis .max).EngineReturns (ndMode sqrt cast) limit r ∧
      AggregateOf (fun col v => ∃ init last, enginePieces limit (a.skel.right axis) col = init ++ [last] ∧ IsMax last v) x axis r := by
  have hcol : ∀ idx, x.column axis idx ≠ [] := fun idx e => hne (by rw [← column_length x axis idx, e]; rfl)
  obtain ⟨r, h1, h2, h3⟩ := aggregation_exact fwd a x axis .min hb hx hax (Or.inl hne)
  obtain ⟨r', h1', h2', h3'⟩ := aggregation_exact fwd a x axis .max hb hx hax (Or.inl hne)
  refine ⟨⟨r, h1, h2, h3.1, fun idx hi => ?_⟩, ⟨r', h1', h2', h3'.1, fun idx hi => ?_⟩⟩
  · obtain ⟨init, last, e, hl⟩ := enginePieces_last limit (a.skel.right axis) _ (hcol idx)
    refine ⟨init, last, e, ?_⟩
    rw [h3.2 idx hi, e]
    exact C22_min_is_min_of_last_chunk init last hl _
  · obtain ⟨init, last, e, hl⟩ := enginePieces_last limit (a.skel.right axis) _ (hcol idx)
    refine ⟨init, last, e, ?_⟩
    rw [h3'.2 idx hi, e]
    exact C22_max_is_max_of_last_chunk init last hl _

/-- C22, exactly, masked: `min` and `max` are those of the last piece of the column, masked if nothing in the last piece is unmasked. -/
theorem C22_masked_exact_arrays (sqrt : α → α) (cast : Nat → α → α) (fwd : Bool) (a : Arr α) (x : NDA (Option α)) (axis : Nat) (k : AggKind α) (hk : k = .min ∨ k = .max)
    (hb : a.Built (maMode sqrt cast) limit fwd false .sliced) (hx : a.Yields (maMode sqrt cast) limit x)
    (hax : axis < x.shape.length) (hne : x.shape.getD axis 0 ≠ 0) :
    ∃ r, (Arr.agg a axis k).Yields (maMode sqrt cast) limit r ∧ (Arr.agg a axis k).EngineReturns (maMode sqrt cast) limit r ∧
      AggregateOf (fun col v => ∃ init last, enginePieces limit (a.skel.right axis) col = init ++ [last] ∧ last ≠ [] ∧ IsAggMasked sqrt k last v) x axis r := by
  have hcol : ∀ idx, x.column axis idx ≠ [] := fun idx e => hne (by rw [← column_length x axis idx, e]; rfl)
  obtain ⟨r, h1, h2, h3⟩ := aggregation_exact fwd a x axis k hb hx hax (Or.inl hne)
  refine ⟨r, h1, h2, h3.1, fun idx hi => ?_⟩
  obtain ⟨init, last, e, hl⟩ := enginePieces_last limit (a.skel.right axis) _ (hcol idx)
  refine ⟨init, last, e, hl, ?_⟩
  rw [h3.2 idx hi, e]
  rcases hk with rfl | rfl
  · exact C22_masked_min_is_min_of_last_chunk init last _
  · exact C22_masked_max_is_max_of_last_chunk init last _

/-- C23, exactly: `std` of any expression of the grammar is that of the values that are not forgotten (`stdValues`), `var` its square. -/
theorem C23_exact_arrays (sqrt : α → α) (cast : Nat → α → α) (ddof : Int) (fwd : Bool) (a : Arr α) (x : NDA α) (axis : Nat)
    (hb : a.Built (ndMode sqrt cast) limit fwd false .sliced) (hx : a.Yields (ndMode sqrt cast) limit x)
    (hax : axis < x.shape.length) (hne : x.shape.getD axis 0 ≠ 0) :
    (∃ r, (Arr.agg a axis (.std ddof)).Yields (ndMode sqrt cast) limit r ∧ (Arr.agg a axis (.std ddof)).EngineReturns (ndMode sqrt cast) limit r ∧
      AggregateOf (fun col v => v = sqrt (var ddof (stdValues (enginePieces limit (a.skel.right axis) col)))) x axis r) ∧
    ∃ r, (Arr.agg a axis (.var ddof)).Yields (ndMode sqrt cast) limit r ∧ (Arr.agg a axis (.var ddof)).EngineReturns (ndMode sqrt cast) limit r ∧
      AggregateOf (fun col v => v = sqrt (var ddof (stdValues (enginePieces limit (a.skel.right axis) col))) *
        sqrt (var ddof (stdValues (enginePieces limit (a.skel.right axis) col)))) x axis r := by
  have hcol : ∀ idx, x.column axis idx ≠ [] := fun idx e => hne (by rw [← column_length x axis idx, e]; rfl)
  have hk : ∀ idx, (stdH sqrt ddof).run (x.column axis idx).length (enginePieces limit (a.skel.right axis) (x.column axis idx)) =
      sqrt (var ddof (stdValues (enginePieces limit (a.skel.right axis) (x.column axis idx)))) := by
    intro idx
    obtain ⟨init, last, e, hl⟩ := enginePieces_last limit (a.skel.right axis) _ (hcol idx)
    exact stdH_kept sqrt ddof _ _ (by rw [e]; simp) (enginePieces_ne _ _ _ (hcol idx))
  obtain ⟨r, h1, h2, h3⟩ := aggregation_exact fwd a x axis (.std ddof) hb hx hax (Or.inl hne)
  obtain ⟨r', h1', h2', h3'⟩ := aggregation_exact fwd a x axis (.var ddof) hb hx hax (Or.inl hne)
  refine ⟨⟨r, h1, h2, h3.1, fun idx hi => ?_⟩, ⟨r', h1', h2', h3'.1, fun idx hi => ?_⟩⟩
  · rw [h3.2 idx hi]; exact hk idx
  · rw [h3'.2 idx hi]
    show _ = sqrt _ * sqrt _
    rw [← hk idx]; rfl

/-! ### For which shapes and chunk limits they are right -/

/-- `u` at the beginning of the axis, `v` everywhere else. -/
def firstOther (u v : α) (s : List Nat) (axis : Nat) : Concrete α := ⟨⟨s, fun idx => some (if idx.getD axis 0 = 0 then u else v)⟩, u, 0⟩

theorem enginePieces_many {limit p : Nat} {col : List α} (h2 : 2 ≤ col.length) (h : ¬ col.length * p ≤ limit) :
    ∃ c d cs, enginePieces limit p col = c :: d :: cs ∧ c.length = max 1 (limit / p) := by
  have hp : 0 < p := by
    rcases Nat.eq_zero_or_pos p with e | e
    · rw [e] at h; simp at h
    · exact e
  have hlt : max 1 (limit / p) < col.length := by
    have : limit / p < col.length := (Nat.div_lt_iff_lt_mul hp).mpr (by omega)
    omega
  unfold enginePieces inPieces
  rw [if_neg h]
  generalize hs : max 1 (limit / p) = step at hlt
  have hs1 : 1 ≤ step := by omega
  have hc : 2 ≤ (col.length + step - 1) / step := (Nat.le_div_iff_mul_le (by omega)).mpr (by rw [Nat.two_mul]; omega)
  obtain ⟨q, hq⟩ : ∃ q, (col.length + step - 1) / step = q + 2 := ⟨(col.length + step - 1) / step - 2, by omega⟩
  rw [hq, List.range_succ_eq_map, List.map_cons, List.range_succ_eq_map, List.map_cons, List.map_cons]
  refine ⟨_, _, _, rfl, ?_⟩
  rw [List.length_take, List.length_drop]
  omega

/-- A source yields its data. -/
theorem source_yields [Inhabited V] (m : Mode α V) (limit : Nat) (o : Bool) (c : Concrete α) (hsafe : ∀ fwd cut, (Arr.adapter o c []).Built m limit fwd false cut) :
    (Arr.adapter o c []).Yields m limit (c.data.map (m.leaf c.fill)) := by
  obtain ⟨h1, h2, _, _⟩ := (hsafe true .sliced).fineS
  obtain ⟨σ, hσ⟩ := resolve_full_exists c.data.shape
  have hfull := resolve_full hσ
  have hn : npIndex c.data [] = .ok (c.data.ortho σ) :=
    npIndex_ok_iff.mpr ⟨List.replicate c.data.shape.length Key.full, σ, by simp [expandKeys, nConsuming], hσ, rfl⟩
  refine (Arr.Yields.of_den h1 (h2.mono _ limit _ .sliced .whole (Or.inr (Or.inr rfl)))).congr ?_
  rw [den_adapter m o c [] _ hn]
  refine ⟨hfull.1, fun idx hi => ?_⟩
  have hi' : InB c.data.shape idx := by
    rw [← hfull.1]; exact hi
  show m.leaf c.fill (c.data.get (selSrc σ idx)) = m.leaf c.fill (c.data.get idx)
  rw [hfull.2 idx hi']

theorem firstOther_column (u v : α) (s : List Nat) (axis : Nat) (idx : List Nat) (h : axis ≤ idx.length) (hn : s.getD axis 0 ≠ 0) :
    (⟨s, fun idx => if idx.getD axis 0 = 0 then u else v⟩ : NDA α).column axis idx = u :: List.replicate (s.getD axis 0 - 1) v := by
  have hg : ∀ j, (idx.insertIdx axis j).getD axis 0 = j := by
    intro j
    rw [List.getD_eq_getElem?_getD, List.getElem?_insertIdx_self, if_pos h]; rfl
  obtain ⟨q, hq⟩ : ∃ q, s.getD axis 0 = q + 1 := ⟨s.getD axis 0 - 1, by omega⟩
  show (List.range (s.getD axis 0)).map _ = _
  rw [hq, List.range_succ_eq_map, List.map_cons, List.map_map]
  show (if (idx.insertIdx axis 0).getD axis 0 = 0 then u else v) :: _ = _
  rw [hg, if_pos rfl]
  congr 1
  refine List.eq_replicate_iff.mpr ⟨by simp, fun b hb => ?_⟩
  obtain ⟨j, _, rfl⟩ := List.mem_map.mp hb
  show (if (idx.insertIdx axis (j + 1)).getD axis 0 = 0 then u else v) = v
  rw [hg, if_neg (by omega)]

theorem zeros_inB (s : List Nat) (h : ∀ n ∈ s, n ≠ 0) : InB s (List.replicate s.length 0) := by
  induction s with
  | nil => trivial
  | cons a s ih => exact ⟨Nat.pos_of_ne_zero (h a (by simp)), ih (fun n hn => h n (by simp [hn]))⟩

theorem unmasked_built (sqrt : α → α) (cast : Nat → α → α) (limit : Nat) (o : Bool) (c : Concrete α) (hu : ∀ idx, (c.data.get idx).isSome) (fwd : Bool) (cut : Cut) :
    (Arr.adapter o c []).Built (ndMode sqrt cast) limit fwd false cut := by
  refine .source _ _ _ _ (fun idx => ?_) (fun h => by cases h)
  obtain ⟨v, hv⟩ := Option.isSome_iff_exists.mp (hu idx)
  rw [hv]; exact fun _ => rfl

theorem source_right [Inhabited V] {m : Mode α V} {o : Bool} {c : Concrete α} {x : NDA V} (h : (Arr.adapter o c []).Yields m limit x) (axis : Nat) :
    (Arr.adapter o c []).skel.right axis = (x.shape.drop (axis + 1)).prod := by
  show ((okOr (Arr.adapter o c []).shape []).drop (axis + 1)).prod = _
  rw [h.1]; rfl

/-- If the axis is cut, the last piece of `firstOther` has no `u`. -/
theorem firstOther_last (u v : α) (n p limit : Nat) (h2 : 2 ≤ n) (hcut : ¬ n * p ≤ limit) (init : List (List α)) (last : List α)
    (h : enginePieces limit p (u :: List.replicate (n - 1) v) = init ++ [last]) : ∀ w ∈ last, w = v := by
  have hl : (u :: List.replicate (n - 1) v).length = n := by rw [List.length_cons, List.length_replicate]; omega
  obtain ⟨c, d, cs, hcs, hcl⟩ := enginePieces_many (limit := limit) (p := p) (col := u :: List.replicate (n - 1) v) (by omega) (by rw [hl]; exact hcut)
  have hflat := enginePieces_flatten limit p (u :: List.replicate (n - 1) v)
  rw [h] at hflat hcs
  match init, c, hcs, hcl with
  | [], _, hcs, _ => simp at hcs
  | i :: is, c, hcs, hcl =>
    have : i = c := by simpa using congrArg List.head? hcs
    subst this
    obtain ⟨y, ys, rfl⟩ : ∃ y ys, i = y :: ys := by
      cases i with
      | nil => rw [List.length_nil] at hcl; omega
      | cons y ys => exact ⟨y, ys, rfl⟩
    rw [List.flatten_append, List.flatten_cons, List.flatten_singleton] at hflat
    simp only [List.cons_append, List.cons.injEq] at hflat
    intro w hw
    have : w ∈ List.replicate (n - 1) v := by
      rw [← hflat.2]; simp [hw]
    exact List.eq_of_mem_replicate this

/-- What an aggregation that depends on the pieces makes of `firstOther`, if the result is claimed to be right. -/
theorem firstOther_agg (sqrt : α → α) (cast : Nat → α → α) (o : Bool) (s : List Nat) (axis : Nat) (hax : axis < s.length) (hpos : ∀ n ∈ s, n ≠ 0)
    (k : AggKind α) (u v : α) (P Q : List α → α → Prop) (r r' : NDA α)
    (hr : (Arr.agg (.adapter o (firstOther u v s axis) []) axis k).Yields (ndMode sqrt cast) limit r)
    (hr' : (Arr.agg (.adapter o (firstOther u v s axis) []) axis k).Yields (ndMode sqrt cast) limit r')
    (hP : AggregateOf P ((firstOther u v s axis).data.map (fun w => w.getD u)) axis r)
    (hQ : AggregateOf Q ((firstOther u v s axis).data.map (fun w => w.getD u)) axis r') :
    ∃ w, P (u :: List.replicate (s.getD axis 0 - 1) v) w ∧ Q (u :: List.replicate (s.getD axis 0 - 1) v) w := by
  have hn : s.getD axis 0 ≠ 0 := by
    rw [List.getD_eq_getElem?_getD, List.getElem?_eq_getElem hax]
    exact hpos _ (List.getElem_mem hax)
  have hu := hr.unique hr'
  have hidx : InB (s.eraseIdx axis) (List.replicate (s.eraseIdx axis).length 0) := zeros_inB _ (fun n h => hpos n (List.mem_of_mem_eraseIdx h))
  have hlen : axis ≤ (List.replicate (s.eraseIdx axis).length 0).length := by
    rw [List.length_replicate, List.length_eraseIdx_of_lt hax]; omega
  generalize List.replicate (s.eraseIdx axis).length 0 = idx at hidx hlen
  have h1 := hP.2 idx (by rw [hP.1]; exact hidx)
  have h2 := hQ.2 idx (by rw [hQ.1]; exact hidx)
  rw [hu.2 idx (by rw [hP.1]; exact hidx)] at h1
  have hcol := firstOther_column u v s axis idx hlen hn
  have e : ((firstOther u v s axis).data.map (fun w => w.getD u)) = ⟨s, fun idx => if idx.getD axis 0 = 0 then u else v⟩ := rfl
  rw [e, hcol] at h1 h2
  exact ⟨_, h1, h2⟩

/-- C22: for which shapes and chunk limits `min` and `max` of an unmasked source are right whatever its data: those for which the axis has length one or is not cut. -/
theorem C22_sources_iff (sqrt : α → α) (cast : Nat → α → α) (o : Bool) (s : List Nat) (axis : Nat) (hax : axis < s.length) (hpos : ∀ n ∈ s, n ≠ 0)
    (k : AggKind α) (hk : k = .min ∨ k = .max) :
    (∀ c : Concrete α, c.data.shape = s → (∀ idx, (c.data.get idx).isSome) →
      ∃ r, (Arr.agg (.adapter o c []) axis k).Yields (ndMode sqrt cast) limit r ∧ AggregateOf (IsAgg sqrt k) (c.data.map (fun v => v.getD c.fill)) axis r) ↔
    s.getD axis 0 = 1 ∨ s.getD axis 0 * (s.drop (axis + 1)).prod ≤ limit := by
  have hn : s.getD axis 0 ≠ 0 := by
    rw [List.getD_eq_getElem?_getD, List.getElem?_eq_getElem hax]
    exact hpos _ (List.getElem_mem hax)
  have hB := unmasked_built sqrt cast limit o
  have hY := fun (c : Concrete α) hu => source_yields (ndMode sqrt cast) limit o c (hB c hu)
  constructor
  · intro h
    by_contra hcon
    push Not at hcon
    have hlast := fun u v : α => firstOther_last u v (s.getD axis 0) (s.drop (axis + 1)).prod limit (by omega) (by omega)
    have hex := fun u v : α => C22_exact_arrays sqrt cast true _ _ axis (hB (firstOther u v s axis) (fun _ => rfl) true .sliced) (hY _ (fun _ => rfl)) hax hn
    rcases hk with rfl | rfl
    · obtain ⟨r, hr, hr2⟩ := h (firstOther 0 1 s axis) rfl (fun _ => rfl)
      obtain ⟨⟨r', hr', _, hr2'⟩, _⟩ := hex 0 1
      obtain ⟨w, hw, init, last, h2, h3⟩ := firstOther_agg sqrt cast o s axis hax hpos .min 0 1 _ _ r r' hr hr' hr2 hr2'
      rw [source_right (hY _ (fun _ => rfl))] at h2
      have h0 : w ≤ 0 := hw.2 0 (by simp)
      rw [hlast 0 1 init last h2 w h3.1] at h0
      exact absurd h0 (not_le.mpr one_pos)
    · obtain ⟨r, hr, hr2⟩ := h (firstOther 1 0 s axis) rfl (fun _ => rfl)
      obtain ⟨_, r', hr', _, hr2'⟩ := hex 1 0
      obtain ⟨w, hw, init, last, h2, h3⟩ := firstOther_agg sqrt cast o s axis hax hpos .max 1 0 _ _ r r' hr hr' hr2 hr2'
      rw [source_right (hY _ (fun _ => rfl))] at h2
      have h0 : 1 ≤ w := hw.2 1 (by simp)
      rw [hlast 1 0 init last h2 w h3.1] at h0
      exact absurd h0 (not_le.mpr one_pos)
  · intro h c hc hu
    have hfit : (c.data.map ((ndMode sqrt cast).leaf c.fill)).shape.getD axis 0 = 1 ∨
        (Arr.adapter o c []).skel.holds limit ((c.data.map ((ndMode sqrt cast).leaf c.fill)).shape.getD axis 0) axis := by
      show c.data.shape.getD axis 0 = 1 ∨ c.data.shape.getD axis 0 * (Arr.adapter o c []).skel.right axis ≤ limit
      rw [source_right (hY c hu)]
      show c.data.shape.getD axis 0 = 1 ∨ c.data.shape.getD axis 0 * (c.data.shape.drop (axis + 1)).prod ≤ limit
      rw [hc]; exact h
    obtain ⟨r, h1, _, h3⟩ := aggregation_array (m := ndMode sqrt cast) (IsAgg sqrt k) true _ _ axis k (hB c hu true .sliced) (hY c hu) (by show axis < c.data.shape.length; rw [hc]; exact hax)
      (by show c.data.shape.getD axis 0 ≠ 0; rw [hc]; exact hn) (cutSafe_of_uncut (hY c hu).1 hfit) (fun col hcol => by
        rcases hk with rfl | rfl
        · exact (C22_single_chunk_partial col hcol _).1
        · exact (C22_single_chunk_partial col hcol _).2)
    exact ⟨r, h1, h3⟩

theorem stdValues_ones (chunks : List (List α)) (h : ∀ c ∈ chunks, c.length = 1) (hne : chunks ≠ []) : ∃ c ∈ chunks.getLast?, stdValues chunks = c := by
  induction chunks with
  | nil => exact absurd rfl hne
  | cons c cs ih =>
    cases cs with
    | nil => exact ⟨c, rfl, rfl⟩
    | cons d ds =>
      obtain ⟨e, he, hs⟩ := ih (fun c hc => h c (by simp [hc])) (by simp)
      refine ⟨e, by rw [List.getLast?_cons_cons]; exact he, ?_⟩
      rw [stdValues, if_pos (h c (by simp))]
      exact hs

theorem var_firstOther (n : Nat) : var 0 (0 :: List.replicate (n + 1) (1 : α)) ≠ 0 := by
  intro h
  have hl : ((0 :: List.replicate (n + 1) (1 : α)).length : α) ≠ 0 := by
    rw [List.length_cons]; exact Nat.cast_ne_zero.mpr (by omega)
  unfold var at h
  rw [Int.cast_zero, sub_zero, div_eq_zero_iff] at h
  have h0 := h.resolve_right hl
  unfold ssd at h0
  generalize mean (0 :: List.replicate (n + 1) (1 : α)) = μ at h0
  rw [List.replicate_succ, List.map_cons, List.map_cons, List.sum_cons, List.sum_cons] at h0
  have hs : 0 ≤ ((List.replicate n (1 : α)).map (fun x => (x - μ) * (x - μ))).sum := List.sum_nonneg (fun y hy => by
    obtain ⟨x, _, rfl⟩ := List.mem_map.mp hy
    exact mul_self_nonneg _)
  have h1 := mul_self_nonneg (0 - μ)
  have h2 := mul_self_nonneg (1 - μ)
  have e1 : (0 - μ) * (0 - μ) = 0 := by linarith
  have e2 : (1 - μ) * (1 - μ) = 0 := by linarith
  have e3 := mul_self_eq_zero.mp e1
  have e4 := mul_self_eq_zero.mp e2
  have : (1 : α) = 0 := by linarith
  exact one_ne_zero this

/-- C23: for which shapes and chunk limits `std` and `var` of an unmasked source are right whatever its data: those for which the axis has length one or a chunk has room
for two values of a column. -/
theorem C23_sources_iff (sqrt : α → α) (hsqrt : ∀ x, 0 ≤ x → sqrt x * sqrt x = x) (cast : Nat → α → α) (o : Bool) (s : List Nat) (axis : Nat) (hax : axis < s.length)
    (hpos : ∀ n ∈ s, n ≠ 0) (k : AggKind α) (hk : k = .std 0 ∨ k = .var 0) :
    (∀ c : Concrete α, c.data.shape = s → (∀ idx, (c.data.get idx).isSome) →
      ∃ r, (Arr.agg (.adapter o c []) axis k).Yields (ndMode sqrt cast) limit r ∧ AggregateOf (IsAgg sqrt k) (c.data.map (fun v => v.getD c.fill)) axis r) ↔
    s.getD axis 0 = 1 ∨ 2 * (s.drop (axis + 1)).prod ≤ limit := by
  have hn : s.getD axis 0 ≠ 0 := by
    rw [List.getD_eq_getElem?_getD, List.getElem?_eq_getElem hax]
    exact hpos _ (List.getElem_mem hax)
  have hB := unmasked_built sqrt cast limit o
  have hY := fun (c : Concrete α) hu => source_yields (ndMode sqrt cast) limit o c (hB c hu)
  constructor
  · intro h
    by_contra hcon
    push Not at hcon
    obtain ⟨n, hnn⟩ : ∃ n, s.getD axis 0 = n + 2 := ⟨s.getD axis 0 - 2, by omega⟩
    have hcut : ¬ s.getD axis 0 * (s.drop (axis + 1)).prod ≤ limit := by
      rw [hnn, Nat.add_mul]; omega
    obtain ⟨⟨r₁, hr₁, _, hq₁⟩, ⟨r₂, hr₂, _, hq₂⟩⟩ := C23_exact_arrays sqrt cast 0 true _ _ axis (hB (firstOther 0 1 s axis) (fun _ => rfl) true .sliced) (hY _ (fun _ => rfl)) hax hn
    have hval : sqrt (var 0 (stdValues (enginePieces limit (s.drop (axis + 1)).prod (0 :: List.replicate (s.getD axis 0 - 1) (1 : α))))) = 0 := by
      have hcol : (0 :: List.replicate (s.getD axis 0 - 1) (1 : α)) ≠ [] := by simp
      have hne := enginePieces_ne limit (s.drop (axis + 1)).prod _ hcol
      have hl : (0 :: List.replicate (s.getD axis 0 - 1) (1 : α)).length = s.getD axis 0 := by rw [List.length_cons, List.length_replicate]; omega
      obtain ⟨init, last, e, _⟩ := enginePieces_last limit (s.drop (axis + 1)).prod _ hcol
      have hone : ∀ c ∈ enginePieces limit (s.drop (axis + 1)).prod (0 :: List.replicate (s.getD axis 0 - 1) (1 : α)), c.length = 1 := by
        intro c hc
        have h0 := hne c hc
        unfold enginePieces inPieces at hc
        rw [if_neg (by rw [hl]; exact hcut)] at hc
        obtain ⟨j, _, rfl⟩ := List.mem_map.mp hc
        have hst : max 1 (limit / (s.drop (axis + 1)).prod) = 1 := by
          have : limit / (s.drop (axis + 1)).prod < 2 := Nat.div_lt_of_lt_mul (by rw [Nat.mul_comm]; exact hcon.2)
          omega
        rw [hst] at h0 ⊢
        have := List.length_pos_of_ne_nil h0
        rw [List.length_take] at this ⊢
        omega
      obtain ⟨c, hc, hs⟩ := stdValues_ones _ hone (by rw [e]; simp)
      rw [hs]
      have hc1 := hone c (List.mem_of_getLast? hc)
      rw [e, List.getLast?_concat] at hc
      have hc : last = c := by simpa using hc
      subst hc
      obtain ⟨w, rfl⟩ := List.length_eq_one_iff.mp hc1
      have hz : var 0 [w] = 0 := by simp [var, ssd, mean]
      rw [hz]
      have := hsqrt 0 le_rfl
      exact mul_self_eq_zero.mp this
    have hnz := var_firstOther (α := α) n
    have hvp : 0 ≤ var 0 (0 :: List.replicate (n + 1) (1 : α)) := by
      unfold var ssd
      rw [Int.cast_zero, sub_zero]
      refine div_nonneg (List.sum_nonneg (fun y hy => ?_)) (Nat.cast_nonneg _)
      obtain ⟨x, _, rfl⟩ := List.mem_map.mp hy
      exact mul_self_nonneg _
    obtain ⟨r, hr, hr2⟩ := h (firstOther 0 1 s axis) rfl (fun _ => rfl)
    rw [source_right (hY _ (fun _ => rfl))] at hq₁ hq₂
    rcases hk with rfl | rfl
    · obtain ⟨w, hw, hw'⟩ := firstOther_agg sqrt cast o s axis hax hpos (.std 0) 0 1 _ _ r r₁ hr hr₁ hr2 hq₁
      have hw : w = sqrt (var 0 (0 :: List.replicate (s.getD axis 0 - 1) (1 : α))) := hw
      have hw' : w = sqrt (var 0 (stdValues (enginePieces limit (s.drop (axis + 1)).prod (0 :: List.replicate (s.getD axis 0 - 1) (1 : α))))) := hw'
      rw [hw', hval, hnn] at hw
      have := hsqrt _ hvp
      rw [show n + 2 - 1 = n + 1 from rfl] at hw
      rw [← hw, zero_mul] at this
      exact hnz this.symm
    · obtain ⟨w, hw, hw'⟩ := firstOther_agg sqrt cast o s axis hax hpos (.var 0) 0 1 _ _ r r₂ hr hr₂ hr2 hq₂
      have hw : 0 ≤ var 0 (0 :: List.replicate (s.getD axis 0 - 1) (1 : α)) → w = var 0 (0 :: List.replicate (s.getD axis 0 - 1) (1 : α)) := hw
      have hw' : w = sqrt (var 0 (stdValues (enginePieces limit (s.drop (axis + 1)).prod (0 :: List.replicate (s.getD axis 0 - 1) (1 : α))))) *
        sqrt (var 0 (stdValues (enginePieces limit (s.drop (axis + 1)).prod (0 :: List.replicate (s.getD axis 0 - 1) (1 : α))))) := hw'
      rw [hval, zero_mul] at hw'
      rw [hw', hnn, show n + 2 - 1 = n + 1 from rfl] at hw
      exact hnz (hw hvp).symm
  · intro h c hc hu
    have hshape : (c.data.map ((ndMode sqrt cast).leaf c.fill)).shape = s := hc
    have hr := source_right (hY c hu) axis
    rw [hshape] at hr
    rcases h with h | h
    · obtain ⟨r, h1, _, h3⟩ := C22_C23_one_chunk_arrays_partial sqrt hsqrt cast true _ _ axis k (hB c hu true .sliced) (hY c hu) (by rw [hshape]; exact hax) (by rw [hshape]; exact hn)
        (Or.inl (by rw [hshape]; exact h))
      exact ⟨r, h1, h3⟩
    · obtain ⟨r, h1, _, h3⟩ := C23_two_values_arrays_partial sqrt hsqrt cast true _ _ axis k ⟨0, hk⟩ (hB c hu true .sliced) (hY c hu) (by rw [hshape]; exact hax) (by rw [hshape]; exact hn)
        (by show 2 * (Arr.adapter o c []).skel.right axis ≤ limit; rw [hr]; exact h)
      exact ⟨r, h1, h3⟩

end

/-! ### Concrete cases -/

/-- Of `[2, 3, 4]`, the minimum over the last axis is right with 4 elements per chunk (there are six chunks, the axis is not cut) and wrong with 3; over the first axis it is
wrong with 23 elements per chunk. -/
example : (∀ c : Concrete ℚ, c.data.shape = [2, 3, 4] → (∀ idx, (c.data.get idx).isSome) →
      ∃ r, (Arr.agg (.adapter true c []) 2 .min).Yields exMode 4 r ∧ AggregateOf IsMin (c.data.map (fun v => v.getD c.fill)) 2 r) ∧
    (¬ ∀ c : Concrete ℚ, c.data.shape = [2, 3, 4] → (∀ idx, (c.data.get idx).isSome) →
      ∃ r, (Arr.agg (.adapter true c []) 2 .min).Yields exMode 3 r ∧ AggregateOf IsMin (c.data.map (fun v => v.getD c.fill)) 2 r) ∧
    ¬ ∀ c : Concrete ℚ, c.data.shape = [2, 3, 4] → (∀ idx, (c.data.get idx).isSome) →
      ∃ r, (Arr.agg (.adapter true c []) 0 .min).Yields exMode 23 r ∧ AggregateOf IsMin (c.data.map (fun v => v.getD c.fill)) 0 r := by
  have h := fun limit axis hax => C22_sources_iff (limit := limit) (_root_.id : ℚ → ℚ) (fun _ x => x) true [2, 3, 4] axis hax (by decide) .min (Or.inl rfl)
  exact ⟨(h 4 2 (by decide)).mpr (by decide), fun hf => absurd ((h 3 2 (by decide)).mp hf) (by decide), fun hf => absurd ((h 23 0 (by decide)).mp hf) (by decide)⟩

/-- The same minima, computed. -/
example : Res.view ((Arr.agg (.adapter false exSource []) 2 .min).eval exMode 4 2) = .ok ([2, 3], [0, 4, 8, 12, 16, 20]) ∧
    Res.view ((Arr.agg (.adapter false exSource []) 2 .min).eval exMode 3 2) = .ok ([2, 3], [3, 7, 11, 15, 19, 23]) ∧
    enginePieces 3 1 [0, 1, 2, 3] = [[0, 1, 2], [3]] ∧ enginePieces 4 1 [0, 1, 2, 3] = [[0, 1, 2, 3]] ∧ enginePieces 1 2 [0, 1] = [[0], [1]] := by
  refine ⟨by decide +kernel, by decide +kernel, by decide +kernel, by decide +kernel, by decide +kernel⟩

/-- Variances of three values in chunks of two are right, in chunks of one they are those of the last value (`sqrt` is the identity, hence the squares). -/
example : Res.view ((Arr.agg (.adapter false exSource []) 1 (.std 0)).eval exMode 8 2) = .ok ([2, 4], List.replicate 8 (32 / 3)) ∧
    Res.view ((Arr.agg (.adapter false exSource []) 1 (.std 0)).eval exMode 7 2) = .ok ([2, 4], List.replicate 8 0) ∧
    stdValues [[1], [2], [3, 4], [5]] = [3, 4, 5] ∧ stdValues [[1], [2]] = [2] := by
  refine ⟨by decide +kernel, by decide +kernel, by decide +kernel, by decide +kernel⟩

/-- With the real square root: of `[2, 3, 4]`, `std` over the second axis is right for all data with 8 elements per chunk, and not with 7. -/
example : (∀ c : Concrete ℝ, c.data.shape = [2, 3, 4] → (∀ idx, (c.data.get idx).isSome) →
      ∃ r, (Arr.agg (.adapter true c []) 1 (.std 0)).Yields (ndMode Real.sqrt (fun _ x => x)) 8 r ∧
        AggregateOf (fun col v => v = Real.sqrt (var 0 col)) (c.data.map (fun v => v.getD c.fill)) 1 r) ∧
    ¬ ∀ c : Concrete ℝ, c.data.shape = [2, 3, 4] → (∀ idx, (c.data.get idx).isSome) →
      ∃ r, (Arr.agg (.adapter true c []) 1 (.std 0)).Yields (ndMode Real.sqrt (fun _ x => x)) 7 r ∧
        AggregateOf (fun col v => v = Real.sqrt (var 0 col)) (c.data.map (fun v => v.getD c.fill)) 1 r := by
  have h := fun limit => C23_sources_iff (limit := limit) Real.sqrt (fun _ => Real.mul_self_sqrt) (fun _ x => x) true [2, 3, 4] 1 (by decide) (by decide) (.std 0) (Or.inl rfl)
  exact ⟨(h 8).mpr (by decide), fun hf => absurd ((h 7).mp hf) (by decide)⟩

end Biggus

import Verif.Spec.Pieces
import Verif.Proofs.Returns
/-
What an aggregation computes for any chunking.
-/
namespace Biggus

variable {α V : Type}
open Spec

theorem filterMap_range' {β : Type} (col : List β) (a n : Nat) : (List.range' a n).filterMap (fun j => col[j]?) = (col.drop a).take n := by
  induction n generalizing a with
  | zero => simp
  | succ n ih =>
    rw [List.range'_succ]
    by_cases h : a < col.length
    · rw [List.filterMap_cons_some (List.getElem?_eq_getElem h), ih, List.drop_eq_getElem_cons h, List.take_succ_cons]
    · rw [List.filterMap_cons_none (List.getElem?_eq_none (by omega)), ih, List.drop_of_length_le (by omega), List.drop_of_length_le (by omega)]
      simp

theorem cutBy_dimSlices (limit p : Nat) (col : List V) : cutBy (dimSlices limit true p col.length) col.length col = enginePieces limit p col := by
  unfold enginePieces
  rcases dimSlices_cases limit true p col.length with ⟨h, e⟩ | ⟨h1, h2, e⟩ | ⟨h1, h2, h3, e⟩
  · rw [if_pos h, e]
    show [(keyPos Key.full col.length).filterMap (fun j => col[j]?)] = [col]
    rw [keyPos_full, filterMap_range]
  · have hn : ¬ col.length * p ≤ limit := by
      have : 1 * p ≤ col.length * p := Nat.mul_le_mul_right p h2
      omega
    have hs : max 1 (limit / p) = 1 := by rw [Nat.div_eq_of_lt h1]; rfl
    rw [if_neg hn, e, hs]
    unfold cutBy inPieces
    rw [List.map_map, Nat.add_sub_cancel, Nat.div_one]
    apply List.map_congr_left
    intro k hk
    have hk := List.mem_range.mp hk
    show (keyPos (Key.span k (k + 1)) col.length).filterMap _ = _
    rw [keyPos_span _ _ _ (by omega) (by omega), filterMap_range', Nat.mul_one, Nat.add_sub_cancel_left]
  · have hs : 0 < limit / p := Nat.div_pos h1 h3
    have hm : max 1 (limit / p) = limit / p := by omega
    rw [if_neg (by omega), e, hm]
    unfold cutBy inPieces
    rw [List.map_map]
    apply List.map_congr_left
    intro k hk
    have hlt := step_lt col.length _ k hs (List.mem_range.mp hk)
    show (keyPos (Key.span _ _) col.length).filterMap _ = _
    rw [keyPos_span _ _ _ (by omega) (by omega), filterMap_range']
    by_cases hc : k * (limit / p) + limit / p ≤ col.length
    · rw [Nat.min_eq_left hc, Nat.add_sub_cancel_left]
    · rw [Nat.min_eq_right (by omega), List.take_of_length_le (by simp), List.take_of_length_le (by rw [List.length_drop]; omega)]

theorem inPieces_flatten {step : Nat} (hs : 0 < step) (col : List V) : (inPieces step col).flatten = col := by
  unfold inPieces
  have key : ∀ k, ((List.range k).map (fun k => (col.drop (k * step)).take step)).flatten = col.take (k * step) := by
    intro k
    induction k with
    | zero => simp
    | succ k ih =>
      rw [List.range_succ, List.map_append, List.flatten_append, ih]
      simp only [List.map_cons, List.map_nil, List.flatten_cons, List.flatten_nil, List.append_nil]
      rw [Nat.succ_mul, List.take_add]
  rw [key, List.take_of_length_le (ceil_mul_ge col.length step hs)]

theorem inPieces_ne {step : Nat} (hs : 0 < step) (col : List V) : ∀ c ∈ inPieces step col, c ≠ [] := by
  intro c hc e
  obtain ⟨k, hk, rfl⟩ := List.mem_map.mp hc
  have := step_lt col.length step k hs (List.mem_range.mp hk)
  have hl := congrArg List.length e
  rw [List.length_take, List.length_drop, List.length_nil] at hl
  omega

theorem enginePieces_flatten (limit p : Nat) (col : List V) : (enginePieces limit p col).flatten = col := by
  unfold enginePieces
  split
  · simp
  · exact inPieces_flatten (by omega) col

theorem enginePieces_ne (limit p : Nat) (col : List V) (h : col ≠ []) : ∀ c ∈ enginePieces limit p col, c ≠ [] := by
  unfold enginePieces
  split
  · simpa using h
  · exact inPieces_ne (by omega) col

theorem enginePieces_last (limit p : Nat) (col : List V) (h : col ≠ []) :
    ∃ init last, enginePieces limit p col = init ++ [last] ∧ last ≠ [] := by
  have hne : enginePieces limit p col ≠ [] := by
    intro e
    have := enginePieces_flatten limit p col
    rw [e] at this
    exact h this.symm
  refine ⟨_, _, (List.dropLast_append_getLast hne).symm, enginePieces_ne limit p col h _ (List.getLast_mem hne)⟩

/-- The stream of an aggregation, assembled by the engine. -/
theorem engineOne_agg [Inhabited α] [Inhabited V] (m : Mode α V) (limit : Nat) (G : Arr α → Prop)
    (evalP : Arr α → Res (NDA V)) (hE : ∀ b : Arr α, b.WF → G b → ∃ r, evalP b = .ok r ∧ r ≈ₐ b.den m) (a : Arr α) (axis : Nat) (k : AggKind α)
    (hwf : (Arr.agg a axis k).WF) (hg : a.streamGood m limit G) (hemp : (a.den m).shape.getD axis 0 ≠ 0 ∨ (m.handler k).emptyErr = none) :
    ∃ r, engineOne m limit evalP (.agg a axis k) = .ok r ∧
      r ≈ₐ (a.den m).reduce axis (fun col => (m.handler k).run col.length (enginePieces limit (a.skel.right axis) col)) := by
  obtain ⟨hwa, s, hs, hax⟩ := hwf
  have hden := hwa.den_shape m hs
  have hax' : axis < (a.den m).shape.length := by rw [hden]; exact hax
  have hel : ((a.den m).shape.eraseIdx axis).length = (a.den m).shape.length - 1 := by rw [List.length_eraseIdx, if_pos hax']
  obtain ⟨cs, h1, h2, h3⟩ := stream_ok m limit G evalP hE a hwa hg (aggOrder axis (List.range ((a.den m).shape.length - 1)))
    (aggOrder_perm' hax' (List.Perm.refl _))
  obtain ⟨out, o1, o2⟩ := aggStream_exact (m.handler k) h3 hax' (List.Perm.refl _) h2 hemp
  obtain ⟨r, r1, r2⟩ := o2.assemble (h3.eraseIdx axis) (by
    show (List.range ((a.den m).shape.length - 1)).Perm (List.range ((a.den m).shape.eraseIdx axis).length)
    rw [hel])
  refine ⟨r, ?_, ?_⟩
  · have hsh : (Arr.agg a axis k).shape = .ok ((a.den m).shape.eraseIdx axis) := Arr.WF.shape_eq m (.agg a axis k) ⟨hwa, s, hs, hax⟩
    unfold engineOne
    rw [hsh]
    simp only [bind, Except.bind]
    rw [hel]
    unfold Arr.stream
    rw [hs, h1]
    simp only [bind, Except.bind]
    rw [← hden, o1]
    exact r1
  · refine r2.trans ⟨rfl, fun idx _ => ?_⟩
    obtain ⟨w1, w2⟩ := skel_shape m a hwa
    have hc := cuts_right limit a.skel axis w1 (by rw [w2]; exact hax')
    rw [w2] at hc
    rw [hc]
    simp only [NDA.reduce]
    have hl : ((a.den m).column axis idx).length = (a.den m).shape.getD axis 0 := by simp [NDA.column]
    rw [← hl, cutBy_dimSlices]

end Biggus

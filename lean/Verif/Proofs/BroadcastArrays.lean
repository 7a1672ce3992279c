import Verif.Proofs.Broadcast
/-
`BroadcastArray` and `broadcast_arrays`, compositionally.
-/
namespace Biggus
open Spec

variable {α V : Type} [Inhabited α] [Inhabited V] {m : Mode α V} {limit : Nat}

theorem Arr.YieldsFlat.yields {a : Arr α} {x : NDA V} (h : a.YieldsFlat m limit x) : a.Yields m limit x := by
  rcases h with ⟨_, h⟩ | ⟨a', d, y, rfl, hy, hn, h1, e⟩
  · exact h
  · exact (yields_bcast hy hn h1).congr e

omit [Inhabited V] in
theorem stretch_stretch {y : NDA V} {d' d : List (Nat × Nat)} {lead : List Nat} :
    (y.stretch d' []).stretch d lead ≈ₐ y.stretch (dictUpdate d' d) lead := by
  refine ⟨?_, fun idx hi => ?_⟩
  · simp only [NDA.stretch, List.nil_append]
    congr 1
    apply List.ext_getElem?
    intro i
    rw [bcShape_getElem?, bcShape_getElem?, bcShape_getElem?, lookup_dictUpdate]
    cases y.shape[i]? <;> cases d.lookup (0 + i) <;> simp
  · simp only [NDA.stretch, List.length_nil, List.drop_zero]
    congr 1
    apply List.ext_getElem?
    intro i
    rw [bcIdx_getElem?, bcIdx_getElem?, bcIdx_getElem?, lookup_dictUpdate]
    cases (idx.drop lead.length)[i]? <;> cases d.lookup (0 + i) <;> cases d'.lookup (0 + i) <;> simp

omit [Inhabited α] in
theorem mkBcast_notBcast {a : Arr α} {d : List (Nat × Nat)} {lead : List Nat} (h : a.notBcast = true) :
    mkBcast a d lead = mkBcastFlat a d lead := by
  cases a <;> first | rfl | simp [Arr.notBcast] at h

/-- `BroadcastArray(a, d, lead)` for an array that is not a broadcast with leading dimensions. -/
theorem yields_mkBcast {a : Arr α} {x : NDA V} {d : List (Nat × Nat)} {lead : List Nat} (h : a.YieldsFlat m limit x)
    (hn : (d.map Prod.fst).Nodup) (h1 : ∀ p ∈ d, x.shape[p.1]? = some 1) (hl : ∀ l ∈ lead, 1 ≤ l) :
    ∃ b, mkBcast a d lead = .ok b ∧ b.Yields m limit (x.stretch d lead) ∧
      (lead = [] → b.YieldsFlat m limit (x.stretch d lead)) := by
  rcases h with ⟨hb, h⟩ | ⟨a', d', y, rfl, hy, hn', h1', e⟩
  · refine ⟨.bcast a d lead, ?_, yields_bcast h hn h1, ?_⟩
    · rw [mkBcast_notBcast hb]
      exact mkBcastFlat_ok h.1 hn h1 hl
    · rintro rfl
      exact Or.inr ⟨a, d, x, rfl, h, hn, h1, NDA.Eqv.refl _⟩
  · have hsub : x.shape = bcShape d' 0 y.shape := by rw [← e.1]; simp [NDA.stretch]
    have hall : ∀ p ∈ dictUpdate d' d, y.shape[p.1]? = some 1 := by
      intro p hp
      unfold dictUpdate at hp
      rcases List.mem_append.mp hp with hp | hp
      · exact h1' p (List.mem_filter.mp hp).1
      · have := h1 p hp
        rw [hsub, bcShape_getElem?] at this
        rw [Nat.zero_add] at this
        cases hlk : d'.lookup p.1 with
        | none => rw [hlk] at this; simpa using this
        | some v => exact h1' (p.1, v) (lookup_some_mem hlk)
    have e2 : y.stretch (dictUpdate d' d) lead ≈ₐ x.stretch d lead :=
      stretch_stretch.symm.trans (stretch_congr e (by
        intro p hp; rw [e.1]; exact h1 p hp))
    refine ⟨.bcast a' (dictUpdate d' d) lead, ?_, (yields_bcast hy (dictUpdate_nodup hn' hn) hall).congr e2, ?_⟩
    · show mkBcastFlat a' (dictUpdate d' d) (lead ++ []) = _
      rw [List.append_nil]
      exact mkBcastFlat_ok hy.1 (dictUpdate_nodup hn' hn) hall hl
    · rintro rfl
      exact Or.inr ⟨a', _, y, rfl, hy, dictUpdate_nodup hn' hn, hall, e2⟩

/-- One of the two arrays. -/
theorem yields_bcastSide {a : Arr α} {x : NDA V} {full : List Nat} (h : a.YieldsFlat m limit x) (hb : BroadcastsTo x.shape full)
    (hl : ∀ l ∈ full.take (full.length - x.shape.length), 1 ≤ l) :
    ∃ b, bcastSide a (bcastKwargs full x.shape) = .ok b ∧ b.Yields m limit (broadcastTo x full) := by
  have hk := bcastKwargs_ok hb
  have hst := hk.stretch hb
  unfold bcastSide
  split
  · rename_i he
    simp only [Bool.and_eq_true, List.isEmpty_iff] at he
    refine ⟨a, rfl, h.yields.congr ?_⟩
    rw [he.1, he.2] at hst
    refine NDA.Eqv.trans ?_ hst
    refine ⟨by simp [NDA.stretch, bcShape_nil], fun idx _ => by simp [NDA.stretch, bcIdx_nil]⟩
  · obtain ⟨b, h1, h2, _⟩ := yields_mkBcast (lead := (bcastKwargs full x.shape).2) h hk.nodup hk.ones (by rw [hk.lead]; exact hl)
    exact ⟨b, h1, h2.congr hst⟩

theorem yields_broadcastArrays {a b : Arr α} {x y : NDA V} {r : List Nat} (ha : a.YieldsFlat m limit x)
    (hb : b.YieldsFlat m limit y) (hr : Broadcasts x.shape y.shape r) (hlx : ∀ l ∈ r.take (r.length - x.shape.length), 1 ≤ l)
    (hly : ∀ l ∈ r.take (r.length - y.shape.length), 1 ≤ l) :
    ∃ a' b', broadcastArrays a b = .ok (a', b') ∧ a'.Yields m limit (broadcastTo x r) ∧ b'.Yields m limit (broadcastTo y r) := by
  obtain ⟨a', a1, a2⟩ := yields_bcastSide ha hr.left hlx
  obtain ⟨b', b1, b2⟩ := yields_bcastSide hb hr.symm.left hly
  refine ⟨a', b', ?_, a2, b2⟩
  unfold broadcastArrays
  simp only [ha.yields.1, hb.yields.1, bind, Except.bind]
  rw [computeBcastShape_iff.mpr hr]
  simp only [a1, b1, pure, Except.pure]

theorem computeBcastShape_comm (s t : List Nat) : computeBcastShape s t = computeBcastShape t s := by
  by_cases h : ∃ r, Broadcasts s t r
  · obtain ⟨r, h⟩ := h
    rw [computeBcastShape_iff.mpr h, computeBcastShape_iff.mpr h.symm]
  · rw [computeBcastShape_error h, computeBcastShape_error (fun ⟨r, h'⟩ => h ⟨r, h'.symm⟩)]

omit [Inhabited α] in
theorem broadcastArrays_swap {a b a' b' : Arr α} (h : broadcastArrays a b = .ok (a', b')) :
    broadcastArrays b a = .ok (b', a') := by
  unfold broadcastArrays at h ⊢
  obtain ⟨sa, h1, h⟩ := bind_ok.mp h
  obtain ⟨sb, h2, h⟩ := bind_ok.mp h
  obtain ⟨full, h3, h⟩ := bind_ok.mp h
  obtain ⟨x, h4, h⟩ := bind_ok.mp h
  obtain ⟨y, h5, h⟩ := bind_ok.mp h
  cases h
  rw [computeBcastShape_comm] at h3
  simp only [h1, h2, h3, h4, h5, bind, Except.bind, pure, Except.pure]

theorem Arr.WF.yieldsFlat {a : Arr α} (hwf : a.WF) (hok : a.Ok m limit .whole) (hnl : a.noLead) :
    a.YieldsFlat m limit (a.den m) := by
  by_cases hb : a.notBcast = true
  · exact Or.inl ⟨hb, .of_den hwf hok⟩
  · match a, hb with
    | .bcast a' d' lead', _ =>
      obtain ⟨hwf', hnb', hnl', hn', _, s, hs, h1'⟩ := hwf
      have hl' : lead' = [] := hnl
      subst hl'
      exact Or.inr ⟨a', d', a'.den m, rfl, .of_den hwf' hok.2, hn', by rw [hwf'.den_shape m hs]; exact h1', NDA.Eqv.refl _⟩

end Biggus

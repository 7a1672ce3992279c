import Verif.Proofs.BroadcastArrays
/-
What the constructors accept, and that what they accept is well formed.
-/
namespace Biggus
open Spec

variable {α V : Type}

/-! ### `shapeFromDict` -/

theorem shapeFromDict_inv : ∀ (d : List (Nat × Nat)) (s s' : List Nat), (d.map Prod.fst).Nodup → shapeFromDict d s = .ok s' →
    ∀ p ∈ d, s[p.1]? = some 1
  | [], _, _, _, _ => by simp
  | (ax, len) :: d, s, s', hn, h => by
    simp only [List.map_cons, List.nodup_cons] at hn
    unfold shapeFromDict at h
    split at h
    · cases h
    · rename_i n hax
      split at h
      · cases h
      · rename_i hn1
        simp only [ne_eq, not_not] at hn1
        subst hn1
        intro p hp
        rcases List.mem_cons.mp hp with rfl | hp'
        · exact hax
        · have := shapeFromDict_inv d _ s' hn.2 h p hp'
          rw [List.getElem?_set, if_neg] at this
          · exact this
          · rintro rfl
            exact hn.1 (List.mem_map_of_mem hp')

theorem shapeFromDict_error : ∀ (d : List (Nat × Nat)) (s : List Nat), (∃ s', shapeFromDict d s = .ok s') ∨ shapeFromDict d s = .error .value
  | [], s => Or.inl ⟨s, rfl⟩
  | (ax, len) :: d, s => by
    unfold shapeFromDict
    split
    · exact Or.inr rfl
    · split
      · exact Or.inr rfl
      · exact shapeFromDict_error d _

/-! ### new axes -/

theorem mkNewAxes_iff {a b : Arr α} {s na : List Nat} (hs : a.shape = .ok s) :
    mkNewAxes a na = .ok b ↔ na.length = s.length + 1 ∧ b = .newAxes a na := by
  unfold mkNewAxes
  rw [hs]
  simp only [bind, Except.bind]
  split
  · rename_i h
    simp only [throw, throwThe, MonadExceptOf.throw, reduceCtorEq, false_iff, not_and]
    omega
  · rename_i h
    simp only [pure, Except.pure, Except.ok.injEq]
    constructor
    · rintro rfl; exact ⟨by omega, rfl⟩
    · rintro ⟨_, rfl⟩; rfl

/-! ### broadcast -/

theorem mkBcastFlat_iff {a b : Arr α} {s : List Nat} {d : List (Nat × Nat)} {lead : List Nat} (hs : a.shape = .ok s)
    (hn : (d.map Prod.fst).Nodup) :
    mkBcastFlat a d lead = .ok b ↔ (∀ p ∈ d, s[p.1]? = some 1) ∧ (∀ l ∈ lead, 1 ≤ l) ∧ b = .bcast a d lead := by
  constructor
  · intro h
    unfold mkBcastFlat at h
    obtain ⟨s', hs', h⟩ := bind_ok.mp h
    rw [hs] at hs'
    cases hs'
    obtain ⟨s'', hs'', h⟩ := bind_ok.mp h
    split at h
    · cases h
    · rename_i hl
      cases h
      refine ⟨shapeFromDict_inv d s s'' hn hs'', ?_, rfl⟩
      intro l hl'
      simp only [List.any_eq_true, decide_eq_true_eq, not_exists, not_and] at hl
      have := hl l hl'
      omega
  · rintro ⟨h1, h2, rfl⟩
    exact mkBcastFlat_ok hs hn h1 h2

theorem mkBcastFlat_error {a : Arr α} {s : List Nat} {d : List (Nat × Nat)} {lead : List Nat} (hs : a.shape = .ok s) :
    (∃ b, mkBcastFlat a d lead = .ok b) ∨ mkBcastFlat a d lead = .error .value := by
  unfold mkBcastFlat
  rw [hs]
  simp only [bind, Except.bind]
  rcases shapeFromDict_error d s with ⟨s', h⟩ | h
  · rw [h]
    simp only
    split
    · exact Or.inr rfl
    · exact Or.inl ⟨_, rfl⟩
  · rw [h]; exact Or.inr rfl

/-! ### transposed -/

theorem mkTransposed_iff {a b : Arr α} {s axes : List Nat} (hs : a.shape = .ok s) :
    mkTransposed a axes = .ok b ↔ axes.length = s.length ∧ b = .transposed a axes := by
  unfold mkTransposed
  rw [hs]
  simp only [bind, Except.bind]
  split
  · rename_i h
    simp only [throw, throwThe, MonadExceptOf.throw, reduceCtorEq, false_iff, not_and]
    intro h'; exact absurd h' h
  · rename_i h
    simp only [pure, Except.pure, Except.ok.injEq]
    constructor
    · rintro rfl; exact ⟨by omega, rfl⟩
    · rintro ⟨_, rfl⟩; rfl

/-! ### stack -/

theorem mkStack_iff {ss : List Nat} {items : List Nat → Arr α} {b : Arr α} :
    mkStack ss items = .ok b ↔ ss.prod ≠ 0 ∧ (∃ s, ∀ i, InB ss i → (items i).shape = .ok s) ∧ b = .stack ss items := by
  unfold mkStack
  constructor
  · intro h
    split at h
    · cases h
    · rename_i h0
      obtain ⟨s0, hs0, h⟩ := bind_ok.mp h
      obtain ⟨l, hl, h⟩ := bind_ok.mp h
      cases h
      refine ⟨h0, ⟨s0, fun i hi => ?_⟩, rfl⟩
      have := (mapM_iff _ _ _).mp hl
      obtain ⟨y, _, hy⟩ := forall₂_mem_left this ((mem_ndindex ss i).mpr hi)
      obtain ⟨s, hs, hy⟩ := bind_ok.mp hy
      split at hy
      · cases hy
      · rename_i hne
        simp only [ne_eq, not_not] at hne
        rw [hs, hne]
  · rintro ⟨h0, ⟨s, hs⟩, rfl⟩
    rw [if_neg h0, hs _ (inB_zeros ss h0)]
    simp only [bind, Except.bind]
    rw [mapM_ok _ _ (fun _ => ())]
    · rfl
    · intro i hi
      rw [hs i ((mem_ndindex ss i).mp hi)]
      simp [pure, Except.pure]

theorem mapM_error' {β γ : Type} (f : β → Res γ) (e : PyErr) : ∀ (l : List β), (∀ x ∈ l, ∀ e', f x = .error e' → e' = e) →
    (∃ r, l.mapM f = .ok r) ∨ l.mapM f = .error e
  | [], _ => Or.inl ⟨[], rfl⟩
  | x :: l, hf => by
    rw [List.mapM_cons]
    cases hx : f x with
    | error e' => right; rw [hf x List.mem_cons_self e' hx]; rfl
    | ok y =>
      rcases mapM_error' f e l (fun x hx => hf x (List.mem_cons_of_mem _ hx)) with ⟨r, hr⟩ | hr
      · left; rw [hr]; exact ⟨y :: r, rfl⟩
      · right; rw [hr]; rfl

theorem mkStack_error {ss : List Nat} {items : List Nat → Arr α} (h0 : ss.prod ≠ 0)
    (hs : ∀ i, InB ss i → ∃ s, (items i).shape = .ok s) :
    (∃ b, mkStack ss items = .ok b) ∨ mkStack ss items = .error .value := by
  unfold mkStack
  rw [if_neg h0]
  obtain ⟨s0, hs0⟩ := hs _ (inB_zeros ss h0)
  rw [hs0]
  simp only [bind, Except.bind]
  rcases mapM_error' (fun i => (do
    let s ← (items i).shape
    if s ≠ s0 then throw PyErr.value : Res Unit)) .value (ndindex ss) (by
      intro i hi e' he
      obtain ⟨s, hs⟩ := hs i ((mem_ndindex ss i).mp hi)
      rw [hs] at he
      simp only [bind, Except.bind] at he
      split at he
      · cases he; rfl
      · cases he) with ⟨r, hr⟩ | hr
  · simp only [bind, Except.bind] at hr
    rw [hr]; exact Or.inl ⟨_, rfl⟩
  · simp only [bind, Except.bind] at hr
    rw [hr]; exact Or.inr rfl

/-! ### mosaic -/

theorem eraseIdx_eq_iff {s t : List Nat} {axis : Nat} (hs : axis < s.length) (ht : axis < t.length) :
    s.eraseIdx axis = t.eraseIdx axis ↔ ∃ k, s = t.set axis k := by
  constructor
  · intro h
    refine ⟨s[axis], ?_⟩
    have hl : s.length = t.length := by
      have := congrArg List.length h
      rw [List.length_eraseIdx, List.length_eraseIdx, if_pos hs, if_pos ht] at this
      omega
    apply List.ext_getElem?
    intro i
    rw [List.getElem?_set]
    split
    · rename_i he
      subst he
      rw [List.getElem?_eq_getElem hs]
    · rename_i he
      rcases Nat.lt_or_gt_of_ne he with h1 | h1
      · have := congrArg (fun l => l[i - 1]?) h
        simp only [List.getElem?_eraseIdx] at this
        rw [if_neg (by omega), if_neg (by omega), show i - 1 + 1 = i by omega] at this
        exact this
      · have := congrArg (fun l => l[i]?) h
        simp only [List.getElem?_eraseIdx] at this
        rw [if_pos h1, if_pos h1] at this
        exact this
  · rintro ⟨k, rfl⟩
    apply List.ext_getElem?
    intro i
    rw [List.getElem?_eraseIdx, List.getElem?_eraseIdx, List.getElem?_set, List.getElem?_set]
    split
    · rw [if_neg (by omega)]
    · rw [if_neg (by omega)]

theorem mkMosaic_iff [Inhabited α] {tiles : List (Arr α)} {axis : Nat} {b : Arr α} :
    mkMosaic tiles axis = .ok b ↔ tiles ≠ [] ∧ (∃ s : List Nat, axis < s.length ∧ ∀ t ∈ tiles, ∃ k, t.shape = .ok (s.set axis k)) ∧
      b = .mosaic tiles.length (fun i => tiles.getD i default) axis := by
  constructor
  · intro h
    refine ⟨?_, ?_, mkMosaic_form h⟩
    · rintro rfl; cases h
    · unfold mkMosaic at h
      split at h
      · cases h
      · rename_i t ts
        obtain ⟨s0, hs0, h⟩ := bind_ok.mp h
        split at h
        · cases h
        · rename_i hax
          simp only [not_not] at hax
          obtain ⟨l, hl, h⟩ := bind_ok.mp h
          refine ⟨s0, hax, fun t' ht' => ?_⟩
          rcases List.mem_cons.mp ht' with rfl | ht'
          · refine ⟨s0[axis], ?_⟩
            rw [hs0, List.set_getElem_self]
          · have := (mapM_iff _ _ _).mp hl
            obtain ⟨y, _, hy⟩ := forall₂_mem_left this ht'
            obtain ⟨s, hs, hy⟩ := bind_ok.mp hy
            by_cases hax' : axis < s.length
            · by_cases hne : s.eraseIdx axis = s0.eraseIdx axis
              · obtain ⟨k, rfl⟩ := (eraseIdx_eq_iff hax' hax).mp hne
                exact ⟨k, hs⟩
              · simp [hax', hne, throw, throwThe, MonadExceptOf.throw] at hy
            · simp [hax', throw, throwThe, MonadExceptOf.throw, bind, Except.bind] at hy
  · rintro ⟨hne, ⟨s, hax, hs⟩, rfl⟩
    match tiles, hne with
    | t :: ts, _ =>
      unfold mkMosaic
      obtain ⟨k0, hk0⟩ := hs t List.mem_cons_self
      simp only [hk0, bind, Except.bind]
      rw [if_neg (by simpa using hax), mapM_ok _ _ (fun _ => ())]
      · rfl
      · intro t' ht'
        obtain ⟨k, hk⟩ := hs t' (List.mem_cons_of_mem _ ht')
        rw [hk]
        simp only
        rw [if_neg (by simpa using hax)]
        have : (s.set axis k).eraseIdx axis = (s.set axis k0).eraseIdx axis :=
          (eraseIdx_eq_iff (by simpa using hax) (by simpa using hax)).mpr ⟨k, by rw [List.set_set]⟩
        rw [this]
        simp [pure, Except.pure]

/-! ### well-formedness of what the constructors give -/

theorem mkNewAxes_WF {a b : Arr α} {na : List Nat} (hwf : a.WF) (h : mkNewAxes a na = .ok b) : b.WF := by
  unfold mkNewAxes at h
  obtain ⟨s, hs, h'⟩ := bind_ok.mp h
  obtain ⟨h1, rfl⟩ := (mkNewAxes_iff hs).mp h
  exact ⟨hwf, s, hs, h1⟩

theorem mkBcast_WF {a b : Arr α} {d : List (Nat × Nat)} {lead : List Nat} (hwf : a.WF) (hnl : a.noLead)
    (hn : (d.map Prod.fst).Nodup) (h : mkBcast a d lead = .ok b) : b.WF ∧ (lead = [] → b.noLead) := by
  by_cases hb : a.notBcast = true
  · rw [mkBcast_notBcast hb] at h
    have h' := h
    unfold mkBcastFlat at h'
    obtain ⟨s, hs, _⟩ := bind_ok.mp h'
    obtain ⟨h1, h2, rfl⟩ := (mkBcastFlat_iff hs hn).mp h
    exact ⟨⟨hwf, hb, hnl, hn, h2, s, hs, h1⟩, fun h => h⟩
  · match a, hb with
    | .bcast a' d' lead', _ =>
      obtain ⟨hwf', hnb', hnl', hn', _, s, hs, h1'⟩ := hwf
      have hl' : lead' = [] := hnl
      subst hl'
      have h : mkBcastFlat a' (dictUpdate d' d) (lead ++ []) = .ok b := h
      rw [List.append_nil] at h
      obtain ⟨h1, h2, rfl⟩ := (mkBcastFlat_iff hs (dictUpdate_nodup hn' hn)).mp h
      exact ⟨⟨hwf', hnb', hnl', dictUpdate_nodup hn' hn, h2, s, hs, h1⟩, fun h => h⟩

theorem mkTransposed_WF {a b : Arr α} {s axes : List Nat} (hwf : a.WF) (hs : a.shape = .ok s)
    (hp : axes.Perm (List.range s.length)) (h : mkTransposed a axes = .ok b) : b.WF := by
  obtain ⟨_, rfl⟩ := (mkTransposed_iff hs).mp h
  exact ⟨hwf, s, hs, hp⟩

theorem mkStack_WF {ss : List Nat} {items : List Nat → Arr α} {b : Arr α} (hwf : ∀ i, InB ss i → (items i).WF)
    (h : mkStack ss items = .ok b) : b.WF := by
  obtain ⟨h0, ⟨s, hs⟩, rfl⟩ := mkStack_iff.mp h
  exact ⟨h0, s, fun i hi => ⟨hwf i hi, hs i hi⟩⟩

theorem mkMosaic_WF [Inhabited α] {tiles : List (Arr α)} {axis : Nat} {b : Arr α} (hwf : ∀ t ∈ tiles, t.WF)
    (h : mkMosaic tiles axis = .ok b) : b.WF := by
  obtain ⟨h0, ⟨s, hax, hs⟩, rfl⟩ := mkMosaic_iff.mp h
  refine ⟨List.length_pos_iff.mpr h0, s, hax, fun i hi => ?_⟩
  have hm : tiles.getD i default ∈ tiles := by
    rw [List.getD_eq_getElem _ _ hi]; exact List.getElem_mem hi
  exact ⟨hwf _ hm, hs _ hm⟩

theorem mkAdapter_WF {o : Bool} {c : Concrete α} {keys : List Key} {b : Arr α}
    (hk : ∀ k ∈ keys, k.storable = true ∧ k.wellTyped) (h : mkAdapter o c keys = .ok b) : b.WF ∧ b = .adapter o c keys := by
  unfold mkAdapter at h
  split at h
  · cases h
  · rename_i hlen
    obtain ⟨l, hl, h⟩ := bind_ok.mp h
    cases h
    refine ⟨⟨fun k hk' => (hk k hk').1, ?_⟩, rfl⟩
    have hexp : expandKeys keys c.data.shape.length = .ok (keys ++ List.replicate (c.data.shape.length - keys.length) Key.full) := by
      rw [expandKeys_noEllipsis keys _ (by simpa using fun k hk' => (storable_exact (hk k hk').1).2)]
      have : nConsuming keys = keys.length := by
        unfold nConsuming
        rw [List.filter_eq_self.mpr]
        intro k hk'; simp [(storable_exact (hk k hk').1).1]
      rw [this, if_pos (by omega)]
    have hres : ∀ (ks : List Key) (s : List Nat) (l : List Key), (∀ k ∈ ks, k.storable = true ∧ k.wellTyped) → ¬ s.length < ks.length →
        (ks.zip s).mapM (fun p => cleanupKey p.1 p.2) = .ok l →
        ∃ σ, resolve (ks ++ List.replicate (s.length - ks.length) Key.full) s = .ok σ := by
      intro ks
      induction ks with
      | nil =>
        intro s l _ _ _
        obtain ⟨σ, hσ⟩ := resolve_full_exists s
        exact ⟨σ, by simpa using hσ⟩
      | cons k ks ih =>
        intro s l hk hlen hl
        match s with
        | [] => simp at hlen
        | n :: s =>
          rw [List.zip_cons_cons, List.mapM_cons] at hl
          obtain ⟨k', hk', hl⟩ := bind_ok.mp hl
          obtain ⟨l', hl', hl⟩ := bind_ok.mp hl
          obtain ⟨σ, hσ⟩ := ih s l' (fun k h => hk k (List.mem_cons_of_mem _ h)) (by simpa using hlen) hl'
          obtain ⟨h1, h2⟩ := hk k List.mem_cons_self
          have : ∃ x, resolve1 k n = .ok x := by
            cases k with
            | int i =>
              simp only [cleanupKey] at hk'
              split at hk'
              · rename_i h; exact ⟨_, by simp only [resolve1]; rw [if_pos h]⟩
              · cases hk'
            | slice sl =>
              have h0 : sl.step ≠ some 0 := h2
              have : ∃ r, sl.range n = .ok r := by
                unfold PySlice.range PySlice.indices
                have : sl.step.getD 1 ≠ 0 := by
                  cases hst : sl.step with
                  | none => simp
                  | some v =>
                    rw [hst] at h0
                    simpa using h0
                simp only [this, if_false, bind, Except.bind]
                exact ⟨_, rfl⟩
              obtain ⟨r, hr⟩ := this
              exact ⟨_, by simp only [resolve1, hr, bind, Except.bind]; rfl⟩
            | tuple l =>
              simp only [cleanupKey] at hk'
              split at hk'
              · rename_i h; exact ⟨_, by simp only [resolve1]; rw [if_pos h]⟩
              · cases hk'
            | barr l =>
              simp only [cleanupKey] at hk'
              split at hk'
              · cases hk'
              · rename_i h; exact ⟨_, by simp only [resolve1]; rw [if_pos (by omega)]⟩
            | list l => simp [Key.storable] at h1
            | iarr l => simp [Key.storable] at h1
            | newaxis => simp [Key.storable] at h1
            | ellipsis => simp [Key.storable] at h1
            | bad => simp [Key.storable] at h1
          obtain ⟨x, hx⟩ := this
          refine ⟨x :: σ, ?_⟩
          rw [List.cons_append]
          refine (resolve_cons_iff (storable_exact h1).1).mpr ⟨n, s, x, σ, rfl, rfl, hx, ?_⟩
          simpa using hσ
    obtain ⟨σ, hσ⟩ := hres keys c.data.shape l hk hlen hl
    exact ⟨_, npIndex_ok_iff.mpr ⟨_, σ, hexp, hσ, rfl⟩⟩

end Biggus

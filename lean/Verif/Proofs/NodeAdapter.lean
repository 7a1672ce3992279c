import Verif.Proofs.Select
/-
Indexing an adapter: composing the stored keys with new keys.
-/
namespace Biggus

/-- Selection `s` made on top of the positions `l`. -/
def pickComp (l : List Nat) : Sel → Sel
  | .at j => .at (l.getD j 0)
  | .pick l' => .pick (l'.map (fun j => l.getD j 0))
  | .new => .new

theorem getD_map_normIdx (ind : List Int) (n j : Nat) (h : j < ind.length) :
    normIdx (ind.getD j 0) n = (ind.map (normIdx · n)).getD j 0 := by
  simp [List.getD_eq_getElem?_getD, h]

theorem all_inRange_getD {ind : List Int} {n j : Nat} (hr : ∀ i ∈ ind, inRange i n = true) (h : j < ind.length) :
    inRange (ind.getD j 0) n = true := hr _ (getD_mem ind j 0 h)

theorem pyGetSlice_eq {ind : List Int} {s : PySlice} {r : List Int} (hr : s.range ind.length = .ok r) :
    pyGetSlice ind s = .ok (r.map (fun i => ind.getD i.toNat 0)) := by
  unfold pyGetSlice
  rw [hr]
  simp only [bind, Except.bind, pure, Except.pure]
  congr 1
  have := filterMap_getElem? ind 0 (r.map Int.toNat) (by
    intro i hi
    obtain ⟨j, hj, rfl⟩ := List.mem_map.mp hi
    have := range_mem hr j hj
    omega)
  rw [List.filterMap_map, List.map_map] at this
  exact this

theorem resolve1_slice {s : PySlice} {n : Nat} {σ : Sel} (h : resolve1 (.slice s) n = .ok σ) :
    ∃ r, s.range n = .ok r ∧ σ = .pick (r.map Int.toNat) := by
  simp only [resolve1, bind, Except.bind] at h
  split at h
  · cases h
  · rename_i r hr; cases h; exact ⟨r, hr, rfl⟩

theorem remapKey_ok {ind : List Int} {n : Nat} (hr : ∀ i ∈ ind, inRange i n = true) {k : Key} {s : Sel}
    (hk : k.isNewaxis = false) (h : resolve1 k ind.length = .ok s) :
    ∃ k', remapKey ind k = .ok k' ∧ resolve1 k' n = .ok (pickComp (ind.map (normIdx · n)) s) ∧
      k'.storable = true := by
  have htup : ∀ js : List Nat, (∀ j ∈ js, j < ind.length) →
      resolve1 (.tuple (js.map (fun j => ind.getD j 0))) n =
        .ok (pickComp (ind.map (normIdx · n)) (.pick js)) := by
    intro js hjs
    simp only [resolve1]
    rw [if_pos]
    · simp only [pickComp]
      rw [List.map_map]
      congr 2
      apply List.map_congr_left
      intro j hj
      exact getD_map_normIdx ind n j (hjs j hj)
    · rw [List.all_eq_true]
      intro i hi
      obtain ⟨j, hj, rfl⟩ := List.mem_map.mp hi
      exact all_inRange_getD hr (hjs j hj)
  cases k with
  | int i =>
    simp only [resolve1] at h
    split at h
    · rename_i hi
      cases h
      refine ⟨.int (seqGet ind i), by simp [remapKey, hi], ?_, rfl⟩
      have hlt := normIdx_lt hi
      simp only [resolve1, seqGet, all_inRange_getD hr hlt, if_true, pickComp]
      rw [getD_map_normIdx ind n _ hlt]
    · cases h
  | slice sl =>
    obtain ⟨r, hr', rfl⟩ := resolve1_slice h
    refine ⟨.tuple (r.map (fun i => ind.getD i.toNat 0)), ?_, ?_, rfl⟩
    · simp only [remapKey, pyGetSlice_eq hr']; rfl
    · have := htup (r.map Int.toNat) (by
        intro j hj
        obtain ⟨i, hi, rfl⟩ := List.mem_map.mp hj
        have := range_mem hr' i hi; omega)
      rw [List.map_map] at this
      exact this
  | tuple l | list l | iarr l =>
    simp only [resolve1] at h
    split at h
    · rename_i hi
      cases h
      refine ⟨.tuple (l.map (seqGet ind)), by simp only [remapKey, hi, if_true], ?_, rfl⟩
      have := htup (l.map (normIdx · ind.length)) (by
        intro j hj
        obtain ⟨i, hi', rfl⟩ := List.mem_map.mp hj
        exact normIdx_lt (List.all_eq_true.mp hi i hi'))
      rw [List.map_map] at this
      exact this
    · cases h
  | barr l =>
    simp only [resolve1] at h
    split at h
    · rename_i hi
      cases h
      refine ⟨.tuple ((truePositions l).map (fun i => ind.getD i 0)), ?_, ?_, rfl⟩
      · simp only [remapKey]; rw [if_neg (by omega)]
      · exact htup _ (fun j hj => lt_of_lt_of_le (truePositions_lt l j hj) hi)
    · cases h
  | newaxis => simp [Key.isNewaxis] at hk
  | ellipsis => simp [resolve1] at h
  | bad => simp [resolve1] at h

theorem cleanupKey_ok {k : Key} {n : Nat} {s : Sel} (hk : k.isNewaxis = false) (h : resolve1 k n = .ok s) :
    ∃ k', cleanupKey k n = .ok k' ∧ resolve1 k' n = .ok s ∧ k'.storable = true := by
  cases k with
  | int i =>
    simp only [resolve1] at h
    split at h
    · rename_i hi; exact ⟨.int i, by simp [cleanupKey, hi], by simp [resolve1, hi, h], rfl⟩
    · cases h
  | slice s => exact ⟨_, rfl, h, rfl⟩
  | tuple l | list l | iarr l =>
    simp only [resolve1] at h
    split at h
    · rename_i hi; exact ⟨.tuple l, by simp only [cleanupKey, hi, if_true], by simp only [resolve1, hi, if_true, h], rfl⟩
    · cases h
  | barr l =>
    have h' := h
    simp only [resolve1] at h
    split at h
    · rename_i hi; exact ⟨.barr l, by simp only [cleanupKey]; rw [if_neg (by omega)], h', rfl⟩
    · cases h
  | newaxis => simp [Key.isNewaxis] at hk
  | ellipsis => simp [resolve1] at h
  | bad => simp [resolve1] at h

theorem storable_exact {k : Key} (h : k.storable = true) : k.isNewaxis = false ∧ k.isEllipsis = false := by
  cases k <;> simp_all [Key.storable, Key.isNewaxis, Key.isEllipsis]

/-- Full slices select everything. -/
theorem resolve_full {sh : List Nat} {σ : List Sel} (h : resolve (List.replicate sh.length Key.full) sh = .ok σ) :
    selShape σ = sh ∧ ∀ idx, InB sh idx → selSrc σ idx = idx := by
  induction sh generalizing σ with
  | nil =>
    obtain ⟨_, rfl⟩ := resolve_nil_iff.mp h
    refine ⟨rfl, fun idx hi => ?_⟩
    cases idx with
    | nil => rfl
    | cons => exact hi.elim
  | cons n ns ih =>
    simp only [List.length_cons, List.replicate_succ] at h
    obtain ⟨n', ns', s, σ', he, rfl, h1, h2⟩ := (resolve_cons_iff rfl).mp h
    cases he
    rw [resolve1_full] at h1
    cases h1
    have := ih h2
    refine ⟨by simp [selShape, this.1], fun idx hi => ?_⟩
    match idx, hi with
    | j :: idx, hi =>
      simp only [selSrc]
      rw [this.2 idx hi.2]
      congr 1
      simp [List.getD_eq_getElem?_getD, hi.1]

theorem resolve_full_exists (sh : List Nat) : ∃ σ, resolve (List.replicate sh.length Key.full) sh = .ok σ := by
  induction sh with
  | nil => exact ⟨[], rfl⟩
  | cons n ns ih =>
    obtain ⟨σ, hσ⟩ := ih
    exact ⟨.pick (List.range n) :: σ, by
      simp only [List.length_cons, List.replicate_succ]
      exact (resolve_cons_iff rfl).mpr ⟨n, ns, _, σ, rfl, rfl, resolve1_full n, hσ⟩⟩

theorem cleanup_mapM {new : List Key} {sh : List Nat} {τ : List Sel} (he : Exact new)
    (h : resolve new sh = .ok τ) :
    ∃ ks', (new.zip sh).mapM (fun p => cleanupKey p.1 p.2) = .ok ks' ∧ resolve ks' sh = .ok τ ∧
      ∀ k ∈ ks', k.storable = true := by
  induction new generalizing sh τ with
  | nil =>
    obtain ⟨rfl, rfl⟩ := resolve_nil_iff.mp h
    exact ⟨[], rfl, rfl, by simp⟩
  | cons k new ih =>
    obtain ⟨n, ns, s, τ', rfl, rfl, h1, h2⟩ := (resolve_cons_iff (he k List.mem_cons_self).1).mp h
    obtain ⟨ks', h3, h4, h5⟩ := ih he.tail h2
    obtain ⟨k', h6, h7, h8⟩ := cleanupKey_ok (he k List.mem_cons_self).1 h1
    refine ⟨k' :: ks', ?_, ?_, ?_⟩
    · rw [List.zip_cons_cons, List.mapM_cons, h6, h3]; rfl
    · exact (resolve_cons_iff (storable_exact h8).1).mpr ⟨n, ns, s, τ', rfl, rfl, h7, h4⟩
    · intro x hx
      rcases List.mem_cons.mp hx with rfl | hx
      · exact h8
      · exact h5 x hx

/-- A selection of shape `()` picks a single element: there is no room for padding. -/
theorem selShape_nil_pad {stored : List Key} {sh : List Nat} {σ : List Sel} (he : Exact stored)
    (p : Nat) (h : resolve (stored ++ List.replicate p Key.full) sh = .ok σ)
    (hs : selShape σ = []) : p = 0 := by
  induction stored generalizing sh σ with
  | nil =>
    cases p with
    | zero => rfl
    | succ p =>
      simp only [List.nil_append, List.replicate_succ] at h
      obtain ⟨n, ns, s, σ', rfl, rfl, h1, h2⟩ := (resolve_cons_iff rfl).mp h
      rw [resolve1_full] at h1; cases h1
      simp [selShape] at hs
  | cons k stored ih =>
    obtain ⟨n, ns, s, σ', rfl, rfl, h1, h2⟩ := (resolve_cons_iff (he k List.mem_cons_self).1).mp h
    refine ih he.tail h2 ?_
    cases s <;> simp_all [selShape]

theorem adapterLoop_ok {stored : List Key} : ∀ {sh : List Nat} {new : List Key} {σ τ : List Sel} (p : Nat),
    (∀ k ∈ stored, k.storable = true ∧ ∀ l, k ≠ .barr l) → Exact new →
    resolve (stored ++ List.replicate p Key.full) sh = .ok σ → resolve new (selShape σ) = .ok τ →
    ∃ ks' ρ, adapterLoop stored sh new = .ok ks' ∧ (∀ k ∈ ks', k.storable = true) ∧
      resolve ks' sh = .ok ρ ∧ selShape ρ = selShape τ ∧
      ∀ idx, InB (selShape τ) idx → selSrc ρ idx = selSrc σ (selSrc τ idx) := by
  induction stored with
  | nil =>
    intro sh new σ τ p _ he hσ hτ
    have hp : p = sh.length := by
      have := (resolve_length (exact_replicate_full p) hσ).1; simpa using this
    subst hp
    have hfull := resolve_full hσ
    rw [hfull.1] at hτ
    obtain ⟨ks', h1, h2, h3⟩ := cleanup_mapM he hτ
    refine ⟨ks', τ, ?_, h3, h2, rfl, ?_⟩
    · unfold adapterLoop; exact h1
    · intro idx hi
      rw [hfull.2 _ (selSrc_inB hτ idx hi)]
  | cons k stored ih =>
    intro sh new σ τ p hst he hσ hτ
    have hk := hst k List.mem_cons_self
    have hst' : ∀ k ∈ stored, k.storable = true ∧ ∀ l, k ≠ .barr l :=
      fun k hk => hst k (List.mem_cons_of_mem _ hk)
    cases new with
    | nil =>
      obtain ⟨hs, rfl⟩ := resolve_nil_iff.mp hτ
      have hexact : Exact (k :: stored) := fun x hx => storable_exact (hst x hx).1
      have hp := selShape_nil_pad hexact p hσ hs
      subst hp
      simp only [List.replicate_zero, List.append_nil] at hσ
      refine ⟨k :: stored, σ, ?_, fun x hx => (hst x hx).1, hσ, hs, ?_⟩
      · unfold adapterLoop; rfl
      · intro idx hi
        cases idx with
        | nil => rfl
        | cons => exact hi.elim
    | cons nk new =>
      rw [List.cons_append] at hσ
      obtain ⟨n, ns, s, σ', rfl, rfl, h1, h2⟩ := (resolve_cons_iff (storable_exact hk.1).1).mp hσ
      -- an index array (or slice) stored under positions `ind`
      have hpick : ∀ ind : List Int, (∀ i ∈ ind, inRange i n = true) →
          s = .pick (ind.map (normIdx · n)) →
          adapterLoop (k :: stored) (n :: ns) (nk :: new) = (do
            let k' ← remapKey ind nk
            let r ← adapterLoop stored ns new
            return k' :: r) →
          ∃ ks' ρ, adapterLoop (k :: stored) (n :: ns) (nk :: new) = .ok ks' ∧ (∀ k ∈ ks', k.storable = true) ∧
            resolve ks' (n :: ns) = .ok ρ ∧ selShape ρ = selShape τ ∧
            ∀ idx, InB (selShape τ) idx → selSrc ρ idx = selSrc (s :: σ') (selSrc τ idx) := by
        intro ind hind hs hloop
        subst hs
        simp only [selShape, List.length_map] at hτ
        obtain ⟨n', ns', t, τ', hn, rfl, ht1, ht2⟩ := (resolve_cons_iff (he nk List.mem_cons_self).1).mp hτ
        cases hn
        obtain ⟨k', hk1, hk2, hk3⟩ := remapKey_ok hind (he nk List.mem_cons_self).1 ht1
        obtain ⟨ks', ρ, hi1, hi2, hi3, hi4, hi5⟩ := ih p hst' he.tail h2 ht2
        refine ⟨k' :: ks', pickComp (ind.map (normIdx · n)) t :: ρ, ?_, ?_, ?_, ?_, ?_⟩
        · rw [hloop, hk1, hi1]; rfl
        · intro x hx
          rcases List.mem_cons.mp hx with rfl | hx
          · exact hk3
          · exact hi2 x hx
        · exact (resolve_cons_iff (storable_exact hk3).1).mpr ⟨n, ns, _, ρ, rfl, rfl, hk2, hi3⟩
        · have htk := resolve1_ok (he nk List.mem_cons_self).1 ht1
          cases t with
          | «at» j => simpa [pickComp, selShape] using hi4
          | pick l => simpa [pickComp, selShape] using hi4
          | new => exact htk.elim
        · intro idx hidx
          have htk := resolve1_ok (he nk List.mem_cons_self).1 ht1
          cases t with
          | «at» j => simp only [pickComp, selSrc, hi5 idx hidx]
          | pick l =>
            match idx, hidx with
            | j :: idx, hidx =>
              simp only [pickComp, selSrc, hi5 idx hidx.2]
              congr 1
              rw [getD_map' l (fun j => (ind.map (normIdx · n)).getD j 0) j 0 0 hidx.1]
          | new => exact htk.elim
      cases k with
      | int i =>
        simp only [resolve1] at h1
        split at h1
        · rename_i hi
          cases h1
          obtain ⟨ks', ρ, hi1, hi2, hi3, hi4, hi5⟩ := ih p hst' he h2 hτ
          refine ⟨.int i :: ks', .at (normIdx i n) :: ρ, ?_, ?_, ?_, hi4, ?_⟩
          · rw [adapterLoop]
            · simp only [List.tail_cons, hi1]; rfl
            · simp
          · intro x hx
            rcases List.mem_cons.mp hx with rfl | hx
            · rfl
            · exact hi2 x hx
          · exact (resolve_cons_iff rfl).mpr ⟨n, ns, _, ρ, rfl, rfl, by simp [resolve1, hi], hi3⟩
          · intro idx hidx
            simp only [selSrc, hi5 idx hidx]
        · cases h1
      | slice sl =>
        obtain ⟨r, hr, hs⟩ := resolve1_slice h1
        refine hpick r (fun i hi => ?_) ?_ ?_
        · have := range_mem hr i hi; exact inRange_of_bounds this.1 this.2
        · rw [hs]; congr 1
          apply List.map_congr_left
          intro i hi
          exact (normIdx_nonneg (range_mem hr i hi).1).symm
        · rw [adapterLoop]; simp only [List.headD_cons, List.tail_cons, hr, bind, Except.bind]
      | tuple l =>
        simp only [resolve1] at h1
        split at h1
        · rename_i hi
          cases h1
          exact hpick l (fun i h => List.all_eq_true.mp hi i h) rfl (by rw [adapterLoop]; rfl)
        · cases h1
      | barr l => exact absurd rfl (hk.2 l)
      | list l => simp [Key.storable] at hk
      | iarr l => simp [Key.storable] at hk
      | newaxis => simp [Key.storable] at hk
      | ellipsis => simp [Key.storable] at hk
      | bad => simp [Key.storable] at hk

variable {α V : Type}

theorem mkAdapter_ok (o : Bool) (c : Concrete α) {ks : List Key} {ρ : List Sel} (hs : ∀ k ∈ ks, k.storable = true)
    (h : resolve ks c.data.shape = .ok ρ) : mkAdapter o c ks = .ok (.adapter o c ks) := by
  have he : Exact ks := fun k hk => storable_exact (hs k hk)
  have hl := resolve_length he h
  obtain ⟨ks', h1, _⟩ := cleanup_mapM he h
  unfold mkAdapter
  rw [if_neg (by omega)]
  simp only [h1, bind, Except.bind, pure, Except.pure]

/-- Expanding keys that are all storable just pads with `:`. -/
theorem expandKeys_storable {keys fk : List Key} {n : Nat} (hs : ∀ k ∈ keys, k.storable = true)
    (h : expandKeys keys n = .ok fk) : fk = keys ++ List.replicate (n - keys.length) Key.full := by
  rw [expandKeys_noEllipsis keys n (by simpa using fun k hk => (storable_exact (hs k hk)).2)] at h
  have : nConsuming keys = keys.length := by
    unfold nConsuming
    rw [List.filter_eq_self.mpr]
    intro k hk; simp [(storable_exact (hs k hk)).1]
  rw [this] at h
  split at h
  · exact (Except.ok.inj h).symm
  · cases h

/-- Adapter node: indexing composes with the stored keys. -/
theorem adapterFull_ok [Inhabited V] (m : Mode α V) (o : Bool) (c : Concrete α) (stored : List Key)
    (hwf : (Arr.adapter o c stored).WF) (hb : ∀ k ∈ stored, ∀ l, k ≠ .barr l) (fk : List Key) (τ : List Sel)
    (he : Exact fk) (h : resolve fk ((Arr.adapter o c stored).den m).shape = .ok τ) :
    ∃ b, adapterFull o c stored fk = .ok b ∧ b.WF ∧ b.den m ≈ₐ ((Arr.adapter o c stored).den m).ortho τ := by
  obtain ⟨hst, r, hr⟩ := hwf
  rw [den_adapter m o c stored r hr] at h ⊢
  obtain ⟨fk0, σ, h1, h2, rfl⟩ := npIndex_ok_iff.mp hr
  have := expandKeys_storable hst h1
  subst this
  obtain ⟨ks', ρ, ha, hb', hc, hd, hee⟩ := adapterLoop_ok (c.data.shape.length - stored.length)
    (fun k hk => ⟨hst k hk, hb k hk⟩) he h2 h
  have hexact : Exact ks' := fun k hk => storable_exact (hb' k hk)
  have hidx := npIndex_exact c.data ks' ρ (resolve_length hexact hc).1 hexact hc
  refine ⟨.adapter o c ks', ?_, ⟨hb', _, hidx⟩, ?_⟩
  · unfold adapterFull
    rw [ha]
    exact mkAdapter_ok o c hb' hc
  · rw [den_adapter m o c ks' _ hidx]
    refine ⟨hd, fun idx hi => ?_⟩
    simp only [NDA.map, NDA.ortho]
    rw [hee idx (by rw [← hd]; exact hi)]

end Biggus

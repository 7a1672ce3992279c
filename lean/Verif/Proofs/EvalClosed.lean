import Verif.Proofs.EvalClosure
import Verif.Spec.Reads
/-
Cutting an expression with chunk keys keeps it `Arr.Ok`, and evaluation of every `Arr.Ok` expression is right.
-/
namespace Biggus

variable {α V : Type}

/-- What cutting `a` with the keys `fk` keeps. -/
structure Closed (m : Mode α V) (limit : Nat) (cut : Cut) (a : Arr α) (fk : List Key) (b : Arr α) : Prop where
  ok : b.Ok m limit cut
  stream : a.streamOk m limit → b.streamOk m limit
  skel : b.skel = a.skel.index fk
  level : ∀ n, a.levelLe n → b.levelLe n
  thrifty : ∀ st n k, (cut = .arrays → 2 ≤ n) → n = k + 1 ∨ 2 ≤ n → a.thrifty st n → b.thrifty st k

theorem isProd_skel {a : Arr α} (h : a.isProd = true) : a.skel = .prod (okOr a.shape []) := by
  cases a <;> first | rfl | cases h

theorem isProd_streamOk (m : Mode α V) (limit : Nat) {a : Arr α} (h : a.isProd = true) : a.streamOk m limit := by
  cases a <;> first | trivial | cases h

/-- Indexing with chunk keys. -/
theorem chunk_getitem [Inhabited α] [Inhabited V] (m : Mode α V) (limit : Nat) (a : Arr α) (cut : Cut) (hwf : a.WF)
    (hok : a.Ok m limit cut) (hc : cut ≠ .whole) {ks fk : List Key} (hexp : expandKeys ks (a.den m).shape.length = .ok fk)
    (hfk : List.Forall₂ (ChunkKey cut) fk (a.den m).shape) :
    ∃ b σ, a.getitem ks = .ok b ∧ b.WF ∧ resolve fk (a.den m).shape = .ok σ ∧ b.den m ≈ₐ (a.den m).ortho σ := by
  obtain ⟨σ, h1, _, _⟩ := chunkKeys_resolve hfk
  obtain ⟨b, hb, hb2, hb3, _⟩ := getitem_ok m a hwf ks fk _ hexp (chunk_keysOk m limit a cut hwf hok hc fk hfk)
    (npIndex_ok_iff.mpr ⟨fk, σ, hexp, h1, rfl⟩)
  exact ⟨b, σ, hb, hb2, h1, hb3⟩

theorem Closed.ofProd [Inhabited V] {m : Mode α V} {limit : Nat} {cut : Cut} {a b : Arr α} {fk : List Key} {σ : List Sel}
    (ha : a.isProd = true) (hb : b.isProd = true) (hwa : a.WF) (hwb : b.WF) (hσ : resolve fk (a.den m).shape = .ok σ)
    (hd : b.den m ≈ₐ (a.den m).ortho σ) (ok : b.Ok m limit cut) (level : ∀ n, a.levelLe n → b.levelLe n)
    (thrifty : ∀ st n k, (cut = .arrays → 2 ≤ n) → n = k + 1 ∨ 2 ≤ n → a.thrifty st n → b.thrifty st k) :
    Closed m limit cut a fk b := by
  refine ⟨ok, fun _ => isProd_streamOk m limit hb, ?_, level, thrifty⟩
  rw [isProd_skel ha, isProd_skel hb, hwa.shape_eq m, hwb.shape_eq m]
  unfold Skel.index
  simp only [okOr, hσ]
  rw [hd.1]; rfl

/-- Cutting by slices makes at most the stored keys that are not integers into tuples. -/
theorem adapterLoop_tuples : ∀ (stored : List Key) (sh : List Nat) (new ks' : List Key), (∀ k ∈ new, ∃ s, k = .slice s) →
    adapterLoop stored sh new = .ok ks' → (ks'.filter Key.isTuple).length ≤ (stored.filter (fun k => !k.isScalar)).length := by
  intro stored
  induction stored with
  | nil =>
    intro sh new ks' hnew h
    unfold adapterLoop at h
    have hf := mapM_ok_inv _ _ _ h
    have : ks'.filter Key.isTuple = [] := by
      rw [List.filter_eq_nil_iff]
      intro k hk
      obtain ⟨x, hx, hxk⟩ := forall₂_mem_left hf.flip hk
      obtain ⟨k0, n0⟩ := x
      obtain ⟨s, rfl⟩ := hnew k0 (List.of_mem_zip hx).1
      simp only [cleanupKey] at hxk
      injection hxk with hxk
      subst hxk
      simp [Key.isTuple]
    rw [this]; simp
  | cons k stored ih =>
    intro sh new ks' hnew h
    have hle : ∀ l : List Key, (l.filter Key.isTuple).length ≤ (l.filter (fun k => !k.isScalar)).length := by
      intro l
      apply List.Sublist.length_le
      apply List.monotone_filter_right
      intro x hx
      cases x <;> simp_all [Key.isTuple, Key.isScalar]
    have hone : ∀ (k' : Key) (r : List Key), (r.filter Key.isTuple).length ≤ (stored.filter (fun k => !k.isScalar)).length →
        k.isScalar = false → ((k' :: r).filter Key.isTuple).length ≤ ((k :: stored).filter (fun k => !k.isScalar)).length := by
      intro k' r hr hk
      have e : ((k :: stored).filter (fun k => !k.isScalar)).length = (stored.filter (fun k => !k.isScalar)).length + 1 := by
        rw [List.filter_cons_of_pos (by simp [hk]), List.length_cons]
      rw [e]
      by_cases h : k'.isTuple = true
      · rw [List.filter_cons_of_pos h, List.length_cons]; omega
      · rw [List.filter_cons_of_neg h]; omega
    match new, hnew with
    | [], _ =>
      have hks : ks' = k :: stored := by
        cases k <;> first | (simp only [adapterLoop] at h; injection h with h; exact h.symm) | cases h
      subst hks
      exact hle _
    | nk :: new, hnew =>
      have hnew' : ∀ k ∈ new, ∃ s, k = .slice s := fun k hk => hnew k (by simp [hk])
      cases k with
      | int i =>
        simp only [adapterLoop] at h
        obtain ⟨r, hr, h⟩ := bind_ok.mp h
        cases h
        have := ih _ _ _ hnew hr
        rw [List.filter_cons_of_neg (by simp [Key.isTuple]), List.filter_cons_of_neg (by simp [Key.isScalar])]
        exact this
      | slice sl =>
        simp only [adapterLoop] at h
        obtain ⟨ind, _, h⟩ := bind_ok.mp h
        obtain ⟨k', hk', h⟩ := bind_ok.mp h
        obtain ⟨r, hr, h⟩ := bind_ok.mp h
        cases h
        exact hone _ _ (ih _ _ _ hnew' hr) rfl
      | tuple l0 | list l0 | iarr l0 | barr l0 =>
        simp only [adapterLoop] at h
        obtain ⟨k', hk', h⟩ := bind_ok.mp h
        obtain ⟨r, hr, h⟩ := bind_ok.mp h
        cases h
        exact hone _ _ (ih _ _ _ hnew' hr) rfl
      | newaxis => cases h
      | ellipsis => cases h
      | bad => cases h

/-- Chunk keys stretch no new axis. -/
theorem chunk_naDict {cut : Cut} (hc : cut ≠ .arrays) : ∀ (fk : List Key) (p c : Nat) (ns s : List Nat),
    ns.length = s.length → List.Forall₂ (ChunkKey cut) fk (naShape (c :: ns) s) → naDict p c ns fk = [] := by
  intro fk
  induction fk with
  | nil => intro p c ns s _ _; cases c <;> cases ns <;> rfl
  | cons k fk ih =>
    intro p c ns s hl h
    cases c with
    | succ c =>
      rw [naShape_succ] at h
      obtain ⟨h1, h2⟩ := List.forall₂_cons.mp h
      obtain ⟨⟨sl, rfl⟩, hst⟩ := chunk_new_axis h1 hc
      simp only [naDict, ih _ c ns s hl h2, List.append_nil]
      unfold naDict1
      unfold stretchesNew at hst
      simp only at hst ⊢
      cases hr : sl.range 1 with
      | error e => rfl
      | ok r => rw [hr] at hst; simpa using hst
    | zero =>
      match ns, s, hl with
      | [], [], _ =>
        rw [show naShape [0] [] = [] from rfl] at h
        cases h
      | n :: ns, x :: s, hl =>
        rw [naShape_zero] at h
        obtain ⟨h1, h2⟩ := List.forall₂_cons.mp h
        obtain ⟨sl, rfl, _⟩ := h1.slice hc
        simp only [naDict]
        exact ih _ n ns s (by simpa using hl) h2

theorem arrayGetitem_exact {full : List Key → Res (Arr α)} {shape : Res (List Nat)} {s : List Nat} {ks fk : List Key}
    (hs : shape = .ok s) (hexp : expandKeys ks s.length = .ok fk) (he : Exact fk) : arrayGetitem full shape ks = full fk := by
  unfold arrayGetitem
  rw [hs]
  simp only [bind, Except.bind, fullKeys_of_expandKeys ks fk _ hexp]
  have : fk.any Key.isNewaxis = false := by
    rw [List.any_eq_false]
    intro k hk
    simp [(he k hk).1]
  rw [this]
  rfl

theorem mkBcast_form {sub b : Arr α} {d : List (Nat × Nat)} {lead : List Nat} (h : mkBcast sub d lead = .ok b) :
    ∃ x d' l', b = .bcast x d' l' ∧ (x = sub ∨ ∃ d0 l0, sub = .bcast x d0 l0) := by
  have flat : ∀ {x : Arr α} {d l}, mkBcastFlat x d l = .ok b → b = .bcast x d l := by
    intro x d l h
    unfold mkBcastFlat at h
    obtain ⟨_, _, h⟩ := bind_ok.mp h
    obtain ⟨_, _, h⟩ := bind_ok.mp h
    simp only at h
    split at h
    · cases h
    · cases h; rfl
  unfold mkBcast at h
  split at h
  · exact ⟨_, _, _, flat h, Or.inr ⟨_, _, rfl⟩⟩
  · exact ⟨_, _, _, flat h, Or.inl rfl⟩

theorem expand_exact {ks : List Key} {n : Nat} (he : Exact ks) (h : ks.length = n) : expandKeys ks n = .ok ks :=
  expandKeys_self (fun k hk => (he k hk).2) (by rw [nConsuming_exact he, h])

theorem expand_chunk {cut : Cut} {ks : List Key} {s : List Nat} (h : List.Forall₂ (ChunkKey cut) ks s) :
    expandKeys ks s.length = .ok ks := expand_exact (chunkKeys_exact h) h.length_eq

theorem filter_scalar_nil {cut : Cut} {ks : List Key} {s : List Nat} (h : List.Forall₂ (ChunkKey cut) ks s) (n : Nat) :
    ((ks.take n).filter Key.isScalar).length = 0 := by
  rw [List.length_eq_zero_iff, List.filter_eq_nil_iff]
  intro k hk
  obtain ⟨x, _, hx⟩ := forall₂_mem_left h (List.mem_of_mem_take hk)
  simp [hx.not_scalar]

theorem Arr.Ok.bcast_inner {m : Mode α V} {limit : Nat} {cut : Cut} {x sub : Arr α} (hc : cut ≠ .arrays)
    (h : x = sub ∨ ∃ d0 l0, sub = .bcast x d0 l0) (hok : sub.Ok m limit cut) (d : List (Nat × Nat)) (l : List Nat) :
    (Arr.bcast x d l).Ok m limit cut := by
  rcases h with rfl | ⟨d0, l0, rfl⟩
  · exact ⟨hc, hok⟩
  · exact ⟨hc, hok.2⟩

theorem Arr.levelLe.bcast_inner {n : Nat} {x sub : Arr α}
    (h : x = sub ∨ ∃ d0 l0, sub = .bcast x d0 l0) (hl : sub.levelLe n) (d : List (Nat × Nat)) (l : List Nat) :
    (Arr.bcast x d l).levelLe n := by
  rcases h with rfl | ⟨d0, l0, rfl⟩
  · exact hl
  · exact hl

theorem newAxesGetitem_form [Inhabited V] (m : Mode α V) {inner : List Key → Res (Arr α)} {a b : Arr α}
    {c : Nat} {ns : List Nat} (hl : ns.length = (a.den m).shape.length) {keys fk : List Key} {τ : List Sel}
    (hfk : expandKeys keys (naShape (c :: ns) (a.den m).shape).length = .ok fk)
    (hτ : resolve fk (naShape (c :: ns) (a.den m).shape) = .ok τ) (hg : naKeysOk false c ns fk)
    (h : newAxesGetitem inner (a.den m).shape.length (c :: ns) keys = .ok b) :
    ∃ b' na, inner (containedKeys c ns fk) = .ok b' ∧
      (b = .newAxes b' na ∨ ∃ d l, b = .bcast (.newAxes b' na) d l) := by
  obtain ⟨st, f1, f2, f3, f4, f5⟩ := naFold (p := 0) (o := 0) (P := []) (C0 := []) (K0 := []) (D0 := []) hl hg hτ
  simp only [List.nil_append, List.length_nil, Nat.add_zero, List.map_id', addHead_zero] at f1 f2 f3 f4 f5
  unfold newAxesGetitem at h
  rw [naShape_length (by simpa using hl)] at hfk
  rw [fullKeys_of_expandKeys keys fk _ hfk] at h
  simp only [bind, Except.bind] at h
  rw [← hl, naInsert_true] at h
  simp only [Nat.zero_add] at f1
  rw [f1] at h
  simp only [f3] at h
  cases hb : inner (containedKeys c ns fk) with
  | error e => rw [hb] at h; cases h
  | ok b' =>
    rw [hb] at h
    simp only at h
    unfold mkNewAxes at h
    cases hs : b'.shape with
    | error e => rw [hs] at h; cases h
    | ok s =>
      rw [hs] at h
      simp only [bind, Except.bind] at h
      split at h
      · cases h
      · rename_i r hr
        split at hr
        · cases hr
        · cases hr
          refine ⟨b', combineAxes st.combine st.newAxes, rfl, ?_⟩
          split at h
          · cases h; exact Or.inl rfl
          · obtain ⟨x, d', l', rfl, hx⟩ := mkBcast_form h
            rcases hx with rfl | ⟨_, _, hx⟩
            · exact Or.inr ⟨_, _, rfl⟩
            · cases hx

/-- Without stretched new axes the result is not a broadcast. -/
theorem newAxesGetitem_flat [Inhabited V] (m : Mode α V) {inner : List Key → Res (Arr α)} {a b : Arr α}
    {c : Nat} {ns : List Nat} (hl : ns.length = (a.den m).shape.length) {keys fk : List Key} {τ : List Sel}
    (hfk : expandKeys keys (naShape (c :: ns) (a.den m).shape).length = .ok fk)
    (hτ : resolve fk (naShape (c :: ns) (a.den m).shape) = .ok τ) (hg : naKeysOk false c ns fk)
    (hd : naDict 0 c ns fk = []) (h : newAxesGetitem inner (a.den m).shape.length (c :: ns) keys = .ok b) :
    b.notBcast = true := by
  obtain ⟨st, f1, f2, f3, f4, f5⟩ := naFold (p := 0) (o := 0) (P := []) (C0 := []) (K0 := []) (D0 := []) hl hg hτ
  simp only [List.nil_append, List.length_nil, Nat.add_zero, List.map_id', addHead_zero] at f1 f2 f3 f4 f5
  unfold newAxesGetitem at h
  rw [naShape_length (by simpa using hl)] at hfk
  rw [fullKeys_of_expandKeys keys fk _ hfk] at h
  simp only [bind, Except.bind] at h
  rw [← hl, naInsert_true] at h
  simp only [Nat.zero_add] at f1
  rw [f1] at h
  simp only [f3, f5, hd, List.isEmpty_nil, if_true] at h
  split at h
  · cases h
  · split at h
    · cases h
    · rename_i r hr
      cases h
      unfold mkNewAxes at hr
      obtain ⟨_, _, hr⟩ := bind_ok.mp hr
      simp only at hr
      split at hr
      · cases hr
      · cases hr; rfl

theorem mkMosaic_form [Inhabited α] {tiles : List (Arr α)} {axis : Nat} {b : Arr α} (h : mkMosaic tiles axis = .ok b) :
    b = .mosaic tiles.length (fun i => tiles.getD i default) axis := by
  unfold mkMosaic at h
  split at h
  · cases h
  · obtain ⟨_, _, h⟩ := bind_ok.mp h
    split at h
    · cases h
    · obtain ⟨_, _, h⟩ := bind_ok.mp h
      cases h; rfl

/-- What the tiles of a cut mosaic are. -/
theorem mosaicFull_form [Inhabited α] {inner : Nat → List Key → Res (Arr α)} {tiles : Nat → Arr α} {n axis : Nat} {cut : Cut}
    {s : List Nat} {lens : List Nat} {fk : List Key} {b : Arr α} (hax : axis < s.length) (hlen : lens.length = n)
    (hts : ∀ t, t < n → (tiles t).shape = .ok (s.set axis (lens.getD t 0))) (hpos : lens.sum ≠ 0)
    (hfk : List.Forall₂ (ChunkKey cut) fk (s.set axis lens.sum))
    (h : mosaicFull inner (fun i => (tiles i).shape) n axis fk = .ok b) :
    ∃ bs : List (Arr α), b = .mosaic bs.length (fun i => bs.getD i default) axis ∧ ∀ b' ∈ bs, ∃ t ks fk', t < n ∧
      expandKeys ks s.length = .ok fk' ∧ List.Forall₂ (ChunkKey .arrays) fk' (s.set axis (lens.getD t 0)) ∧
      inner t ks = .ok b' := by
  have hfl : fk.length = s.length := by rw [hfk.length_eq, List.length_set]
  have he := chunkKeys_exact hfk
  obtain ⟨rr, hrr⟩ := trimKeys_spec fk
  have heT : Exact (trimKeys fk) := fun x hx => he x (by rw [hrr]; exact List.mem_append_left _ hx)
  have hTl : (trimKeys fk).length + rr = s.length := by
    have := congrArg List.length hrr
    rw [List.length_append, List.length_replicate, hfl] at this
    omega
  have hsc : ∀ n, (((trimKeys fk).take n).filter Key.isScalar).length = 0 := by
    intro n
    rw [List.length_eq_zero_iff, List.filter_eq_nil_iff]
    intro k hk
    obtain ⟨x, _, hx⟩ := forall₂_mem_left hfk (show k ∈ fk by rw [hrr]; exact List.mem_append_left _ (List.mem_of_mem_take hk))
    simp [hx.not_scalar]
  have htile : ∀ t, t < n → ∀ k, ChunkKey .arrays k (lens.getD t 0) →
      List.Forall₂ (ChunkKey .arrays) (fk.set axis k) (s.set axis (lens.getD t 0)) := by
    intro t htn k hk
    have := forall₂_set (hfk.imp (fun _ _ h => h.mono)) axis hk
    rwa [List.set_set] at this
  unfold mosaicFull at h
  simp only at h
  split at h
  · rename_i hshort
    obtain ⟨bs, hbs, h⟩ := bind_ok.mp h
    have hz : ((trimKeys fk).filter Key.isScalar).length = 0 := by
      have := hsc (trimKeys fk).length
      rwa [List.take_length] at this
    rw [hz] at h
    refine ⟨bs, mkMosaic_form h, ?_⟩
    intro b' hb'
    have hf := mapM_ok_inv _ _ _ hbs
    obtain ⟨t, ht, hin⟩ := forall₂_mem_left hf.flip hb'
    have htn : t < n := by simpa using ht
    refine ⟨t, trimKeys fk, fk, htn, ?_, ?_, hin⟩
    · rw [← hTl, expandKeys_pad heT, ← hrr]
    · have := htile t htn Key.full (chunkKey_full _ _)
      rwa [← trim_full hshort (by omega), set_getD_self] at this
  · rename_i hshort
    have hlt : axis < (trimKeys fk).length := by omega
    obtain ⟨lens', hl', h⟩ := bind_ok.mp h
    have hll : lens' = lens := by
      have hm : (List.range n).mapM (fun i => do let s ← (tiles i).shape; return s.getD axis 0) =
          .ok ((List.range n).map (fun i => lens.getD i 0)) := by
        apply mapM_ok
        intro i hi
        rw [hts i (by simpa using hi)]
        simp only [bind, Except.bind, pure, Except.pure]
        rw [getD_set_self _ _ _ _ hax]
      rw [hm] at hl'
      injection hl' with hl'
      rw [← hl']
      apply List.ext_getElem
      · simp [hlen]
      · intro i h1 h2
        simp [List.getD_eq_getElem?_getD, h2]
    subst hll
    have hkget : (trimKeys fk).getD axis Key.full = fk.getD axis Key.full := by
      conv_rhs => rw [hrr]
      rw [List.getD_eq_getElem?_getD, List.getD_eq_getElem?_getD, List.getElem?_append_left hlt]
    have hk := forall₂_getD hfk axis (by rw [hfl]; exact hax) Key.full 0
    rw [getD_set_self _ _ _ _ hax] at hk
    obtain ⟨is, hne, hb, hsorted, hform⟩ := chunk_axis hk (by omega)
    have hg := groups_ok hb hsorted
    have hmany : ∀ rev, mosaicMany inner lens' axis (trimKeys fk) is rev = .ok b → ∃ bs : List (Arr α),
        b = .mosaic bs.length (fun i => bs.getD i default) axis ∧ ∀ b' ∈ bs, ∃ t ks fk', t < n ∧
        expandKeys ks s.length = .ok fk' ∧ List.Forall₂ (ChunkKey .arrays) fk' (s.set axis (lens'.getD t 0)) ∧
        inner t ks = .ok b' := by
      intro rev h
      unfold mosaicMany at h
      obtain ⟨bs, hbs, h⟩ := bind_ok.mp h
      rw [hsc axis] at h
      refine ⟨_, mkMosaic_form h, ?_⟩
      intro b' hb'
      have hb' : b' ∈ bs := by
        split at hb'
        · exact List.mem_reverse.mp hb'
        · exact hb'
      have hf := mapM_ok_inv _ _ _ hbs
      obtain ⟨g, hgm, hin⟩ := forall₂_mem_left hf.flip hb'
      obtain ⟨g1, g2⟩ := hg g hgm
      refine ⟨g.1, _, _, by rw [← hlen]; exact g1, ?_, htile g.1 (by rw [← hlen]; exact g1) _ g2, hin⟩
      have h1 := expandKeys_pad (r := rr) (heT.set axis g2.exact)
      rw [List.length_set, hTl, ← set_append_lt _ _ _ _ hlt, ← hrr] at h1
      exact h1
    unfold mosaicAxis at h
    rw [hkget] at h
    rcases hform with ⟨sl, hsl, hr, hneg⟩ | hia
    · rw [hsl] at h
      simp only [hr, bind, Except.bind] at h
      exact hmany _ h
    · rw [hia] at h
      exact hmany _ h

/-- What the items of a cut stack are. -/
theorem stackFull_form {inner : List Nat → List Key → Res (Arr α)} {ss : List Nat} {items : List Nat → Arr α} {cut : Cut}
    {fk : List Key} {b : Arr α} (hne : ss ≠ []) (hc : cut = .arrays → ss.length ≤ 1) (hlen : ss.length ≤ fk.length)
    (hfk : List.Forall₂ (ChunkKey cut) (fk.take ss.length) ss)
    (h : stackFull inner ss items fk = .ok b) :
    ∃ ss' F, b = .stack ss' F ∧ ss'.length = ss.length ∧ ∀ i, InB ss' i → ∃ j, InB ss j ∧ inner j (fk.drop ss.length) = .ok (F i) := by
  obtain ⟨σ, hσ, hpick, hsh⟩ := chunkKeys_resolve hfk
  have he := chunkKeys_exact hfk
  have hl1 : (fk.take ss.length).length = ss.length := by rw [List.length_take]; omega
  have hls : slicedShape ss (fk.take ss.length) = .ok (selShape σ) :=
    C02_sliced_shape_is_numpy_shape (⟨ss, fun _ => ()⟩ : NDA Unit) _ (fk.take ss.length) (by
      intro l hl
      obtain ⟨n, _, hn⟩ := forall₂_mem_left hfk hl
      exact hn.not_list)
      (npIndex_exact (⟨ss, fun _ => ()⟩ : NDA Unit) _ σ hl1 he hσ)
  obtain ⟨sel, hsel, hsel1, hsel2⟩ := npFancy_ok (⟨ss, id⟩ : NDA (List Nat)) he hσ
    (chunk_fancySafe hfk (fun h => by rw [hl1]; exact hc h))
  have hselshape : sel.shape = selShape σ := hsel1
  unfold stackFull at h
  simp only [hls, hsel, bind, Except.bind] at h
  have hnn : selShape σ ≠ [] := by
    intro e
    have := hsh.length_eq
    rw [e] at this
    exact hne (List.length_eq_zero_iff.mp this.symm)
  rw [if_neg (by simpa using hnn)] at h
  split at h
  · cases h
  · rename_i v hv
    unfold mkStack at h
    split at h
    · cases h
    · simp only [bind, Except.bind] at h
      split at h
      · cases h
      · split at h
        · cases h
        · cases h
          refine ⟨_, _, rfl, by rw [hselshape]; exact hsh.length_eq, ?_⟩
          intro i hi
          rw [hselshape] at hi
          have hsrc : sel.get i = selSrc σ i := by
            have := hsel2 i (by rw [hselshape]; exact hi)
            simpa [NDA.ortho] using this
          refine ⟨sel.get i, by rw [hsrc]; exact selSrc_inB hσ i hi, ?_⟩
          rw [if_pos ((mem_ndindex _ _).mpr hi)]
          have hf := mapM_ok_inv _ _ _ hv
          obtain ⟨y, _, hy⟩ := forall₂_mem_left hf ((mem_ndindex _ _).mpr hi)
          rw [hselshape, if_neg (by simpa using hi)] at hy
          rw [hy]; rfl

theorem Arr.WF.mosaic_shapes [Inhabited V] (m : Mode α V) {n axis : Nat} {tiles : Nat → Arr α} (hwf : (Arr.mosaic n tiles axis).WF) :
    ∃ s : List Nat, axis < s.length ∧
      (∀ t, t < n → (tiles t).WF ∧ (tiles t).shape = .ok (s.set axis
        (((List.range n).map (fun i => (okOr (tiles i).shape []).getD axis 0)).getD t 0))) ∧
      ((Arr.mosaic n tiles axis).den m).shape =
        s.set axis ((List.range n).map (fun i => (okOr (tiles i).shape []).getD axis 0)).sum := by
  obtain ⟨h0, s, hax, ht⟩ := hwf
  set lens := (List.range n).map (fun i => (okOr (tiles i).shape []).getD axis 0) with hlens
  have hts : ∀ t, t < n → (tiles t).shape = .ok (s.set axis (lens.getD t 0)) := by
    intro t htn
    obtain ⟨h1, k, h2⟩ := ht t htn
    rw [h2, hlens, getD_map' _ _ _ _ 0 (by simpa using htn)]
    congr 2
    have hrt : (List.range n).getD t 0 = t := by
      rw [List.getD_eq_getElem?_getD, List.getElem?_range htn]; rfl
    rw [hrt, h2]
    simp only [okOr]
    rw [getD_set_self _ _ _ _ hax]
  refine ⟨s, hax, fun t h => ⟨(ht t h).1, hts t h⟩, ?_⟩
  unfold Arr.den NDA.concat
  simp only
  have : (List.range n).map (fun i => ((tiles i).den m).shape.getD axis 0) = lens := by
    apply List.map_congr_left
    intro i hi
    rw [(ht i (by simpa using hi)).1.shape_eq m]; rfl
  rw [this, (ht 0 h0).1.den_shape m (hts 0 h0), List.set_set]

/-- Inserting `:` for an axis. -/
theorem resolve_insert_full {fk : List Key} {s : List Nat} {axis : Nat} {τ : List Sel} (hax : axis < s.length) (he : Exact fk)
    (h : resolve fk (s.eraseIdx axis) = .ok τ) :
    Exact (fk.take axis ++ [Key.full] ++ fk.drop axis) ∧ ∃ σ, resolve (fk.take axis ++ [Key.full] ++ fk.drop axis) s = .ok σ ∧
      (selShape σ).getD (axis - ((fk.take axis).filter Key.isScalar).length) 0 = s.getD axis 0 := by
  obtain ⟨sp, n, sr, hsp, hspl⟩ : ∃ sp n sr, s = sp ++ n :: sr ∧ sp.length = axis := by
    refine ⟨s.take axis, s[axis], s.drop (axis + 1), ?_, by rw [List.length_take]; omega⟩
    rw [← List.drop_eq_getElem_cons hax, List.take_append_drop]
  subst hsp
  rw [eraseIdx_middle _ _ _ _ hspl] at h
  have hlen := (resolve_length he h).1
  have hep : Exact (fk.take axis) := fun x hx => he x (List.mem_of_mem_take hx)
  have her : Exact (fk.drop axis) := fun x hx => he x (List.mem_of_mem_drop hx)
  have hkl : (fk.take axis).length = sp.length := by
    rw [List.length_take, hlen, List.length_append]; omega
  have h0 := h
  rw [← List.take_append_drop axis fk] at h0
  obtain ⟨τp, τr, rfl, hτp, hτr⟩ := resolve_append_inv hep hkl h0
  refine ⟨(hep.append (by intro x hx; rw [List.mem_singleton.mp hx]; exact exact_full)).append her,
    τp ++ .pick (List.range n) :: τr, ?_, ?_⟩
  · rw [List.append_assoc]
    exact resolve_append hep hτp ((resolve_cons_iff rfl).mpr ⟨_, _, _, _, rfl, rfl, resolve1_full n, hτr⟩)
  · have hsc := scalar_count hep hτp
    rw [hkl, hspl] at hsc
    rw [hsc, getD_middle _ _ _ _ _ hspl, selShape_append, selShape, List.length_range]
    exact getD_middle _ _ _ _ _ rfl

theorem Skel.index_fits {m : Mode α V} {limit : Nat} {cut : Cut} [Inhabited V] {a b : Arr α} {fk : List Key} (hwa : a.WF)
    (hfk : List.Forall₂ (ChunkKey cut) fk (a.den m).shape) (h : b.skel = a.skel.index fk) (hf : a.skel.fits limit) :
    b.skel.fits limit := by
  obtain ⟨h1, h2⟩ := skel_shape m a hwa
  rw [h]
  exact fits_index a.skel fk h1 (by rw [h2]; exact hfk) hf

/-- Cutting with chunk keys keeps everything evaluation needs. -/
theorem chunk_closed [Inhabited α] [Inhabited V] (m : Mode α V) (limit : Nat) : ∀ (a : Arr α) (cut : Cut), a.WF →
    a.Ok m limit cut → cut ≠ .whole → ∀ (ks fk : List Key) (b : Arr α), expandKeys ks (a.den m).shape.length = .ok fk →
    List.Forall₂ (ChunkKey cut) fk (a.den m).shape → a.getitem ks = .ok b → Closed m limit cut a fk b
  | .adapter o c stored, cut, hwf, hok, hc, ks, fk, b, hexp, hfk, hb => by
    obtain ⟨b', σ, hb', hwb, hσ, hd⟩ := chunk_getitem m limit _ cut hwf hok hc hexp hfk
    rw [hb] at hb'
    injection hb' with hb'
    subst hb'
    unfold Arr.getitem at hb
    have hshp : slicedShape c.data.shape stored = .ok ((Arr.adapter o c stored).den m).shape := hwf.shape_eq m
    rw [arrayGetitem_exact hshp hexp (chunkKeys_exact hfk)] at hb
    unfold adapterFull at hb
    obtain ⟨ks', hl, hb⟩ := bind_ok.mp hb
    have hbe : b = .adapter o c ks' := by
      unfold mkAdapter at hb
      simp only [bind, Except.bind] at hb
      split at hb
      · cases hb
      · split at hb
        · cases hb
        · cases hb; rfl
    subst hbe
    refine Closed.ofProd rfl rfl hwf hwb hσ hd ⟨?_, ?_, ?_⟩ (fun _ _ => trivial) (fun st n k hn hk ht => ?_)
    rotate_right
    · rcases ht with ht | ⟨h0, _⟩ | ⟨h1, h2⟩
      · exact Or.inl ht
      · omega
      · have hk0 : k = 0 := by omega
        refine Or.inr (Or.inl ⟨hk0, (adapterLoop_tuples _ _ _ _ ?_ hl).trans h2⟩)
        intro x hx
        obtain ⟨n0, _, hck⟩ := forall₂_mem_left hfk hx
        obtain ⟨sl, e, _⟩ := hck.slice (fun e => by have := hn e; omega)
        exact ⟨sl, e⟩
    · refine hok.1.imp_left (fun h h' => h ?_)
      rw [hshp]
      rw [show slicedShape c.data.shape ks' = .ok ((Arr.adapter o c ks').den m).shape from hwb.shape_eq m] at h'
      injection h' with h'
      congr 1
      apply List.length_eq_zero_iff.mp
      rw [← chunkKeys_rank hfk hσ, ← List.length_eq_zero_iff.mpr h', hd.1]; rfl
    all_goals
      obtain ⟨hst, r0, hr0⟩ := hwf
      obtain ⟨fk0, σ0, he0, hσ0, rfl⟩ := npIndex_ok_iff.mp hr0
      have hst' : ∀ k ∈ stored, k.storable = true ∧ ∀ l, k ≠ .barr l := by
        intro k hk
        refine ⟨hst k hk, fun l e => ?_⟩
        subst e
        exact hok.2.1 hc l hk
      rw [expandKeys_storable hst he0] at hσ0
      have hshape : ((Arr.adapter o c stored).den m).shape = selShape σ0 := by
        rw [den_adapter m o c stored _ hr0]; rfl
      rw [hshape] at hfk
      obtain ⟨A, B, rfl, hA, hB, hA1, hA2, hB1⟩ := adapterLoop_form stored c.data.shape fk ks' σ0 _ hst' hσ0 hfk hl
    · intro _ l hl
      rcases List.mem_append.mp hl with h | h
      · rcases hA1 _ h with ⟨_, h⟩ | ⟨_, h⟩ <;> cases h
      · rcases hB1 _ h with ⟨_, h⟩ | ⟨_, _, h⟩ <;> cases h
    · intro ho
      obtain ⟨_, harr⟩ := hok.2.2 ho
      have hlen0 := (resolve_length (ks := stored ++ List.replicate (c.data.shape.length - stored.length) Key.full) (by
        intro k hk
        rcases List.mem_append.mp hk with h | h
        · exact storable_exact (hst k h)
        · rw [List.eq_of_mem_replicate h]; exact exact_full) hσ0).1
      rw [List.length_append, List.length_replicate] at hlen0
      refine ⟨takeSafe_of hA1 (fun k hk => ?_) ?_, fun _ => Or.inl ?_⟩
      · rcases hB1 k hk with h | ⟨_, h⟩
        · exact Or.inl h
        · exact Or.inr h
      · by_cases hca : cut = .arrays
        · rcases harr hca with h | h
          · left
            intro l hl
            rw [h, Nat.sub_self] at hB
            rw [List.length_eq_zero_iff.mp hB] at hl
            cases hl
          · right
            intro i hi
            obtain ⟨j, hj⟩ := hA2 i hi
            exact h j hj
        · left
          intro l hl
          rcases hB1 _ hl with ⟨_, h⟩ | ⟨h, _⟩
          · cases h
          · exact hca h
      · rw [List.length_append, hA, hB]; exact hlen0
  | .const s v dt, cut, hwf, hok, hc, ks, fk, b, hexp, hfk, hb => by
    obtain ⟨b', σ, hb', hwb, hσ, hd⟩ := chunk_getitem m limit _ cut hwf hok hc hexp hfk
    rw [hb] at hb'
    injection hb' with hb'
    subst hb'
    unfold Arr.getitem at hb
    obtain ⟨s', _, hb⟩ := bind_ok.mp hb
    cases hb
    exact Closed.ofProd rfl rfl hwf hwb hσ hd trivial (fun _ _ => trivial) (fun _ _ _ _ _ _ => trivial)
  | .newAxes a na, cut, hwf, hok, hc, ks, fk, b, hexp, hfk, hb => by
    obtain ⟨b', σ, hb', hwb, hσ, hd⟩ := chunk_getitem m limit _ cut hwf hok hc hexp hfk
    rw [hb] at hb'
    injection hb' with hb'
    subst hb'
    have hko := chunk_keysOk m limit _ cut hwf hok hc fk hfk
    have hwf0 := hwf
    obtain ⟨hwa, s, hs, hl⟩ := hwf
    have hden := hwa.den_shape m hs
    match na, hl with
    | c :: ns, hl =>
      unfold Arr.getitem at hb
      rw [hs] at hb
      simp only [bind, Except.bind] at hb
      have hfk' : List.Forall₂ (ChunkKey cut) fk (naShape (c :: ns) s) := by rw [← hden]; exact hfk
      obtain ⟨h1, h2⟩ := chunk_newAxes hok.1 fk c ns s false (by simpa using hl) hfk'
      rw [← hden] at hb
      obtain ⟨x, na', hx, hbx⟩ := newAxesGetitem_form m (a := a) (by rw [hden]; simpa using hl) hexp hσ hko.1 hb
      rw [← hden] at h2
      have ih := chunk_closed m limit a cut hwa hok.2 hc _ _ x (expand_chunk h2) h2 hx
      rcases hbx with rfl | ⟨d, l, rfl⟩
      · exact Closed.ofProd rfl rfl hwf0 hwb hσ hd ⟨hok.1, ih.ok⟩ (fun n h => ih.level n h)
          (fun _ n k h1 h2 h => ih.thrifty false n k h1 h2 h)
      · have hnb := newAxesGetitem_flat m (a := a) (by rw [hden]; simpa using hl) hexp hσ hko.1
          (chunk_naDict hok.1 fk 0 c ns s (by simpa using hl) hfk') hb
        cases hnb
  | .bcast a d lead, cut, hwf, hok, hc, ks, fk, b, hexp, hfk, hb => by
    obtain ⟨b', σ, hb', hwb, hσ, hd⟩ := chunk_getitem m limit _ cut hwf hok hc hexp hfk
    rw [hb] at hb'
    injection hb' with hb'
    subst hb'
    have hwf0 := hwf
    unfold Arr.getitem at hb
    rw [arrayGetitem_exact (hwf.shape_eq m) hexp (chunkKeys_exact hfk)] at hb
    obtain ⟨hwa, _, _, hn, hlead, s, hs, h1⟩ := hwf
    have hden := hwa.den_shape m hs
    have hfk' : List.Forall₂ (ChunkKey cut) fk (lead ++ bcShape d 0 s) := by rw [← hden]; exact hfk
    obtain ⟨f1, f2⟩ := forall₂_take_drop hfk'
    have h1' : ∀ q ∈ d, 0 ≤ q.1 → s[q.1 - 0]? = some 1 := by intro q hq _; simpa using h1 q hq
    obtain ⟨b1, b2⟩ := chunk_bcast hok.1 d (fk.drop lead.length) 0 s h1' f2
    unfold bcastFull at hb
    obtain ⟨lead', _, hb⟩ := bind_ok.mp hb
    rw [hs] at hb
    simp only [bind, Except.bind, shapeFromDict_ok d s hn h1] at hb
    obtain ⟨τ2, hτ2, _, _⟩ := chunkKeys_resolve f2
    obtain ⟨d', σ', hloop, _⟩ := bcastLoop_ok (rem := 0) (le_refl 0) (chunkKeys_exact f2) b1 h1' hτ2
    rw [hloop] at hb
    simp only at hb
    split at hb
    · cases hb
    · rename_i sub hsub
      obtain ⟨x, dd, ll, rfl, hx⟩ := mkBcast_form hb
      have hsubok : sub.Ok m limit cut ∧ ∀ n, a.levelLe n → sub.levelLe n := by
        unfold bcastSub at hsub
        obtain ⟨full, _, hsub⟩ := bind_ok.mp hsub
        split at hsub
        · cases hsub; exact ⟨hok.2, fun _ h => h⟩
        · rw [← hden] at b2
          have ih := chunk_closed m limit a cut hwa hok.2 hc _ _ sub (expand_chunk b2) b2 hsub
          exact ⟨ih.ok, ih.level⟩
      exact Closed.ofProd rfl rfl hwf0 hwb hσ hd (Arr.Ok.bcast_inner hok.1 hx hsubok.1 _ _)
        (fun n h => Arr.levelLe.bcast_inner hx (hsubok.2 n h) _ _) (fun _ _ _ _ _ h => h.elim)
  | .transposed a axes, cut, hwf, hok, hc, ks, fk, b, hexp, hfk, hb => by
    obtain ⟨b', σ, hb', hwb, hσ, hd⟩ := chunk_getitem m limit _ cut hwf hok hc hexp hfk
    rw [hb] at hb'
    injection hb' with hb'
    subst hb'
    have hwf0 := hwf
    unfold Arr.getitem at hb
    rw [arrayGetitem_exact (hwf.shape_eq m) hexp (chunkKeys_exact hfk)] at hb
    obtain ⟨hwa, s, hs, hp⟩ := hwf
    have hden := hwa.den_shape m hs
    have hfk' : List.Forall₂ (ChunkKey cut) fk (axes.map (fun j => s.getD j 0)) := by rw [← hden]; exact hfk
    unfold transposedFull at hb
    obtain ⟨rem, hrem, hb⟩ := bind_ok.mp hb
    obtain ⟨x, hx, hb⟩ := bind_ok.mp hb
    have hck := chunk_transposed hp hfk' hrem
    rw [← hden] at hck
    have ih := chunk_closed m limit a cut hwa hok hc _ _ x (expand_chunk hck) hck hx
    unfold mkTransposed at hb
    obtain ⟨_, _, hb⟩ := bind_ok.mp hb
    simp only at hb
    split at hb
    · cases hb
    · cases hb
      exact Closed.ofProd rfl rfl hwf0 hwb hσ hd ih.ok (fun n h => ih.level n h)
        (fun _ n k h1 h2 h => ih.thrifty false n k h1 h2 h)
  | .stack ss items, cut, hwf, hok, hc, ks, fk, b, hexp, hfk, hb => by
    obtain ⟨b', σ, hb', hwb, hσ, hd⟩ := chunk_getitem m limit _ cut hwf hok hc hexp hfk
    rw [hb] at hb'
    injection hb' with hb'
    subst hb'
    have hwf0 := hwf
    unfold Arr.getitem at hb
    rw [arrayGetitem_exact (hwf.shape_eq m) hexp (chunkKeys_exact hfk)] at hb
    obtain ⟨h0, s, hi⟩ := hwf
    have hz := hi _ (inB_zeros ss h0)
    have hfk' : List.Forall₂ (ChunkKey cut) fk (ss ++ s) := by
      have : ((Arr.stack ss items).den m).shape = ss ++ s := by
        unfold Arr.den NDA.stacked
        simp only
        rw [hz.1.den_shape m hz.2]
      rw [← this]; exact hfk
    obtain ⟨f1, f2⟩ := forall₂_take_drop hfk'
    obtain ⟨o1, o2, o3⟩ := hok
    obtain ⟨ss', F, rfl, hl', hF⟩ := stackFull_form (o2 hc) o1 (by rw [hfk'.length_eq]; simp) f1 hb
    have ih : ∀ i, InB ss' i → ∃ j, InB ss j ∧ Closed m limit cut (items j) (fk.drop ss.length) (F i) := by
      intro i hin
      obtain ⟨j, hj, hFj⟩ := hF i hin
      have hck : List.Forall₂ (ChunkKey cut) (fk.drop ss.length) ((items j).den m).shape := by
        rw [(hi j hj).1.den_shape m (hi j hj).2]; exact f2
      exact ⟨j, hj, chunk_closed m limit (items j) cut (hi j hj).1 (o3 j hj) hc _ _ (F i) (expand_chunk hck) hck hFj⟩
    refine Closed.ofProd rfl rfl hwf0 hwb hσ hd ⟨fun h => by rw [hl']; exact o1 h, fun h e => ?_, ?_⟩ ?_ ?_
    · rw [e] at hl'; exact o2 h (List.length_eq_zero_iff.mp hl'.symm)
    · intro i hin
      obtain ⟨j, hj, h⟩ := ih i hin
      exact h.ok
    · intro n h i hin
      obtain ⟨j, hj, h'⟩ := ih i hin
      exact h'.level n (h j hj)
    · intro _ n k h1 h2 h i hin
      obtain ⟨j, hj, h'⟩ := ih i hin
      exact h'.thrifty false n k h1 h2 (h j hj)
  | .mosaic n tiles axis, cut, hwf, hok, hc, ks, fk, b, hexp, hfk, hb => by
    obtain ⟨b', σ, hb', hwb, hσ, hd⟩ := chunk_getitem m limit _ cut hwf hok hc hexp hfk
    rw [hb] at hb'
    injection hb' with hb'
    subst hb'
    have hwf0 := hwf
    unfold Arr.getitem at hb
    rw [arrayGetitem_exact (hwf.shape_eq m) hexp (chunkKeys_exact hfk)] at hb
    obtain ⟨s, hax, ht, hsh⟩ := hwf.mosaic_shapes m
    unfold Arr.Ok at hok
    rw [if_neg hc] at hok
    obtain ⟨hpos, htok⟩ := hok
    set lens := (List.range n).map (fun i => (okOr (tiles i).shape []).getD axis 0) with hlens
    have hfk' := hfk
    rw [hsh] at hfk'
    obtain ⟨bs, rfl, hbs⟩ := mosaicFull_form hax (by simp [hlens]) (fun t h => (ht t h).2) (by omega) hfk' hb
    have ih : ∀ b' ∈ bs, ∃ t fk', t < n ∧ Closed m limit .arrays (tiles t) fk' b' := by
      intro b' hb'
      obtain ⟨t, ks', fk', htn, he', hck, hin⟩ := hbs b' hb'
      have hden := (ht t htn).1.den_shape m (ht t htn).2
      refine ⟨t, fk', htn, chunk_closed m limit (tiles t) .arrays (ht t htn).1 (htok t htn) (by decide) ks' fk' b' ?_ ?_ hin⟩
      · rw [hden, List.length_set]; exact he'
      · rw [hden]; exact hck
    have hmem : ∀ i, i < bs.length → bs.getD i default ∈ bs := fun i hi => getD_mem bs i default hi
    refine Closed.ofProd rfl rfl hwf0 hwb hσ hd ?_ ?_ ?_
    · unfold Arr.Ok
      rw [if_neg hc]
      refine ⟨?_, ?_⟩
      · obtain ⟨s', hax', ht', hsh'⟩ := hwb.mosaic_shapes m
        obtain ⟨σ', hσ', _, hnz⟩ := chunkKeys_resolve hfk
        rw [hσ] at hσ'
        injection hσ' with hσ'
        subst hσ'
        have h1 : ((Arr.mosaic bs.length (fun i => bs.getD i default) axis).den m).shape = selShape σ := hd.1
        rw [← h1, hsh, hsh'] at hnz
        have hll := hnz.length_eq
        rw [List.length_set, List.length_set] at hll
        have h2 := forall₂_getD hnz axis (by rw [List.length_set]; exact hax') 0 0
        rw [getD_set_self _ _ _ _ hax, getD_set_self _ _ _ _ hax'] at h2
        exact Nat.pos_of_ne_zero (h2.2 (by omega))
      · intro i hi
        obtain ⟨t, fk', _, h⟩ := ih _ (hmem i hi)
        exact h.ok
    · intro k hk i hi
      obtain ⟨t, fk', htn, h⟩ := ih _ (hmem i hi)
      exact h.level k (hk t htn)
    · intro _ n0 k h1 h2 hk i hi
      obtain ⟨t, fk', htn, h⟩ := ih _ (hmem i hi)
      have := hk t htn
      rw [if_neg (by omega)] at this
      exact h.thrifty false 2 _ (fun _ => le_refl _) (Or.inr (le_refl _)) this
  | .asType a dt, cut, hwf, hok, hc, ks, fk, b, hexp, hfk, hb => by
    obtain ⟨b', σ, hb', hwb, hσ, hd⟩ := chunk_getitem m limit _ cut hwf hok hc hexp hfk
    rw [hb] at hb'
    injection hb' with hb'
    subst hb'
    unfold Arr.getitem at hb
    obtain ⟨x, hx, hb⟩ := bind_ok.mp hb
    cases hb
    have ih := chunk_closed m limit a cut hwf hok hc ks fk x hexp hfk hx
    exact Closed.ofProd rfl rfl hwf hwb hσ hd ih.ok (fun n h => ih.level n h)
      (fun _ n k h1 h2 h => ih.thrifty false n k h1 h2 h)
  | .maskVal a v, cut, hwf, hok, hc, ks, fk, b, hexp, hfk, hb => by
    obtain ⟨b', σ, hb', hwb, hσ, hd⟩ := chunk_getitem m limit _ cut hwf hok hc hexp hfk
    rw [hb] at hb'
    injection hb' with hb'
    subst hb'
    unfold Arr.getitem at hb
    obtain ⟨x, hx, hb⟩ := bind_ok.mp hb
    cases hb
    have ih := chunk_closed m limit a cut hwf hok hc ks fk x hexp hfk hx
    exact Closed.ofProd rfl rfl hwf hwb hσ hd ih.ok (fun n h => ih.level n h)
      (fun _ n k h1 h2 h => ih.thrifty false n k h1 h2 h)
  | .agg a axis k, cut, hwf, hok, hc, ks, fk, b, hexp, hfk, hb => by
    unfold Arr.getitem at hb
    rw [arrayGetitem_exact (hwf.shape_eq m) hexp (chunkKeys_exact hfk)] at hb
    obtain ⟨hwa, s, hs, hax⟩ := hwf
    have hden := hwa.den_shape m hs
    have hcs : cut.streamed = cut := by cases cut <;> first | rfl | exact absurd rfl hc
    obtain ⟨hso, hoa⟩ := hok
    rw [hcs] at hoa
    have hck : List.Forall₂ (ChunkKey cut) (fk.take axis ++ [Key.full] ++ fk.drop axis) (a.den m).shape := by
      rw [hden]; exact chunk_agg hax (by rw [← hden]; exact hfk)
    unfold aggFull at hb
    obtain ⟨x, hx, hb⟩ := bind_ok.mp hb
    simp only at hx
    rw [filter_scalar_nil hfk axis] at hb
    cases hb
    have ih := chunk_closed m limit a cut hwa hoa hc _ _ x (expand_chunk hck) hck hx
    obtain ⟨x', σ, hx', hwx, hσ, hd⟩ := chunk_getitem m limit a cut hwa hoa hc (expand_chunk hck) hck
    rw [hx] at hx'
    injection hx' with hx'
    subst hx'
    have hstream : (Arr.agg x axis k).streamOk m limit := by
      obtain ⟨s1, s2, s3⟩ := hso
      refine ⟨?_, ?_, ih.stream s3⟩
      · rcases s1 with h | h
        · left
          rw [hs] at h
          rw [hwx.shape_eq m, hd.1]
          obtain ⟨σ', hσ', _, hnz⟩ := chunkKeys_resolve hck
          rw [hσ] at hσ'
          injection hσ' with hσ'
          subst hσ'
          rw [hden] at hnz
          have := forall₂_getD hnz axis (by rw [hnz.length_eq]; exact hax) 0 0
          exact this.2 h
        · exact Or.inr h
      · have hsc : ∀ k ∈ fk.take axis ++ [Key.full] ++ fk.drop axis, k.isScalar = false := by
          intro k hk
          obtain ⟨n, _, hn⟩ := forall₂_mem_left hck hk
          exact hn.not_scalar
        obtain ⟨w1, w2⟩ := skel_shape m a hwa
        have hh : ∀ r, a.skel.holds limit r axis → x.skel.holds limit r axis := by
          intro r hr
          rw [ih.skel]
          exact holds_chunk a.skel _ axis w1 (by rw [w2]; exact hck) hsc hr
        have hn : (okOr x.shape []).getD axis 0 = (okOr a.shape []).getD axis 0 := by
          rw [hwx.shape_eq m, hs]
          show (x.den m).shape.getD axis 0 = s.getD axis 0
          rw [hd.1]
          have hE : Exact fk := chunkKeys_exact hfk
          have hfk' : List.Forall₂ (ChunkKey cut) fk (s.eraseIdx axis) := by rw [← hden]; exact hfk
          obtain ⟨τ, hτ, _⟩ := chunkKeys_resolve hfk'
          obtain ⟨_, σ', hσ', hg⟩ := resolve_insert_full hax hE hτ
          rw [hden] at hσ
          rw [hσ] at hσ'
          injection hσ' with hσ'
          subst hσ'
          rw [filter_scalar_nil hfk axis] at hg
          exact hg
        rcases s2 with h | h | h | ⟨h, h'⟩
        · exact Or.inl h
        · exact Or.inr (Or.inl (by rw [hn]; exact h))
        · exact Or.inr (Or.inr (Or.inl (by rw [hn]; exact hh _ h)))
        · exact Or.inr (Or.inr (Or.inr ⟨h, hh _ h'⟩))
    refine ⟨⟨hstream, by rw [hcs]; exact ih.ok⟩, fun _ => hstream, ?_, ?_, ?_⟩
    · show Skel.agg x.skel axis = _
      rw [ih.skel]
      show _ = Skel.agg _ _
      rw [filter_scalar_nil hfk axis]; rfl
    · intro n h
      cases n with
      | zero => exact h.elim
      | succ n => exact ih.level n h
    · intro st n k h1 h2 h
      refine ih.thrifty true _ _ ?_ ?_ h
      · intro e; have := h1 e; split <;> omega
      · split <;> omega
  | .elem1 a op, cut, hwf, hok, hc, ks, fk, b, hexp, hfk, hb => by
    unfold Arr.getitem at hb
    rw [arrayGetitem_exact (Arr.WF.shape_eq m _ hwf : a.shape = _) hexp (chunkKeys_exact hfk)] at hb
    have hcs : cut.streamed = cut := by cases cut <;> first | rfl | exact absurd rfl hc
    obtain ⟨hop, hso, hoa⟩ := hok
    rw [hcs] at hoa
    obtain ⟨x, hx, hb⟩ := bind_ok.mp hb
    cases hb
    have ih := chunk_closed m limit a cut hwf hoa hc _ _ x (expand_chunk hfk) hfk hx
    refine ⟨⟨hop, ih.stream hso, by rw [hcs]; exact ih.ok⟩, fun _ => ⟨hop, ih.stream hso⟩, ih.skel, ?_, ?_⟩
    · intro n h
      cases n with
      | zero => exact h.elim
      | succ n => exact ih.level n h
    · intro st n k h1 h2 h
      refine ih.thrifty true _ _ ?_ ?_ h
      · intro e; have := h1 e; split <;> omega
      · split <;> omega
  | .elem2 a b op, cut, hwf, hok, hc, ks, fk, b', hexp, hfk, hb => by
    obtain ⟨hwa, hwb, hab⟩ := hwf
    unfold Arr.getitem at hb
    rw [arrayGetitem_exact (hwa.shape_eq m) hexp (chunkKeys_exact hfk)] at hb
    have hcs : cut.streamed = cut := by cases cut <;> first | rfl | exact absurd rfl hc
    obtain ⟨hop, hsa, hsb, hoa, hob⟩ := hok
    rw [hcs] at hoa hob
    have hsh : (a.den m).shape = (b.den m).shape := by
      have h1 := hwa.shape_eq m
      rw [hab, hwb.shape_eq m] at h1
      injection h1 with h1
      exact h1.symm
    have hfka : List.Forall₂ (ChunkKey cut) fk (a.den m).shape := hfk
    have hfkb : List.Forall₂ (ChunkKey cut) fk (b.den m).shape := by rw [← hsh]; exact hfk
    obtain ⟨x, hx, hb⟩ := bind_ok.mp hb
    obtain ⟨y, hy, hb⟩ := bind_ok.mp hb
    have iha := chunk_closed m limit a cut hwa hoa hc _ _ x (expand_chunk hfka) hfka hx
    have ihb := chunk_closed m limit b cut hwb hob hc _ _ y (expand_chunk hfkb) hfkb hy
    obtain ⟨x', σ, hx', hwx, hσ, hdx⟩ := chunk_getitem m limit a cut hwa hoa hc (expand_chunk hfka) hfka
    obtain ⟨y', σ', hy', hwy, hσ', hdy⟩ := chunk_getitem m limit b cut hwb hob hc (expand_chunk hfkb) hfkb
    rw [hx] at hx'
    rw [hy] at hy'
    injection hx' with hx'
    injection hy' with hy'
    subst hx'
    subst hy'
    rw [← hsh, hσ] at hσ'
    injection hσ' with hσ'
    subst hσ'
    rw [mkElem2_same (s := selShape σ) (by rw [hwx.shape_eq m, hdx.1]; rfl) (by rw [hwy.shape_eq m, hdy.1]; rfl)] at hb
    cases hb
    refine ⟨⟨hop, iha.stream hsa, ihb.stream hsb, by rw [hcs]; exact iha.ok, by rw [hcs]; exact ihb.ok⟩,
      ?_, iha.skel, ?_, ?_⟩
    · rintro ⟨_, _, _, h⟩
      refine ⟨hop, iha.stream hsa, ihb.stream hsb, ?_⟩
      rcases h with h | ⟨h1, h2⟩
      · left; rw [iha.skel, ihb.skel, h]
      · exact Or.inr ⟨Skel.index_fits hwa hfka iha.skel h1, Skel.index_fits hwb hfkb ihb.skel h2⟩
    · intro n h
      cases n with
      | zero => exact h.elim
      | succ n => exact ⟨iha.level n h.1, ihb.level n h.2⟩
    · intro st n k h1 h2 h
      have e1 : cut = .arrays → 2 ≤ (if st = true then n else n + 1) := by intro e; have := h1 e; split <;> omega
      have e2 : (if st = true then n else n + 1) = (if st = true then k else k + 1) + 1 ∨ 2 ≤ (if st = true then n else n + 1) := by
        split <;> omega
      exact ⟨iha.thrifty true _ _ e1 e2 h.1, ihb.thrifty true _ _ e1 e2 h.2⟩

/-! ### every `Arr.Ok` expression is evaluated rightly -/

theorem Arr.Ok.mono (m : Mode α V) (limit : Nat) : ∀ (a : Arr α) (cut cut' : Cut),
    cut = cut' ∨ cut = .arrays ∨ cut' = .whole → a.Ok m limit cut → a.Ok m limit cut'
  | .adapter o c keys, cut, cut', h, hok => by
    refine ⟨hok.1, fun hc => hok.2.1 (by rintro rfl; rcases h with h | h | h <;> simp_all), fun ho => ⟨(hok.2.2 ho).1, fun hc => ?_⟩⟩
    exact (hok.2.2 ho).2 (by subst hc; rcases h with h | h | h <;> simp_all)
  | .const _ _ _, _, _, _, _ => trivial
  | .newAxes a _, cut, cut', h, hok =>
    ⟨by intro hc; apply hok.1; subst hc; rcases h with h | h | h <;> simp_all, Arr.Ok.mono m limit a cut cut' h hok.2⟩
  | .bcast a _ _, cut, cut', h, hok =>
    ⟨by intro hc; apply hok.1; subst hc; rcases h with h | h | h <;> simp_all, Arr.Ok.mono m limit a cut cut' h hok.2⟩
  | .transposed a _, cut, cut', h, hok => Arr.Ok.mono m limit a cut cut' h hok
  | .stack ss items, cut, cut', h, hok =>
    ⟨fun hc => hok.1 (by subst hc; rcases h with h | h | h <;> simp_all),
     fun hc => hok.2.1 (by rintro rfl; rcases h with h | h | h <;> simp_all),
     fun i hi => Arr.Ok.mono m limit (items i) cut cut' h (hok.2.2 i hi)⟩
  | .mosaic n tiles axis, cut, cut', h, hok => by
    unfold Arr.Ok at hok ⊢
    by_cases h1 : cut' = .whole
    · rw [if_pos h1]
      intro i hi
      by_cases h2 : cut = .whole
      · rw [if_pos h2] at hok
        exact hok i hi
      · rw [if_neg h2] at hok
        exact Arr.Ok.mono m limit (tiles i) .arrays .whole (Or.inr (Or.inl rfl)) (hok.2 i hi)
    · rw [if_neg h1]
      have h2 : cut ≠ .whole := by rintro rfl; rcases h with h | h | h <;> simp_all
      rw [if_neg h2] at hok
      exact hok
  | .asType a _, cut, cut', h, hok => Arr.Ok.mono m limit a cut cut' h hok
  | .maskVal a _, cut, cut', h, hok => Arr.Ok.mono m limit a cut cut' h hok
  | .agg a axis k, cut, cut', h, hok =>
    ⟨hok.1, Arr.Ok.mono m limit a _ _ (by revert h; cases cut <;> cases cut' <;> simp [Cut.streamed]) hok.2⟩
  | .elem1 a op, cut, cut', h, hok =>
    ⟨hok.1, hok.2.1, Arr.Ok.mono m limit a _ _ (by revert h; cases cut <;> cases cut' <;> simp [Cut.streamed]) hok.2.2⟩
  | .elem2 a b op, cut, cut', h, hok =>
    ⟨hok.1, hok.2.1, hok.2.2.1,
     Arr.Ok.mono m limit a _ _ (by revert h; cases cut <;> cases cut' <;> simp [Cut.streamed]) hok.2.2.2.1,
     Arr.Ok.mono m limit b _ _ (by revert h; cases cut <;> cases cut' <;> simp [Cut.streamed]) hok.2.2.2.2⟩

/-- Producers. -/
theorem streamGood_prod [Inhabited α] [Inhabited V] (m : Mode α V) (limit : Nat) (n : Nat) (G : Arr α → Prop)
    (hG : ∀ b : Arr α, b.WF → b.Ok m limit .whole → b.levelLe n → G b) (a : Arr α) (hwf : a.WF)
    (hok : a.Ok m limit .sliced) (hl : a.levelLe n) : ∀ s, a.shape = .ok s → ∀ ks, List.Forall₂ SliceOk ks s → a.keysOk ks ∧
      ∀ b, a.getitem ks = .ok b → G b := by
  intro s hs ks hks
  have hck : List.Forall₂ (ChunkKey .sliced) ks (a.den m).shape := by
    rw [hwf.den_shape m hs]
    exact hks.imp (fun _ _ h => h.chunkKey _)
  refine ⟨chunk_keysOk m limit a .sliced hwf hok (by decide) ks hck, fun b hb => ?_⟩
  have hc := chunk_closed m limit a .sliced hwf hok (by decide) ks ks b (expand_chunk hck) hck hb
  obtain ⟨b', σ, hb', hwb, _, _⟩ := chunk_getitem m limit a .sliced hwf hok (by decide) (expand_chunk hck) hck
  rw [hb] at hb'
  injection hb' with hb'
  subst hb'
  exact hG b hwb (Arr.Ok.mono m limit b _ _ (Or.inr (Or.inr rfl)) hc.ok) (hc.level n hl)

theorem streamGood_of [Inhabited α] [Inhabited V] (m : Mode α V) (limit : Nat) (n : Nat) (G : Arr α → Prop)
    (hG : ∀ b : Arr α, b.WF → b.Ok m limit .whole → b.levelLe n → G b) : ∀ a : Arr α, a.WF → a.streamOk m limit →
      a.Ok m limit .sliced → a.levelLe n → a.streamGood m limit G
  | .agg a axis k, hwf, hso, hok, hl => by
    obtain ⟨hwa, s, hs, hax⟩ := hwf
    obtain ⟨s1, s2, s3⟩ := hso
    have hl' : a.levelLe n := by
      cases n with
      | zero => exact hl.elim
      | succ n => exact Arr.levelLe.mono a n (n + 1) (by omega) hl
    refine ⟨s1, ?_, streamGood_of m limit n G hG a hwa s3 hok.2 hl'⟩
    exact cutSafe_cuts (m := m) hwa hs hax s2
  | .elem1 a op, hwf, hso, hok, hl => by
    have hl' : a.levelLe n := by
      cases n with
      | zero => exact hl.elim
      | succ n => exact Arr.levelLe.mono a n (n + 1) (by omega) hl
    exact ⟨hso.1, streamGood_of m limit n G hG a hwf hso.2 hok.2.2 hl'⟩
  | .elem2 a b op, hwf, hso, hok, hl => by
    obtain ⟨hwa, hwb, hab⟩ := hwf
    have hl' : a.levelLe n ∧ b.levelLe n := by
      cases n with
      | zero => exact hl.elim
      | succ n => exact ⟨Arr.levelLe.mono a n (n + 1) (by omega) hl.1, Arr.levelLe.mono b n (n + 1) (by omega) hl.2⟩
    obtain ⟨hop, s1, s2, s3⟩ := hso
    obtain ⟨_, _, _, hoa, hob⟩ := hok
    refine ⟨hop, streamGood_of m limit n G hG a hwa s1 hoa hl'.1, streamGood_of m limit n G hG b hwb s2 hob hl'.2, ?_⟩
    rcases s3 with h | ⟨h1, h2⟩
    · rw [h]
    · obtain ⟨_, e1⟩ := skel_shape m a hwa
      obtain ⟨_, e2⟩ := skel_shape m b hwb
      rw [cuts_fits _ h1, cuts_fits _ h2, e1, e2]
      have h1 := hwa.shape_eq m
      rw [hab, hwb.shape_eq m] at h1
      injection h1 with h1
      rw [h1]
  | .adapter o c keys, hwf, _, hok, hl => streamGood_prod m limit n G hG (.adapter o c keys) hwf hok hl
  | .const s v dt, hwf, _, hok, hl => streamGood_prod m limit n G hG (.const s v dt) hwf hok hl
  | .newAxes a na, hwf, _, hok, hl => streamGood_prod m limit n G hG (.newAxes a na) hwf hok hl
  | .bcast a d l, hwf, _, hok, hl => streamGood_prod m limit n G hG (.bcast a d l) hwf hok hl
  | .transposed a axes, hwf, _, hok, hl => streamGood_prod m limit n G hG (.transposed a axes) hwf hok hl
  | .stack ss items, hwf, _, hok, hl => streamGood_prod m limit n G hG (.stack ss items) hwf hok hl
  | .mosaic k tiles axis, hwf, _, hok, hl => streamGood_prod m limit n G hG (.mosaic k tiles axis) hwf hok hl
  | .asType a dt, hwf, _, hok, hl => streamGood_prod m limit n G hG (.asType a dt) hwf hok hl
  | .maskVal a v, hwf, _, hok, hl => streamGood_prod m limit n G hG (.maskVal a v) hwf hok hl

theorem evalGood_of (m : Mode α V) (limit : Nat) (n : Nat) (S : Arr α → Prop)
    (hS : ∀ b : Arr α, b.WF → b.streamOk m limit → b.Ok m limit .sliced → 0 < n → b.levelLe (n - 1) → S b)
    (hA : ∀ (b : Arr α) axis k, (Arr.agg b axis k).WF → (Arr.agg b axis k).streamOk m limit → b.Ok m limit .sliced →
      (Arr.agg b axis k).levelLe n → S (.agg b axis k)) :
    ∀ a : Arr α, a.WF → a.Ok m limit .whole → a.levelLe n → a.evalGood m S
  | .adapter o c keys, _, hok, _ => ⟨hok.1, fun ho => (hok.2.2 ho).1⟩
  | .const _ _ _, _, _, _ => trivial
  | .newAxes a _, hwf, hok, hl => evalGood_of m limit n S hS hA a hwf.1 hok.2 hl
  | .bcast a _ _, hwf, hok, hl => evalGood_of m limit n S hS hA a hwf.1 hok.2 hl
  | .transposed a _, hwf, hok, hl => evalGood_of m limit n S hS hA a hwf.1 hok hl
  | .stack ss items, hwf, hok, hl => fun i hi => by
    obtain ⟨_, s, h⟩ := hwf
    exact evalGood_of m limit n S hS hA (items i) (h i hi).1 (hok.2.2 i hi) (hl i hi)
  | .mosaic k tiles axis, hwf, hok, hl => fun i hi => by
    obtain ⟨_, s, _, h⟩ := hwf
    unfold Arr.Ok at hok
    rw [if_pos rfl] at hok
    exact evalGood_of m limit n S hS hA (tiles i) (h i hi).1 (hok i hi) (hl i hi)
  | .asType a _, hwf, hok, hl => evalGood_of m limit n S hS hA a hwf hok hl
  | .maskVal a _, hwf, hok, hl => evalGood_of m limit n S hS hA a hwf hok hl
  | .agg a axis k, hwf, hok, hl => hA a axis k hwf hok.1 hok.2 hl
  | .elem1 a op, hwf, hok, hl => by
    cases n with
    | zero => exact hl.elim
    | succ n => exact ⟨hok.1, hS a hwf hok.2.1 hok.2.2 (by omega) hl⟩
  | .elem2 a b op, hwf, hok, hl => by
    cases n with
    | zero => exact hl.elim
    | succ n =>
      obtain ⟨hop, h1, h2, h3, h4⟩ := hok
      exact ⟨hop, hS a hwf.1 h1 h3 (by omega) hl.1, hS b hwf.2.1 h2 h4 (by omega) hl.2⟩

theorem good_of [Inhabited α] [Inhabited V] (m : Mode α V) (limit : Nat) : ∀ (n : Nat) (a : Arr α), a.WF →
    a.Ok m limit .whole → a.levelLe n → a.good m limit n
  | 0, a, hwf, hok, hl => evalGood_of m limit 0 _ (fun _ _ _ _ h => absurd h (by omega))
      (fun _ _ _ _ _ _ h => h.elim) a hwf hok hl
  | n + 1, a, hwf, hok, hl => by
    have hG := good_of m limit n
    refine evalGood_of m limit (n + 1) _ ?_ ?_ a hwf hok hl
    · intro b hwb hso hok _ hl
      exact streamGood_of m limit n _ hG b hwb hso hok hl
    · intro b axis k hwb hso hok hl
      obtain ⟨s1, s2, s3⟩ := hso
      obtain ⟨hwa, s, hs, hax⟩ := hwb
      refine ⟨s1, ?_, streamGood_of m limit n _ hG b hwa s3 hok hl⟩
      exact cutSafe_cuts (m := m) hwa hs hax s2

/-- Evaluating a well-formed `Arr.Ok` expression gives the NumPy array it stands for. -/
theorem eval_ok [Inhabited α] [Inhabited V] (m : Mode α V) (limit : Nat) (a : Arr α) (hwf : a.WF) (hok : a.Ok m limit .whole) :
    ∃ N, ∀ n, N ≤ n → ∃ r, a.eval m limit n = .ok r ∧ r ≈ₐ a.den m := by
  obtain ⟨N, hN⟩ := exists_level a
  exact ⟨N, fun n hn => eval_good m limit n a hwf (good_of m limit n a hwf hok (Arr.levelLe.mono a N n hn hN))⟩

/-- So does evaluating it with the engine. -/
theorem engine_ok [Inhabited α] [Inhabited V] (m : Mode α V) (limit : Nat) (a : Arr α) (hwf : a.WF)
    (hso : a.streamOk m limit) (hok : a.Ok m limit .sliced) :
    ∃ N, ∀ n, N ≤ n → ∃ r, engineEval m limit n a = .ok r ∧ r ≈ₐ a.den m := by
  obtain ⟨N, hN⟩ := exists_level a
  refine ⟨N, fun n hn => ?_⟩
  refine engineOne_ok m limit (Arr.good m limit n) _ (fun b hb hG => eval_good m limit n b hb hG) a hwf ?_
  exact streamGood_of m limit n _ (good_of m limit n) a hwf hso hok (Arr.levelLe.mono a N n hn hN)

end Biggus

import Verif.Proofs.Kept
/-
Indexing with clean keys keeps an expression `Arr.Ok` (T4): the theorem.
-/
namespace Biggus

variable {α V : Type}

theorem streamed_ne (cut : Cut) : cut.streamed ≠ .whole := by cases cut <;> simp [Cut.streamed]

theorem streamed_self {cut : Cut} (h : cut ≠ .whole) : cut.streamed = cut := by
  cases cut <;> first | rfl | exact absurd rfl h

theorem streamed_arrays {cut : Cut} (h : cut.streamed = .arrays) : cut = .arrays := by
  cases cut <;> first | rfl | cases h

theorem expand_resolve {fk : List Key} {s : List Nat} {σ : List Sel} (he : Exact fk) (h : resolve fk s = .ok σ) :
    expandKeys fk s.length = .ok fk := expand_exact he (resolve_length he h).1

theorem Arr.PlainR.mono {rep : Bool} (m : Mode α V) (fwd : Bool) : ∀ (a : Arr α) (arr arr' : Bool) (cut cut' : Cut), (arr' = true → arr = true) →
    (cut = .whole ↔ cut' = .whole) → a.PlainR rep m fwd arr cut → a.PlainR rep m fwd arr' cut'
  | .adapter o c stored, arr, arr', _, _, h1, _, ⟨a0, a1, a2⟩ => by
    refine ⟨a0, a1, ?_⟩
    rcases a2 with h | h | ⟨h, h'⟩
    · exact Or.inl h
    · exact Or.inr (Or.inl h)
    · refine Or.inr (Or.inr ⟨?_, h'⟩)
      cases arr' <;> simp_all
  | .const _ _ _, _, _, _, _, _, _, _ => trivial
  | .newAxes a _, arr, arr', cut, cut', h1, h2, h => ⟨by cases arr' <;> simp_all [Arr.PlainR], Arr.PlainR.mono m fwd a arr arr' cut cut' h1 h2 h.2⟩
  | .bcast a _ _, arr, arr', cut, cut', h1, h2, h => ⟨by cases arr' <;> simp_all [Arr.PlainR], Arr.PlainR.mono m fwd a arr arr' cut cut' h1 h2 h.2⟩
  | .transposed a _, arr, arr', cut, cut', h1, h2, h => Arr.PlainR.mono m fwd a arr arr' cut cut' h1 h2 h
  | .stack ss items, arr, arr', cut, cut', h1, h2, h => ⟨fun ha => h.1 (h1 ha), fun hc => h.2.1 (fun e => hc (h2.mp e)),
      fun i hi => Arr.PlainR.mono m fwd (items i) arr arr' cut cut' h1 h2 (h.2.2 i hi)⟩
  | .mosaic n tiles axis, arr, arr', cut, cut', h1, h2, h => ⟨h.1, h.2.1, fun hc => h.2.2.1 (fun e => hc (h2.mp e)),
      fun i hi => by
        have := h.2.2.2 i hi
        by_cases hc : cut = .whole
        · rw [if_pos hc] at this; rw [if_pos (h2.mp hc)]; exact this
        · rw [if_neg hc] at this; rw [if_neg (fun e => hc (h2.mpr e))]; exact this⟩
  | .asType a _, arr, arr', cut, cut', h1, h2, h => Arr.PlainR.mono m fwd a arr arr' cut cut' h1 h2 h
  | .maskVal a _, arr, arr', cut, cut', h1, h2, h => Arr.PlainR.mono m fwd a arr arr' cut cut' h1 h2 h
  | .agg a _ _, arr, arr', cut, cut', h1, h2, h => ⟨h.1, Arr.PlainR.mono m fwd a arr arr' cut.streamed cut'.streamed h1
      (by simp [streamed_ne]) h.2⟩
  | .elem1 a _, arr, arr', cut, cut', h1, h2, h => Arr.PlainR.mono m fwd a arr arr' cut.streamed cut'.streamed h1
      (by simp [streamed_ne]) h
  | .elem2 a b _, arr, arr', cut, cut', h1, h2, h =>
      ⟨h.1, Arr.PlainR.mono m fwd a arr arr' cut.streamed cut'.streamed h1 (by simp [streamed_ne]) h.2.1,
        Arr.PlainR.mono m fwd b arr arr' cut.streamed cut'.streamed h1 (by simp [streamed_ne]) h.2.2⟩

theorem Arr.PlainR.bcast_inner {m : Mode α V} {rep fwd arr : Bool} {cut : Cut} {sub x : Arr α} (hc : arr = false)
    (hx : x = sub ∨ ∃ d l, sub = .bcast x d l) (h : sub.PlainR rep m fwd arr cut) (d : List (Nat × Nat)) (l : List Nat) :
    (Arr.bcast x d l).PlainR rep m fwd arr cut := by
  rcases hx with rfl | ⟨d', l', rfl⟩
  · exact ⟨hc, h⟩
  · exact ⟨hc, h.2⟩

/-- Indexing with clean keys keeps everything evaluation needs. -/
theorem getitem_kept [Inhabited α] [Inhabited V] (m : Mode α V) (limit : Nat) (nm : Bool) : ∀ (a : Arr α) (cut : Cut), a.WF →
    a.Ok m limit cut → ∀ (ks fk : List Key) (τ : List Sel) (b : Arr α), expandKeys ks (a.den m).shape.length = .ok fk →
    resolve fk (a.den m).shape = .ok τ → a.keysOk fk → a.clean m nm cut fk → (cut = .arrays → Exact fk) →
    a.getitem ks = .ok b → Kept m limit nm cut a fk b
  | .adapter o c stored, cut, hwf, hok, ks, fk, τ, b, hexp, hτ, hg, hcl, hne, hb => by
    unfold Arr.getitem at hb
    refine Kept.lift (a := .adapter o c stored) hwf hexp hτ hne hb ?_
    intro σ b' he hσ hb'
    obtain ⟨b'', h1, h2, h3⟩ := adapterFull_ok m o c stored hwf hg _ σ he hσ
    rw [hb'] at h1
    cases h1
    unfold adapterFull at hb'
    obtain ⟨ks', hl, hb'⟩ := bind_ok.mp hb'
    have hbe : b' = .adapter o c ks' := by
      unfold mkAdapter at hb'
      simp only [bind, Except.bind] at hb'
      split at hb'
      · cases hb'
      · split at hb'
        · cases hb'
        · cases hb'; rfl
    subst hbe
    obtain ⟨c1, c2, c3⟩ := hcl ks' hl
    have hlen : ks'.length = c.data.shape.length := ?_
    · exact Kept.ofProd rfl (fun _ => rfl) hwf h2 hσ h3 ⟨c3, fun h => c1 (Or.inl h), fun ho => ⟨c2 ho, fun _ => Or.inl hlen⟩⟩
        (fun hn _ _ _ hp => ⟨hp.1, c1 (Or.inr hn), Or.inr (Or.inl hlen)⟩)
    obtain ⟨hst, r0, hr0⟩ := hwf
    obtain ⟨fk0, σ0, he0, hσ0, rfl⟩ := npIndex_ok_iff.mp hr0
    rw [expandKeys_storable hst he0] at hσ0
    have hshape : ((Arr.adapter o c stored).den m).shape = selShape σ0 := by
      rw [den_adapter m o c stored _ hr0]; rfl
    rw [hshape] at hσ
    obtain ⟨ks1, ρ, g1, g2, g3, _⟩ := adapterLoop_ok _ (fun k hk => ⟨hst k hk, fun l => hg k hk l⟩) he hσ0 hσ
    rw [hl] at g1
    cases g1
    exact (resolve_length (storable_Exact g2) g3).1
  | .const s v dt, cut, hwf, hok, ks, fk, τ, b, hexp, hτ, hg, hcl, hne, hb => by
    obtain ⟨h2, h3⟩ := getitem_sim m hwf hexp hτ hg hb
    unfold Arr.getitem at hb
    obtain ⟨s', _, hb⟩ := bind_ok.mp hb
    cases hb
    exact Kept.ofProd rfl (fun _ => rfl) hwf h2 hτ h3 trivial (fun _ _ _ _ _ => trivial)
  | .newAxes a na, cut, hwf, hok, ks, fk, τ, b, hexp, hτ, hg, hcl, hne, hb => by
    obtain ⟨h2, h3⟩ := getitem_sim m hwf hexp hτ hg hb
    have hwf0 := hwf
    obtain ⟨hwa, s, hs, hl⟩ := hwf
    have hden := hwa.den_shape m hs
    match na, hl, hg, hcl with
    | c :: ns, hl, hg, hcl =>
      unfold Arr.getitem at hb
      rw [hs] at hb
      simp only [bind, Except.bind] at hb
      rw [← hden] at hb
      have hl' : ns.length = (a.den m).shape.length := by rw [hden]; simpa using hl
      obtain ⟨x, na', hx, hbx⟩ := newAxesGetitem_form m (a := a) hl' hexp hτ hg.1 hb
      obtain ⟨σ, hσ, _⟩ := naSem (p := 0) hl' hg.1 hτ
      have hE := containedKeys_exact (expandKeys_spec hexp).1 c ns
      have ih := getitem_kept m limit nm a cut hwa hok.2 _ _ σ x (expand_resolve hE hσ) hσ hg.2 hcl (fun _ => hE) hx
      rcases hbx with rfl | ⟨d, l, rfl⟩
      · exact Kept.ofProd rfl (fun _ => rfl) hwf0 h2 hτ h3 ⟨hok.1, ih.ok⟩
          (fun hn f ar har hp => ⟨hp.1, ih.plain hn f ar (fun _ => hE) hp.2⟩)
      · exact Kept.ofProd rfl (fun _ => rfl) hwf0 h2 hτ h3 ⟨hok.1, hok.1, ih.ok⟩
          (fun hn f ar har hp => ⟨hp.1, hp.1, ih.plain hn f ar (fun _ => hE) hp.2⟩)
  | .bcast a d lead, cut, hwf, hok, ks, fk, τ, b, hexp, hτ, hg, hcl, hne, hb => by
    unfold Arr.getitem at hb
    refine Kept.lift (a := .bcast a d lead) hwf hexp hτ hne hb ?_
    intro σ b' he hσ hb'
    have hwf0 := hwf
    obtain ⟨hwa, _, _, hn, hlead, s, hs, h1⟩ := hwf
    have hden := hwa.den_shape m hs
    obtain ⟨g1, g2, g3, g4⟩ := hg
    have hshape : ((Arr.bcast a d lead).den m).shape = lead ++ bcShape d 0 s := by
      rw [← hden]; rfl
    have hσ0 := hσ
    rw [hshape] at hσ0
    have hlen := (resolve_length he hσ0).1
    have he1 : Exact ((dropNew fk).take lead.length) := fun k hk => he k (List.mem_of_mem_take hk)
    have he2 : Exact ((dropNew fk).drop lead.length) := fun k hk => he k (List.mem_of_mem_drop hk)
    have hl1 : ((dropNew fk).take lead.length).length = lead.length := by rw [List.length_take, hlen]; simp
    rw [← List.take_append_drop lead.length (dropNew fk)] at hσ0
    obtain ⟨τ1, τ2, rfl, hτ1, hτ2⟩ := resolve_append_inv he1 hl1 hσ0
    have h1' : ∀ q ∈ d, 0 ≤ q.1 → s[q.1 - 0]? = some 1 := by intro q hq _; simpa using h1 q hq
    obtain ⟨d', σ', hloop, hE, hσ', _⟩ := bcastLoop_ok (rem := 0) (le_refl 0) he2 g3 h1' hτ2
    obtain ⟨b'', e1, e2, e3, _⟩ := bcastFull_ok m hwf0 he hσ g1 g2 g3 (inner := fun ks => a.getitem ks) (by
      intro σ' he' hσ'
      exact getitem_ok m a hwa _ _ _ (expand_resolve he' hσ') g4 (npIndex_ok_iff.mpr ⟨_, σ', expand_resolve he' hσ', hσ', rfl⟩))
    rw [hb'] at e1
    cases e1
    unfold bcastFull at hb'
    obtain ⟨lead', _, hb'⟩ := bind_ok.mp hb'
    rw [hs] at hb'
    simp only [bind, Except.bind, shapeFromDict_ok d s hn h1] at hb'
    rw [hloop] at hb'
    simp only at hb'
    split at hb'
    · cases hb'
    · rename_i sub hsub
      obtain ⟨x, dd, ll, rfl, hx⟩ := mkBcast_form hb'
      have hsubok : sub.Ok m limit cut ∧ (nm = true → ∀ rep f ar, a.PlainR rep m f ar cut → sub.PlainR rep m f ar cut) := by
        unfold bcastSub at hsub
        obtain ⟨full, _, hsub⟩ := bind_ok.mp hsub
        split at hsub
        · cases hsub; exact ⟨hok.2, fun _ _ _ _ h => h⟩
        · rw [← hden] at hσ'
          have ih := getitem_kept m limit nm a cut hwa hok.2 _ _ σ' sub (expand_resolve hE hσ') hσ' g4 hcl (fun _ => hE) hsub
          exact ⟨ih.ok, fun hn rep f ar => ih.plain hn f ar (fun _ => hE)⟩
      exact Kept.ofProd rfl (fun _ => rfl) hwf0 e2 hσ e3 (Arr.Ok.bcast_inner hok.1 hx hsubok.1 _ _)
        (fun hn f ar _ hp => Arr.PlainR.bcast_inner hp.1 hx (hsubok.2 hn _ f ar hp.2) _ _)
  | .transposed a axes, cut, hwf, hok, ks, fk, τ, b, hexp, hτ, hg, hcl, hne, hb => by
    unfold Arr.getitem at hb
    refine Kept.lift (a := .transposed a axes) hwf hexp hτ hne hb ?_
    intro σ b' he hσ hb'
    obtain ⟨rem, σ', hrem, hE, hσ'⟩ := transposed_keys m hwf he hσ
    obtain ⟨b'', e1, e2, e3, _⟩ := transposedFull_ok m hwf he hσ (inner := fun ks => a.getitem ks) (by
      intro rem σ' hrem he' hσ'
      exact getitem_ok m a hwf.1 _ _ _ (expand_resolve he' hσ') (hg rem hrem)
        (npIndex_ok_iff.mpr ⟨_, σ', expand_resolve he' hσ', hσ', rfl⟩))
    rw [hb'] at e1
    cases e1
    unfold transposedFull at hb'
    obtain ⟨rem', hrem', hb'⟩ := bind_ok.mp hb'
    rw [hrem] at hrem'
    cases hrem'
    obtain ⟨x, hx, hb'⟩ := bind_ok.mp hb'
    have ih := getitem_kept m limit nm a cut hwf.1 hok _ _ σ' x (expand_resolve hE hσ') hσ' (hg rem hrem) (hcl rem hrem)
      (fun _ => hE) hx
    unfold mkTransposed at hb'
    obtain ⟨_, _, hb'⟩ := bind_ok.mp hb'
    simp only at hb'
    split at hb'
    · cases hb'
    · cases hb'
      exact Kept.ofProd rfl (fun _ => rfl) hwf e2 hσ e3 ih.ok (fun hn f ar _ hp => ih.plain hn f ar (fun _ => hE) hp)
  | .stack ss items, cut, hwf, hok, ks, fk, τ, b, hexp, hτ, hg, hcl, hne, hb => by
    unfold Arr.getitem at hb
    refine Kept.lift (a := .stack ss items) hwf hexp hτ hne hb ?_
    intro σ b' he hσ hb'
    have hwf0 := hwf
    obtain ⟨h0, s, hi⟩ := hwf
    have hz := hi _ (inB_zeros ss h0)
    obtain ⟨g1, g2, g3, g4⟩ := hg
    obtain ⟨b'', e1, e2, e3, _⟩ := stackFull_ok m hwf0 he hσ g1 g2 g3 (inner := fun i ks => (items i).getitem ks) (by
      intro i σ' hin he' hσ'
      exact getitem_ok m (items i) (hi i hin).1 _ _ _ (expand_resolve he' hσ') (g4 i hin)
        (npIndex_ok_iff.mpr ⟨_, σ', expand_resolve he' hσ', hσ', rfl⟩))
    rw [hb'] at e1
    cases e1
    have hshape : ((Arr.stack ss items).den m).shape = ss ++ s := by
      unfold Arr.den NDA.stacked
      simp only
      rw [hz.1.den_shape m hz.2]
    have hσ0 := hσ
    rw [hshape] at hσ0
    have hlen := (resolve_length he hσ0).1
    have he1 : Exact ((dropNew fk).take ss.length) := fun k hk => he k (List.mem_of_mem_take hk)
    have he2 : Exact ((dropNew fk).drop ss.length) := fun k hk => he k (List.mem_of_mem_drop hk)
    have hl1 : ((dropNew fk).take ss.length).length = ss.length := by rw [List.length_take, hlen]; simp
    rw [← List.take_append_drop ss.length (dropNew fk)] at hσ0
    obtain ⟨τ1, τ2, rfl, hτ1, hτ2⟩ := resolve_append_inv he1 hl1 hσ0
    obtain ⟨o1, o2, o3⟩ := hok
    obtain ⟨c1, c2⟩ := hcl
    have hitem : ∀ j x, InB ss j → (items j).getitem ((dropNew fk).drop ss.length) = .ok x →
        Kept m limit nm cut (items j) ((dropNew fk).drop ss.length) x := by
      intro j x hj hx
      have hsj := (hi j hj).1.den_shape m (hi j hj).2
      rw [← hsj] at hτ2
      exact getitem_kept m limit nm (items j) cut (hi j hj).1 (o3 j hj) _ _ τ2 x (expand_resolve he2 hτ2) hτ2 (g4 j hj) (c2 j hj)
        (fun _ => he2) hx
    rcases stackFull_cases he1 hτ1 g1 g2 hb' with ⟨hn, j, hj, hbj⟩ | ⟨hn, F, rfl, hF⟩
    · have hk := hitem j b' hj hbj
      exact Kept.ofProd rfl (fun hc => hk.prod hc (c1 hc (selShape_nil_scalar he1 hτ1 hn) j hj)) hwf0 e2 hσ e3 hk.ok
        (fun hn f ar _ hp => hk.plain hn f ar (fun _ => he2) (hp.2.2 j hj))
    · refine Kept.ofProd rfl (fun _ => rfl) hwf0 e2 hσ e3 ⟨fun h => ?_, fun _ => hn, ?_⟩ (fun hn f ar _ hp =>
          ⟨fun h => ?_, fun hc i hin => ?_, fun i hin => ?_⟩)
      · have h1 := o1 h
        have h2 := selShape_length_le τ1
        have h3 := (resolve_length he1 hτ1).2
        omega
      · intro i hin
        obtain ⟨j, hj, hFj⟩ := hF i hin
        exact (hitem j _ hj hFj).ok
      · have h1 := hp.1 h
        have h2 := selShape_length_le τ1
        have h3 := (resolve_length he1 hτ1).2
        omega
      · obtain ⟨j, hj, hFj⟩ := hF i hin
        exact (hitem j _ hj hFj).prod hc (hp.2.1 hc j hj)
      · obtain ⟨j, hj, hFj⟩ := hF i hin
        exact (hitem j _ hj hFj).plain hn f ar (fun _ => he2) (hp.2.2 j hj)
  | .mosaic n tiles axis, cut, hwf, hok, ks, fk, τ, b, hexp, hτ, hg, hcl, hne, hb => by
    unfold Arr.getitem at hb
    refine Kept.lift (a := .mosaic n tiles axis) hwf hexp hτ hne hb ?_
    intro σ b' he hσ hb'
    obtain ⟨s, hax, ht, hsh⟩ := hwf.mosaic_shapes m
    have hlens : (List.range n).map (fun i => ((tiles i).den m).shape.getD axis 0) =
        (List.range n).map (fun i => (okOr (tiles i).shape []).getD axis 0) := by
      apply List.map_congr_left
      intro i hi
      rw [(ht i (by simpa using hi)).1.shape_eq m]; rfl
    obtain ⟨c1, c2⟩ := hcl
    have hgc := mosaicKeysOk.and hg c2
    set G : Nat → List Key → Prop := fun t ks => (tiles t).keysOk ks ∧
      (tiles t).clean m nm (if cut = .whole then .whole else .arrays) ks with hG
    -- only the calls with good keys
    classical
    set P : Nat → List Key → Prop := fun t ks => t < n ∧ ∃ fk' σ', expandKeys ks ((tiles t).den m).shape.length = .ok fk' ∧
      Exact fk' ∧ G t fk' ∧ resolve fk' ((tiles t).den m).shape = .ok σ' with hP
    set inner' : Nat → List Key → Res (Arr α) := fun t ks => if P t ks then (tiles t).getitem ks else .error .type with hinner
    have hinv : ∀ t ks y, inner' t ks = .ok y → P t ks ∧ (tiles t).getitem ks = .ok y := by
      intro t ks y h
      simp only [hinner] at h
      split at h
      · rename_i hp; exact ⟨hp, h⟩
      · cases h
    obtain ⟨b'', e1, e2, e3, _⟩ := mosaicFull_ok m hwf he hσ G (by rw [hlens]; exact hgc) (inner := inner') (by
      intro t ks' fk' σ' htn hexp' he' hG' hσ'
      have hp : P t ks' := ⟨htn, fk', σ', hexp', he', hG', hσ'⟩
      have : inner' t ks' = (tiles t).getitem ks' := by simp only [hinner]; rw [if_pos hp]
      rw [this]
      exact getitem_ok m (tiles t) (ht t htn).1 ks' fk' _ hexp' hG'.1 (npIndex_ok_iff.mpr ⟨_, σ', hexp', hσ', rfl⟩))
    have hmono := mosaicFull_mono (g := fun t ks => (tiles t).getitem ks) (fun t ks y h => (hinv t ks y h).2) e1
    rw [hb'] at hmono
    injection hmono with hmono
    subst hmono
    have htok : ∀ t, t < n → (tiles t).Ok m limit (if cut = .whole then .whole else .arrays) := by
      intro t htn
      unfold Arr.Ok at hok
      split at hok
      · rename_i h; rw [if_pos h]; exact hok t htn
      · rename_i h; rw [if_neg h]; exact hok.2 t htn
    have htile : ∀ t ks x, inner' t ks = .ok x → t < n ∧ ∃ fk', Exact fk' ∧
        Kept m limit nm (if cut = .whole then .whole else .arrays) (tiles t) fk' x := by
      intro t ks x h
      obtain ⟨⟨htn, fk', σ', h1, h2, h3, h4⟩, h5⟩ := hinv t ks x h
      exact ⟨htn, fk', h2, getitem_kept m limit nm (tiles t) _ (ht t htn).1 (htok t htn) ks fk' σ' x h1 h4 h3.1 h3.2 (fun _ => h2) h5⟩
    rcases mosaicFull_cases e1 with ⟨bs, rfl, hbs, hns⟩ | ⟨hsc, hlt, t, ks', hx⟩
    · have hmem : ∀ i, i < bs.length → bs.getD i default ∈ bs := fun i hi => getD_mem bs i default hi
      have hpos : 0 < ((List.range n).map (fun i => (okOr (tiles i).shape []).getD axis 0)).sum →
          0 < ((List.range bs.length).map (fun i => (okOr (bs.getD i default).shape []).getD
                (axis - (((trimKeys (dropNew fk)).take axis).filter Key.isScalar).length) 0)).sum := by
        intro h0
        obtain ⟨s', hax', ht', hsh'⟩ := e2.mosaic_shapes m
        have h3 : (selShape σ).getD (axis - (((trimKeys (dropNew fk)).take axis).filter Key.isScalar).length) 0 =
            ((List.range bs.length).map (fun i => (okOr (bs.getD i default).shape []).getD
              (axis - (((trimKeys (dropNew fk)).take axis).filter Key.isScalar).length) 0)).sum := by
          have h4 : ((Arr.mosaic bs.length (fun i => bs.getD i default)
            (axis - (((trimKeys (dropNew fk)).take axis).filter Key.isScalar).length)).den m).shape = selShape σ := e3.1
          rw [← h4, hsh', getD_set_self _ _ _ _ hax']
        rw [← h3]
        rw [hsh] at hσ
        exact mosaic_axis_pos hax he hσ hg h0 hns
      refine Kept.ofProd rfl (fun _ => rfl) hwf e2 hσ e3 ?_ ?_
      · unfold Arr.Ok
        split
        · rename_i hcw
          intro i hi
          obtain ⟨t, ks', h⟩ := hbs _ (hmem i hi)
          obtain ⟨_, fk', _, hk⟩ := htile t ks' _ h
          have := hk.ok
          rw [if_pos hcw] at this
          exact this
        · rename_i hcw
          refine ⟨?_, ?_⟩
          · unfold Arr.Ok at hok
            rw [if_neg hcw] at hok
            exact hpos hok.1
          · intro i hi
            obtain ⟨t, ks', h⟩ := hbs _ (hmem i hi)
            obtain ⟨_, fk', _, hk⟩ := htile t ks' _ h
            have := hk.ok
            rw [if_neg hcw] at this
            exact this
      · intro rep hn f ar _ ⟨p1, p2, p3, p4⟩
        refine ⟨p1, hpos p2, ?_, ?_⟩
        · intro hcw i hi
          obtain ⟨t, ks', h⟩ := hbs _ (hmem i hi)
          obtain ⟨htn, fk', _, hk⟩ := htile t ks' _ h
          exact hk.prod (by rw [if_neg hcw]; decide) (p3 hcw t htn)
        · intro i hi
          obtain ⟨t, ks', h⟩ := hbs _ (hmem i hi)
          obtain ⟨htn, fk', he', hk⟩ := htile t ks' _ h
          exact hk.plain hn f true (fun _ => he') (p4 t htn)
    · obtain ⟨htn, fk', hfk', hk⟩ := htile t ks' b' hx
      have hsc' : ((dropNew fk).getD axis Key.full).isScalar = true := by
        obtain ⟨rr, hrr⟩ := trimKeys_spec (dropNew fk)
        rw [hrr, List.getD_eq_getElem?_getD, List.getElem?_append_left hlt, ← List.getD_eq_getElem?_getD]
        exact hsc
      have hplain : nm = true → ∀ rep f ar, (Arr.mosaic n tiles axis).PlainR rep m f ar cut → b'.PlainR rep m f ar cut := by
        intro hn rep f ar ⟨p1, p2, p3, p4⟩
        refine Arr.PlainR.mono m f b' true ar _ cut (fun _ => rfl) ?_ (hk.plain hn f true (fun _ => hfk') (p4 t htn))
        by_cases hcw : cut = .whole <;> simp [hcw]
      by_cases hcw : cut = .whole
      · rw [if_pos hcw] at hk
        exact Kept.ofProd rfl (fun h => absurd hcw h) hwf e2 hσ e3 (by rw [hcw]; exact hk.ok)
          (fun hn f ar _ => hplain hn _ f ar)
      · rw [if_neg hcw] at hk
        exact Kept.ofProd rfl (fun h => hk.prod (by decide) (c1 hcw hsc' t htn)) hwf e2 hσ e3
          (Arr.Ok.mono m limit b' .arrays cut (Or.inr (Or.inl rfl)) hk.ok)
          (fun hn f ar _ => hplain hn _ f ar)
  | .asType a dt, cut, hwf, hok, ks, fk, τ, b, hexp, hτ, hg, hcl, hne, hb => by
    obtain ⟨h2, h3⟩ := getitem_sim m hwf hexp hτ hg hb
    unfold Arr.getitem at hb
    obtain ⟨x, hx, hb⟩ := bind_ok.mp hb
    cases hb
    have ih := getitem_kept m limit nm a cut hwf hok ks fk τ x hexp hτ hg hcl hne hx
    exact Kept.ofProd rfl (fun _ => rfl) hwf h2 hτ h3 ih.ok (fun hn f ar har hp => ih.plain hn f ar har hp)
  | .maskVal a v, cut, hwf, hok, ks, fk, τ, b, hexp, hτ, hg, hcl, hne, hb => by
    obtain ⟨h2, h3⟩ := getitem_sim m hwf hexp hτ hg hb
    unfold Arr.getitem at hb
    obtain ⟨x, hx, hb⟩ := bind_ok.mp hb
    cases hb
    have ih := getitem_kept m limit nm a cut hwf hok ks fk τ x hexp hτ hg hcl hne hx
    exact Kept.ofProd rfl (fun _ => rfl) hwf h2 hτ h3 ih.ok (fun hn f ar har hp => ih.plain hn f ar har hp)
  | .agg a axis k, cut, hwf, hok, ks, fk, τ, b, hexp, hτ, hg, hcl, hne, hb => by
    unfold Arr.getitem at hb
    refine Kept.lift (a := .agg a axis k) hwf hexp hτ hne hb ?_
    intro σ b' he hσ hb'
    obtain ⟨hwa, s, hs, hax⟩ := hwf
    have hden := hwa.den_shape m hs
    have hσ0 : resolve (dropNew fk) (s.eraseIdx axis) = .ok σ := by rw [← hden]; exact hσ
    obtain ⟨hE, σ', hσ', hn⟩ := resolve_insert_full hax he hσ0
    rw [← hden] at hσ'
    unfold aggFull at hb'
    obtain ⟨x, hx, hb'⟩ := bind_ok.mp hb'
    cases hb'
    obtain ⟨hd, hca⟩ := hcl
    obtain ⟨hso, hoa⟩ := hok
    have ih := getitem_kept m limit nm a cut.streamed hwa hoa _ _ σ' x (expand_resolve hE hσ') hσ' hg hca (fun _ => hE) hx
    obtain ⟨hwx, hdx⟩ := getitem_sim m hwa (expand_resolve hE hσ') hσ' hg hx
    have hcs := streamed_ne cut
    have hskel := ih.skel hcs hE
    have hstream : (Arr.agg x (axis - (((dropNew fk).take axis).filter Key.isScalar).length) k).streamOk m limit := by
      obtain ⟨s1, s2, s3⟩ := hso
      refine ⟨?_, ?_, ih.stream hcs s3⟩
      · rcases s1 with h | h
        · left
          rw [hs] at h
          rw [hwx.shape_eq m, hdx.1]
          show (selShape σ').getD _ 0 ≠ 0
          rw [hn]; exact h
        · exact Or.inr h
      · rcases hd with hd | hd
        · exact Or.inl hd
        · obtain ⟨w1, w2⟩ := skel_shape m a hwa
          have hdn : ∀ y ∈ dropNew fk, y.distinct := fun y hy => hd y (List.mem_of_mem_filter hy)
          have hdi : ∀ y ∈ (dropNew fk).take axis ++ [Key.full] ++ (dropNew fk).drop axis, y.distinct := by
            intro y hy
            simp only [List.mem_append, List.mem_singleton] at hy
            rcases hy with (hy | rfl) | hy
            · exact hdn y (List.mem_of_mem_take hy)
            · trivial
            · exact hdn y (List.mem_of_mem_drop hy)
          have hfl : axis ≤ (dropNew fk).length := by
            have := (resolve_length he hσ0).1
            rw [this, List.length_eraseIdx, if_pos hax]
            omega
          have htl : ((dropNew fk).take axis).length = axis := by rw [List.length_take]; omega
          have hh : ∀ r, a.skel.holds limit r axis → x.skel.holds limit r (axis - (((dropNew fk).take axis).filter Key.isScalar).length) := by
            intro r hr
            rw [hskel]
            have := holds_index_distinct (r := r) (limit := limit) a.skel _ axis w1 hE hdi ⟨σ', by rw [w2]; exact hσ'⟩ (by rw [w2, hden]; exact hax)
              (by rw [List.append_assoc, List.getD_eq_getElem?_getD, List.getElem?_append_right (by omega), htl, Nat.sub_self]; rfl) hr
            have e : ((dropNew fk).take axis ++ [Key.full] ++ (dropNew fk).drop axis).take axis = (dropNew fk).take axis := by
              rw [List.append_assoc, List.take_append_of_le_length (by omega), List.take_take, Nat.min_self]
            rw [e] at this
            exact this
          have hnn : (okOr x.shape []).getD (axis - (((dropNew fk).take axis).filter Key.isScalar).length) 0 = (okOr a.shape []).getD axis 0 := by
            rw [hwx.shape_eq m, hs]
            show (x.den m).shape.getD _ 0 = s.getD axis 0
            rw [hdx.1]
            exact hn
          rcases s2 with h | h | h | ⟨h, h'⟩
          · exact Or.inl h
          · exact Or.inr (Or.inl (by rw [hnn]; exact h))
          · exact Or.inr (Or.inr (Or.inl (by rw [hnn]; exact hh _ h)))
          · exact Or.inr (Or.inr (Or.inr ⟨h, hh _ h'⟩))
    refine ⟨⟨hstream, ih.ok⟩, (fun _ h => by cases h), fun _ _ => hstream, fun _ _ => ?_,
      fun hn f ar _ hp => ⟨hp.1, ih.plain hn f ar (fun _ => hE) hp.2⟩⟩
    show Skel.agg x.skel _ = _
    rw [hskel]; rfl
  | .elem1 a op, cut, hwf, hok, ks, fk, τ, b, hexp, hτ, hg, hcl, hne, hb => by
    unfold Arr.getitem at hb
    refine Kept.lift (a := .elem1 a op) hwf hexp hτ hne hb ?_
    intro σ b' he hσ hb'
    obtain ⟨x, hx, hb'⟩ := bind_ok.mp hb'
    cases hb'
    obtain ⟨hop, hso, hoa⟩ := hok
    have hσa : resolve (dropNew fk) (a.den m).shape = .ok σ := hσ
    have ih := getitem_kept m limit nm a cut.streamed hwf hoa _ _ σ x (expand_resolve he hσa) hσa hg hcl (fun _ => he) hx
    have hcs := streamed_ne cut
    exact ⟨⟨hop, ih.stream hcs hso, ih.ok⟩, (fun _ h => by cases h), fun _ h => ⟨h.1, ih.stream hcs h.2⟩, fun _ _ => ih.skel hcs he,
      fun hn f ar _ hp => ih.plain hn f ar (fun _ => he) hp⟩
  | .elem2 a b op, cut, hwf, hok, ks, fk, τ, b0, hexp, hτ, hg, hcl, hne, hb => by
    unfold Arr.getitem at hb
    refine Kept.lift (a := .elem2 a b op) hwf hexp hτ hne hb ?_
    intro σ b' he hσ hb'
    obtain ⟨hwa, hwb, hab⟩ := hwf
    obtain ⟨x, hx, hb'⟩ := bind_ok.mp hb'
    obtain ⟨y, hy, hb'⟩ := bind_ok.mp hb'
    obtain ⟨hop, hsa, hsb, hoa, hob⟩ := hok
    obtain ⟨hc1, hc2, hc3⟩ := hcl
    have hsh : (a.den m).shape = (b.den m).shape := by
      rw [hwa.shape_eq m, hwb.shape_eq m] at hab; exact Except.ok.inj hab
    have hσa : resolve (dropNew fk) (a.den m).shape = .ok σ := hσ
    have hσb : resolve (dropNew fk) (b.den m).shape = .ok σ := by rw [← hsh]; exact hσ
    have hcs := streamed_ne cut
    have iha := getitem_kept m limit nm a cut.streamed hwa hoa _ _ σ x (expand_resolve he hσa) hσa hg.1 hc2 (fun _ => he) hx
    have ihb := getitem_kept m limit nm b cut.streamed hwb hob _ _ σ y (expand_resolve he hσb) hσb hg.2 hc3 (fun _ => he) hy
    obtain ⟨hwx, hdx⟩ := getitem_sim m hwa (expand_resolve he hσa) hσa hg.1 hx
    obtain ⟨hwy, hdy⟩ := getitem_sim m hwb (expand_resolve he hσb) hσb hg.2 hy
    rw [mkElem2_same (s := selShape σ) (by rw [hwx.shape_eq m, hdx.1]; rfl) (by rw [hwy.shape_eq m, hdy.1]; rfl)] at hb'
    cases hb'
    refine ⟨⟨hop, iha.stream hcs hsa, ihb.stream hcs hsb, iha.ok, ihb.ok⟩, (fun _ h => by cases h), fun hcw h => ?_,
      fun _ _ => iha.skel hcs he,
      fun hn f ar _ hp => ⟨fun hr => by rw [iha.skel hcs he, ihb.skel hcs he, hp.1 hr], iha.plain hn f ar (fun _ => he) hp.2.1,
        ihb.plain hn f ar (fun _ => he) hp.2.2⟩⟩
    obtain ⟨_, _, _, h⟩ := h
    refine ⟨hop, iha.stream hcs hsa, ihb.stream hcs hsb, ?_⟩
    rw [iha.skel hcs he, ihb.skel hcs he]
    have hfit : (∀ z ∈ fk, z.distinct) → a.skel.fits limit ∧ b.skel.fits limit →
        (a.skel.index (dropNew fk)).fits limit ∧ (b.skel.index (dropNew fk)).fits limit := by
      intro hd ⟨f1, f2⟩
      have hdn : ∀ y ∈ dropNew fk, y.distinct := fun y hy => hd y (List.mem_of_mem_filter hy)
      obtain ⟨w1, w2⟩ := skel_shape m a hwa
      obtain ⟨v1, v2⟩ := skel_shape m b hwb
      exact ⟨fits_index_distinct a.skel _ w1 he hdn ⟨σ, by rw [w2]; exact hσa⟩ f1,
        fits_index_distinct b.skel _ v1 he hdn ⟨σ, by rw [v2]; exact hσb⟩ f2⟩
    rcases hc1 hcw with h' | hd
    · left; rw [h']
    · rcases h with h' | h'
      · left; rw [h']
      · exact Or.inr (hfit hd h')

end Biggus

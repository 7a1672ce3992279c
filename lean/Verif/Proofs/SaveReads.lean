import Verif.Proofs.Simple
import Verif.Proofs.Reads
/-
The pieces `a[keys]` that `save` evaluates read nothing twice.
-/
namespace Biggus

variable {α V : Type}

/-- What `saveThrifty` becomes after indexing with integers and slices. -/
def Arr.frugal : Bool → Arr α → Prop
  | strict, .adapter o _ keys => o = true ∨ (strict = false ∧ (keys.filter Key.isTuple).length ≤ 1)
  | _, .const _ _ _ => True
  | strict, .newAxes a _ => a.frugal strict
  | _, .bcast _ _ _ => False
  | strict, .transposed a _ => a.frugal strict
  | strict, .stack ss items => ∀ i, InB ss i → (items i).frugal strict
  | _, .mosaic n tiles _ => ∀ i, i < n → (tiles i).frugal true
  | strict, .asType a _ => a.frugal strict
  | strict, .maskVal a _ => a.frugal strict
  | _, .agg a _ _ => a.frugal true
  | _, .elem1 a _ => a.frugal true
  | _, .elem2 a b _ => a.frugal true ∧ b.frugal true

theorem Arr.frugal.mono : ∀ (a : Arr α) (st : Bool), a.frugal true → a.frugal st
  | .adapter o c keys, _, h => Or.inl (h.resolve_right (fun h => by cases h.1))
  | .const _ _ _, _, _ => trivial
  | .newAxes a _, st, h => Arr.frugal.mono a st h
  | .bcast _ _ _, _, h => h.elim
  | .transposed a _, st, h => Arr.frugal.mono a st h
  | .stack ss items, st, h => fun i hi => Arr.frugal.mono (items i) st (h i hi)
  | .mosaic k tiles _, _, h => h
  | .asType a _, st, h => Arr.frugal.mono a st h
  | .maskVal a _, st, h => Arr.frugal.mono a st h
  | .agg a _ _, _, h => h
  | .elem1 a _, _, h => h
  | .elem2 a b _, _, h => h

theorem Arr.frugal.ortho : ∀ (a : Arr α) (st : Bool) (n : Nat), a.frugal true → a.thrifty st n
  | .adapter o c keys, _, _, h => Or.inl (h.resolve_right (fun h => by cases h.1))
  | .const _ _ _, _, _, _ => trivial
  | .newAxes a _, _, n, h => Arr.frugal.ortho a _ n h
  | .bcast _ _ _, _, _, h => h.elim
  | .transposed a _, _, n, h => Arr.frugal.ortho a _ n h
  | .stack ss items, _, n, h => fun i hi => Arr.frugal.ortho (items i) _ n (h i hi)
  | .mosaic k tiles _, _, n, h => fun i hi => Arr.frugal.ortho (tiles i) _ _ (h i hi)
  | .asType a _, _, n, h => Arr.frugal.ortho a _ n h
  | .maskVal a _, _, n, h => Arr.frugal.ortho a _ n h
  | .agg a _ _, _, n, h => Arr.frugal.ortho a _ _ h
  | .elem1 a _, _, n, h => Arr.frugal.ortho a _ _ h
  | .elem2 a b _, _, n, h => ⟨Arr.frugal.ortho a _ _ h.1, Arr.frugal.ortho b _ _ h.2⟩

theorem Arr.frugal.thrifty : ∀ (a : Arr α) (st : Bool), a.frugal false → a.thrifty st 0
  | .adapter o c keys, _, h => h.elim Or.inl (fun h => Or.inr (Or.inl ⟨rfl, h.2⟩))
  | .const _ _ _, _, _ => trivial
  | .newAxes a _, _, h => Arr.frugal.thrifty a _ h
  | .bcast _ _ _, _, h => h.elim
  | .transposed a _, _, h => Arr.frugal.thrifty a _ h
  | .stack ss items, _, h => fun i hi => Arr.frugal.thrifty (items i) _ (h i hi)
  | .mosaic k tiles _, _, h => fun i hi => Arr.frugal.ortho (tiles i) _ _ (h i hi)
  | .asType a _, _, h => Arr.frugal.thrifty a _ h
  | .maskVal a _, _, h => Arr.frugal.thrifty a _ h
  | .agg a _ _, _, h => Arr.frugal.ortho a _ _ h
  | .elem1 a _, _, h => Arr.frugal.ortho a _ _ h
  | .elem2 a b _, _, h => ⟨Arr.frugal.ortho a _ _ h.1, Arr.frugal.ortho b _ _ h.2⟩

theorem Arr.saveThrifty.frugal : ∀ (a : Arr α) (st : Bool), a.saveThrifty st → a.frugal st
  | .adapter o c keys, _, h => h.imp_right (fun h => ⟨h.1, by rw [h.2]; simp⟩)
  | .const _ _ _, _, _ => trivial
  | .newAxes a _, _, h => Arr.saveThrifty.frugal a _ h
  | .bcast _ _ _, _, h => h.elim
  | .transposed a _, _, h => Arr.saveThrifty.frugal a _ h
  | .stack ss items, _, h => fun i hi => Arr.saveThrifty.frugal (items i) _ (h i hi)
  | .mosaic k tiles _, _, h => fun i hi => Arr.saveThrifty.frugal (tiles i) _ (h i hi)
  | .asType a _, _, h => Arr.saveThrifty.frugal a _ h
  | .maskVal a _, _, h => Arr.saveThrifty.frugal a _ h
  | .agg a _ _, _, h => Arr.saveThrifty.frugal a _ h
  | .elem1 a _, _, h => Arr.saveThrifty.frugal a _ h
  | .elem2 a b _, _, h => ⟨Arr.saveThrifty.frugal a _ h.1, Arr.saveThrifty.frugal b _ h.2⟩

theorem simple_naDict {fwd arr : Bool} (ha : arr = false) : ∀ (fk : List Key) (p c : Nat) (ns s : List Nat),
    ns.length = s.length → List.Forall₂ (SimpleKey fwd arr) fk (naShape (c :: ns) s) → naDict p c ns fk = [] := by
  intro fk
  induction fk with
  | nil => intro p c ns s _ _; cases c <;> cases ns <;> rfl
  | cons k fk ih =>
    intro p c ns s hl h
    cases c with
    | succ c =>
      rw [naShape_succ] at h
      obtain ⟨h1, h2⟩ := List.forall₂_cons.mp h
      obtain ⟨hk, hst⟩ := simple_new_axis h1 ha
      rcases hk with ⟨i, rfl⟩ | ⟨sl, rfl⟩
      · simp only [naDict]
        exact ih _ c ns s hl h2
      · simp only [naDict, ih _ c ns s hl h2, List.append_nil]
        unfold naDict1
        unfold stretchesNew at hst
        simp only at hst ⊢
        cases hr : sl.range 1 with
        | error e => rfl
        | ok r => rw [hr] at hst; simpa using hst
    | zero =>
      match ns, s, hl with
      | [], [], _ =>
        rw [show naShape [0] [] = [] from rfl] at h
        cases h
      | n :: ns, x :: s, hl =>
        rw [naShape_zero] at h
        obtain ⟨h1, h2⟩ := List.forall₂_cons.mp h
        rcases h1.basic ha with ⟨i, rfl⟩ | ⟨sl, rfl⟩
        · simp only [naDict]
          exact ih _ n ns s (by simpa using hl) h2
        · simp only [naDict]
          exact ih _ n ns s (by simpa using hl) h2

theorem expand_simple {fwd arr : Bool} {fk : List Key} {s : List Nat} (h : List.Forall₂ (SimpleKey fwd arr) fk s) :
    expandKeys fk s.length = .ok fk := by
  obtain ⟨σ, hσ, _⟩ := simpleKeys_resolve h
  exact expand_resolve (simpleKeys_exact h) hσ

/-- Indexing a `saveThrifty` expression with simple keys gives a frugal one. -/
theorem simple_frugal [Inhabited α] [Inhabited V] (m : Mode α V) (fwd : Bool) : ∀ (a : Arr α) (st arr : Bool) (cut : Cut), a.WF →
    a.Plain m fwd arr cut → (st = false → arr = false) → a.saveThrifty st → ∀ (ks fk : List Key) (b : Arr α),
    expandKeys ks (a.den m).shape.length = .ok fk → List.Forall₂ (SimpleKey fwd arr) fk (a.den m).shape →
    a.getitem ks = .ok b → b.frugal st
  | .adapter o c stored, st, arr, cut, hwf, hp, ha, ht, ks, fk, b, hexp, hfk, hb => by
    unfold Arr.getitem at hb
    have hshp : slicedShape c.data.shape stored = .ok ((Arr.adapter o c stored).den m).shape := hwf.shape_eq m
    rw [arrayGetitem_exact hshp hexp (simpleKeys_exact hfk)] at hb
    unfold adapterFull at hb
    obtain ⟨ks', hl, hb⟩ := bind_ok.mp hb
    have hbe : b = .adapter o c ks' := by
      unfold mkAdapter at hb
      simp only [bind, Except.bind] at hb
      split at hb
      · cases hb
      · split at hb
        · cases hb
        · cases hb; rfl
    subst hbe
    rcases ht with ht | ⟨h1, h2⟩
    · exact Or.inl ht
    · subst h2
      refine Or.inr ⟨h1, ?_⟩
      have hden := hwf.shape_eq m
      have hsh : ((Arr.adapter o c []).den m).shape = c.data.shape := by
        obtain ⟨_, r, hr⟩ := hwf
        rw [den_adapter m o c [] _ hr]
        obtain ⟨fk0, σ, h1, h2, rfl⟩ := npIndex_ok_iff.mp hr
        have hfk0 := expandKeys_storable (by simp) h1
        simp only [List.nil_append, List.length_nil, Nat.sub_zero] at hfk0
        subst hfk0
        exact (resolve_full h2).1
      rw [hsh, ha h1] at hfk
      unfold adapterLoop at hl
      rw [cleanup_simple hfk hl]
      have : fk.filter Key.isTuple = [] := by
        rw [List.filter_eq_nil_iff]
        intro k hk
        obtain ⟨n, _, hn⟩ := forall₂_mem_left hfk hk
        rcases hn.basic rfl with ⟨_, rfl⟩ | ⟨_, rfl⟩ <;> simp [Key.isTuple]
      rw [this]; simp
  | .const s v dt, st, arr, cut, hwf, hp, ha, ht, ks, fk, b, hexp, hfk, hb => by
    unfold Arr.getitem at hb
    obtain ⟨s', _, hb⟩ := bind_ok.mp hb
    cases hb
    trivial
  | .newAxes a na, st, arr, cut, hwf, hp, ha, ht, ks, fk, b, hexp, hfk, hb => by
    obtain ⟨hg, _⟩ := simple_ok m false fwd _ arr cut hwf hp fk hfk
    obtain ⟨τ, hτ, _⟩ := simpleKeys_resolve hfk
    obtain ⟨hwa, s, hs, hl⟩ := hwf
    have hden := hwa.den_shape m hs
    match na, hl, hg with
    | c :: ns, hl, hg =>
      unfold Arr.getitem at hb
      rw [hs] at hb
      simp only [bind, Except.bind] at hb
      rw [← hden] at hb
      have hl' : ns.length = (a.den m).shape.length := by rw [hden]; simpa using hl
      have hfk' : List.Forall₂ (SimpleKey fwd arr) fk (naShape (c :: ns) s) := by rw [← hden]; exact hfk
      obtain ⟨x, na', hx, hbx⟩ := newAxesGetitem_form m (a := a) hl' hexp hτ hg.1 hb
      obtain ⟨h1, h2⟩ := simple_newAxes hp.1 fk c ns s false (by simpa using hl) hfk'
      rw [← hden] at h2
      have ih := simple_frugal m fwd a st arr cut hwa hp.2 ha ht _ _ x (expand_simple h2) h2 hx
      rcases hbx with rfl | ⟨d, l, rfl⟩
      · exact ih
      · have hnb := newAxesGetitem_flat m (a := a) hl' hexp hτ hg.1
          (simple_naDict hp.1 fk 0 c ns s (by simpa using hl) hfk') hb
        cases hnb
  | .bcast a d lead, st, arr, cut, hwf, hp, ha, ht, ks, fk, b, hexp, hfk, hb => ht.elim
  | .transposed a axes, st, arr, cut, hwf, hp, ha, ht, ks, fk, b, hexp, hfk, hb => by
    unfold Arr.getitem at hb
    rw [arrayGetitem_exact (hwf.shape_eq m) hexp (simpleKeys_exact hfk)] at hb
    obtain ⟨hwa, s, hs, hpm⟩ := hwf
    have hden := hwa.den_shape m hs
    have hfk' : List.Forall₂ (SimpleKey fwd arr) fk (axes.map (fun j => s.getD j 0)) := by rw [← hden]; exact hfk
    unfold transposedFull at hb
    obtain ⟨rem, hrem, hb⟩ := bind_ok.mp hb
    obtain ⟨x, hx, hb⟩ := bind_ok.mp hb
    have h2 := forall₂_transposed hpm hfk' hrem
    rw [← hden] at h2
    have ih := simple_frugal m fwd a st arr cut hwa hp ha ht _ _ x (expand_simple h2) h2 hx
    unfold mkTransposed at hb
    obtain ⟨_, _, hb⟩ := bind_ok.mp hb
    simp only at hb
    split at hb
    · cases hb
    · cases hb
      exact ih
  | .stack ss items, st, arr, cut, hwf, hp, ha, ht, ks, fk, b, hexp, hfk, hb => by
    obtain ⟨hg, _⟩ := simple_ok m false fwd _ arr cut hwf hp fk hfk
    unfold Arr.getitem at hb
    rw [arrayGetitem_exact (hwf.shape_eq m) hexp (simpleKeys_exact hfk)] at hb
    obtain ⟨h0, s, hi⟩ := hwf
    have hz := hi _ (inB_zeros ss h0)
    have hfk' : List.Forall₂ (SimpleKey fwd arr) fk (ss ++ s) := by
      have : ((Arr.stack ss items).den m).shape = ss ++ s := by
        unfold Arr.den NDA.stacked
        simp only
        rw [hz.1.den_shape m hz.2]
      rw [← this]; exact hfk
    obtain ⟨f1, f2⟩ := forall₂_take_drop hfk'
    obtain ⟨p1, p2, p3⟩ := hp
    obtain ⟨g1, g2, g3, g4⟩ := hg
    rw [dropNew_exact (simpleKeys_exact hfk)] at g1 g2
    obtain ⟨σ, hσ, _⟩ := simpleKeys_resolve f1
    have hitem : ∀ j x, InB ss j → (items j).getitem (fk.drop ss.length) = .ok x → x.frugal st := by
      intro j x hj hx
      have h2 := f2
      rw [← (hi j hj).1.den_shape m (hi j hj).2] at h2
      exact simple_frugal m fwd (items j) st arr cut (hi j hj).1 (p3 j hj) ha (ht j hj) _ _ x (expand_simple h2) h2 hx
    rcases stackFull_cases (simpleKeys_exact f1) hσ g1 g2 hb with ⟨hn, j, hj, hbj⟩ | ⟨hn, F, rfl, hF⟩
    · exact hitem j b hj hbj
    · intro i hin
      obtain ⟨j, hj, hFj⟩ := hF i hin
      exact hitem j _ hj hFj
  | .mosaic n tiles axis, st, arr, cut, hwf, hp, ha, htr, ks, fk, b, hexp, hfk, hb => by
    unfold Arr.getitem at hb
    rw [arrayGetitem_exact (hwf.shape_eq m) hexp (simpleKeys_exact hfk)] at hb
    obtain ⟨s, hax, ht, hsh⟩ := hwf.mosaic_shapes m
    obtain ⟨p1, p2, p3, p4⟩ := hp
    subst p1
    have he := simpleKeys_exact hfk
    obtain ⟨σ, hσ, _⟩ := simpleKeys_resolve hfk
    have hfk0 := hfk
    rw [hsh] at hfk
    have hlens : (List.range n).map (fun i => ((tiles i).den m).shape.getD axis 0) =
        (List.range n).map (fun i => (okOr (tiles i).shape []).getD axis 0) := by
      apply List.map_congr_left
      intro i hi
      rw [(ht i (by simpa using hi)).1.shape_eq m]; rfl
    have hts : ∀ t, t < n → ((tiles t).den m).shape =
        s.set axis (((List.range n).map (fun i => (okOr (tiles i).shape []).getD axis 0)).getD t 0) := by
      intro t htn
      exact (ht t htn).1.den_shape m (ht t htn).2
    set G : Nat → List Key → Prop := fun t ks => t < n ∧ List.Forall₂ (SimpleKey true true) ks ((tiles t).den m).shape with hG
    have hgc : mosaicKeysOk ((List.range n).map (fun i => (okOr (tiles i).shape []).getD axis 0)) axis G fk :=
      simple_mosaic hax p2 hfk (fun t htn ks hks => by
        have htn : t < n := by simpa using htn
        exact ⟨htn, by rw [hts t htn]; exact hks⟩)
    classical
    set P : Nat → List Key → Prop := fun t ks => t < n ∧ ∃ fk' σ', expandKeys ks ((tiles t).den m).shape.length = .ok fk' ∧
      Exact fk' ∧ G t fk' ∧ resolve fk' ((tiles t).den m).shape = .ok σ' with hP
    set inner' : Nat → List Key → Res (Arr α) := fun t ks => if P t ks then (tiles t).getitem ks else .error .type with hinner
    have hinv : ∀ t ks y, inner' t ks = .ok y → P t ks ∧ (tiles t).getitem ks = .ok y := by
      intro t ks y h
      simp only [hinner] at h
      split at h
      · rename_i hp; exact ⟨hp, h⟩
      · cases h
    obtain ⟨b'', e1, e2, e3, _⟩ := mosaicFull_ok m hwf he hσ G (by rw [hlens]; exact hgc) (inner := inner') (by
      intro t ks' fk' σ' htn hexp' he' hG' hσ'
      have hp : P t ks' := ⟨htn, fk', σ', hexp', he', hG', hσ'⟩
      have : inner' t ks' = (tiles t).getitem ks' := by simp only [hinner]; rw [if_pos hp]
      rw [this]
      exact getitem_ok m (tiles t) (ht t htn).1 ks' fk' _ hexp'
        (simple_ok m false true (tiles t) true _ (ht t htn).1 (p4 t htn) _ hG'.2).1 (npIndex_ok_iff.mpr ⟨_, σ', hexp', hσ', rfl⟩))
    have hmono := mosaicFull_mono (g := fun t ks => (tiles t).getitem ks) (fun t ks y h => (hinv t ks y h).2) e1
    rw [hb] at hmono
    injection hmono with hmono
    subst hmono
    have htile : ∀ t ks x, inner' t ks = .ok x → x.frugal true := by
      intro t ks x h
      obtain ⟨⟨htn, fk', σ', h1, h2, h3, h4⟩, h5⟩ := hinv t ks x h
      exact simple_frugal m true (tiles t) true true _ (ht t htn).1 (p4 t htn) (fun h => by cases h) (htr t htn) ks fk' x h1 h3.2 h5
    rcases mosaicFull_cases e1 with ⟨bs, rfl, hbs, hns⟩ | ⟨hsc, hlt, t, ks', hx⟩
    · intro i hi
      obtain ⟨t, ks', h⟩ := hbs _ (getD_mem bs i default hi)
      exact htile t ks' _ h
    · exact (htile t ks' b hx).mono b st
  | .asType a dt, st, arr, cut, hwf, hp, ha, ht, ks, fk, b, hexp, hfk, hb => by
    unfold Arr.getitem at hb
    obtain ⟨x, hx, hb⟩ := bind_ok.mp hb
    cases hb
    exact simple_frugal m fwd a st arr cut hwf hp ha ht ks fk x hexp hfk hx
  | .maskVal a v, st, arr, cut, hwf, hp, ha, ht, ks, fk, b, hexp, hfk, hb => by
    unfold Arr.getitem at hb
    obtain ⟨x, hx, hb⟩ := bind_ok.mp hb
    cases hb
    exact simple_frugal m fwd a st arr cut hwf hp ha ht ks fk x hexp hfk hx
  | .agg a axis k, st, arr, cut, hwf, hp, ha, ht, ks, fk, b, hexp, hfk, hb => by
    unfold Arr.getitem at hb
    rw [arrayGetitem_exact (hwf.shape_eq m) hexp (simpleKeys_exact hfk)] at hb
    obtain ⟨hwa, s, hs, hax⟩ := hwf
    have hden := hwa.den_shape m hs
    unfold aggFull at hb
    obtain ⟨x, hx, hb⟩ := bind_ok.mp hb
    cases hb
    have h2 : List.Forall₂ (SimpleKey fwd arr) (fk.take axis ++ [Key.full] ++ fk.drop axis) (a.den m).shape := by
      rw [hden]; exact forall₂_agg simple_full hax (by rw [← hden]; exact hfk)
    exact simple_frugal m fwd a true arr _ hwa hp.2 (fun h => by cases h) ht _ _ x (expand_simple h2) h2 hx
  | .elem1 a op, st, arr, cut, hwf, hp, ha, ht, ks, fk, b, hexp, hfk, hb => by
    unfold Arr.getitem at hb
    rw [arrayGetitem_exact ((show a.WF from hwf).shape_eq m) hexp (simpleKeys_exact hfk)] at hb
    obtain ⟨x, hx, hb⟩ := bind_ok.mp hb
    cases hb
    have h2 : List.Forall₂ (SimpleKey fwd arr) fk (a.den m).shape := hfk
    exact simple_frugal m fwd a true arr _ hwf hp (fun h => by cases h) ht _ _ x (expand_simple h2) h2 hx
  | .elem2 a b op, st, arr, cut, hwf, hp, ha, ht, ks, fk, b0, hexp, hfk, hb => by
    unfold Arr.getitem at hb
    have hx0 := simpleKeys_exact hfk
    have hwf0 := hwf
    obtain ⟨hwa, hwb, hab⟩ := hwf
    rw [arrayGetitem_exact (hwa.shape_eq m) hexp hx0] at hb
    obtain ⟨x, hx, hb⟩ := bind_ok.mp hb
    obtain ⟨y, hy, hb⟩ := bind_ok.mp hb
    have hsh : (a.den m).shape = (b.den m).shape := by
      rw [hwa.shape_eq m, hwb.shape_eq m] at hab; exact Except.ok.inj hab
    have h1 : List.Forall₂ (SimpleKey fwd arr) fk (a.den m).shape := hfk
    have h2 : List.Forall₂ (SimpleKey fwd arr) fk (b.den m).shape := by rw [← hsh]; exact h1
    obtain ⟨hg, _⟩ := simple_ok m false fwd _ arr cut hwf0 hp fk hfk
    obtain ⟨σ, hσa, _⟩ := simpleKeys_resolve h1
    have hσb : resolve fk (b.den m).shape = .ok σ := by rw [← hsh]; exact hσa
    unfold Arr.keysOk at hg
    rw [dropNew_exact hx0] at hg
    obtain ⟨hwx, hdx⟩ := getitem_sim m hwa (expand_simple h1) hσa hg.1 hx
    obtain ⟨hwy, hdy⟩ := getitem_sim m hwb (expand_simple h2) hσb hg.2 hy
    rw [mkElem2_same (s := selShape σ) (by rw [hwx.shape_eq m, hdx.1]; rfl) (by rw [hwy.shape_eq m, hdy.1]; rfl)] at hb
    cases hb
    exact ⟨simple_frugal m fwd a true arr _ hwa hp.2.1 (fun h => by cases h) ht.1 _ _ x (expand_simple h1) h1 hx,
      simple_frugal m fwd b true arr _ hwb hp.2.2 (fun h => by cases h) ht.2 _ _ y (expand_simple h2) h2 hy⟩

end Biggus

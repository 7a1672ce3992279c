import Verif.Proofs.GetitemKept
import Verif.Proofs.Adapters
/-
Simple keys (`SimpleKey`) are supported by every plain expression (`Arr.Plain`) and leave it evaluable.
-/
namespace Biggus

variable {α V : Type} {rep fwd arr : Bool}

theorem SimpleKeyR.exact {k : Key} {n : Nat} (h : SimpleKeyR rep fwd arr k n) : k.isNewaxis = false ∧ k.isEllipsis = false := by
  rcases h with ⟨i, rfl, _⟩ | ⟨s, r, rfl, _⟩ | ⟨_, l, rfl | rfl, _⟩ <;> exact ⟨rfl, rfl⟩

theorem SimpleKeyR.not_list {n : Nat} {l : List Int} : ¬ SimpleKeyR rep fwd arr (.list l) n := by
  rintro (⟨i, h, _⟩ | ⟨s, r, h, _⟩ | ⟨_, l, h | h, _⟩) <;> cases h

theorem SimpleKeyR.not_barr {n : Nat} {l : List Bool} : ¬ SimpleKeyR rep fwd arr (.barr l) n := by
  rintro (⟨i, h, _⟩ | ⟨s, r, h, _⟩ | ⟨_, l, h | h, _⟩) <;> cases h

theorem SimpleKeyR.distinct {k : Key} {n : Nat} (h : SimpleKeyR false fwd arr k n) : k.distinct := by
  rcases h with ⟨i, rfl, _⟩ | ⟨s, r, rfl, _⟩ | ⟨_, l, rfl | rfl, _, h1, h2⟩
  · trivial
  · trivial
  · exact ⟨h1 rfl, fun i hi => (h2 i hi).2 (Or.inl rfl)⟩
  · exact ⟨h1 rfl, fun i hi => (h2 i hi).2 (Or.inl rfl)⟩

theorem SimpleKeyR.basic {k : Key} {n : Nat} (h : SimpleKeyR rep fwd arr k n) (ha : arr = false) :
    (∃ i, k = .int i) ∨ ∃ s, k = .slice s := by
  rcases h with ⟨i, rfl, _⟩ | ⟨s, r, rfl, _⟩ | ⟨h, _⟩
  · exact Or.inl ⟨i, rfl⟩
  · exact Or.inr ⟨s, rfl⟩
  · rw [ha] at h; cases h

theorem simple_full (n : Nat) : SimpleKeyR rep fwd arr Key.full n := by
  have h := resolve1_full n
  obtain ⟨r, hr, hp⟩ := resolve1_slice h
  injection hp with hp
  refine Or.inr (Or.inl ⟨PySlice.full, r, rfl, fun _ => rfl, hr, ?_⟩)
  intro hn e
  subst e
  apply hn
  have := congrArg List.length hp
  simpa using this

theorem SimpleKeyR.resolve {k : Key} {n : Nat} (h : SimpleKeyR rep fwd arr k n) :
    (∃ i, k.isScalar = true ∧ resolve1 k n = .ok (.at i)) ∨
    (∃ l, k.isScalar = false ∧ resolve1 k n = .ok (.pick l) ∧ (n ≠ 0 → l ≠ [])) := by
  rcases h with ⟨i, rfl, h, _⟩ | ⟨s, r, rfl, _, hr, hne⟩ | ⟨_, l, hk, hne, hnd, hb⟩
  · left; exact ⟨_, rfl, by simp [resolve1, h]; rfl⟩
  · right
    refine ⟨r.map Int.toNat, rfl, by simp [resolve1, hr, bind, Except.bind, pure, Except.pure], ?_⟩
    intro hn; simpa using hne hn
  · right
    have hin : l.all (inRange · n) = true := by
      rw [List.all_eq_true]
      exact fun i hi => (hb i hi).1
    refine ⟨l.map (normIdx · n), by rcases hk with rfl | rfl <;> rfl, ?_, fun hn => by simpa using hne hn⟩
    rcases hk with rfl | rfl
    · simp only [resolve1]
      rw [if_pos hin]
    · simp only [resolve1]
      rw [if_pos hin]

theorem simpleKeys_exact {ks : List Key} {s : List Nat} (h : List.Forall₂ (SimpleKeyR rep fwd arr) ks s) : Exact ks := by
  intro k hk
  obtain ⟨n, _, hn⟩ := forall₂_mem_left h hk
  exact hn.exact

theorem simpleKeys_resolve {ks : List Key} {shape : List Nat} (h : List.Forall₂ (SimpleKeyR rep fwd arr) ks shape) :
    ∃ σ, resolve ks shape = .ok σ ∧ (shape.prod ≠ 0 → (selShape σ).prod ≠ 0) ∧
      ((∀ n ∈ shape, 1 ≤ n) → ∀ n ∈ selShape σ, 1 ≤ n) := by
  induction h with
  | nil => exact ⟨[], rfl, by simp [selShape], by simp [selShape]⟩
  | @cons k n ks ns hr _ ih =>
    obtain ⟨σ, h1, h2, h3⟩ := ih
    rcases hr.resolve with ⟨i, _, hi⟩ | ⟨l, _, hl, hne⟩
    · refine ⟨.at i :: σ, (resolve_cons_iff hr.exact.1).mpr ⟨n, ns, _, σ, rfl, rfl, hi, h1⟩, ?_, ?_⟩
      · intro h
        rw [List.prod_cons] at h
        exact h2 (Nat.mul_ne_zero_iff.mp h).2
      · intro h
        exact h3 (fun x hx => h x (List.mem_cons_of_mem _ hx))
    · refine ⟨.pick l :: σ, (resolve_cons_iff hr.exact.1).mpr ⟨n, ns, _, σ, rfl, rfl, hl, h1⟩, ?_, ?_⟩
      · intro h
        rw [List.prod_cons] at h
        rw [selShape, List.prod_cons]
        refine Nat.mul_ne_zero ?_ (h2 (Nat.mul_ne_zero_iff.mp h).2)
        intro e
        exact hne (Nat.mul_ne_zero_iff.mp h).1 (List.length_eq_zero_iff.mp e)
      · intro h x hx
        rw [selShape] at hx
        rcases List.mem_cons.mp hx with rfl | hx
        · have := hne (by have := h n List.mem_cons_self; omega)
          exact List.length_pos_iff.mpr this
        · exact h3 (fun x hx => h x (List.mem_cons_of_mem _ hx)) x hx

/-! ### new axes -/

theorem simple_new_axis {k : Key} (h : SimpleKeyR rep fwd arr k 1) (ha : arr = false) :
    ((∃ i, k = .int i) ∨ ∃ s : PySlice, k = .slice s) ∧ stretchesNew k = false := by
  rcases h with ⟨i, rfl, _⟩ | ⟨s, r, rfl, _, hr, hne⟩ | ⟨h, _⟩
  · exact ⟨Or.inl ⟨_, rfl⟩, rfl⟩
  · refine ⟨Or.inr ⟨_, rfl⟩, ?_⟩
    unfold stretchesNew
    simp only [hr]
    have h1 := range_nodup hr
    have h2 := range_mem hr
    have h3 : (r.map Int.toNat).length ≤ 1 := nodup_bounded_length (map_toNat_nodup h1 (fun i hi => (h2 i hi).1)) (by
      intro i hi
      obtain ⟨j, hj, rfl⟩ := List.mem_map.mp hi
      have := h2 j hj
      omega)
    have h4 := List.length_pos_iff.mpr (hne (by omega))
    simp at h3 ⊢
    omega
  · rw [ha] at h; cases h

theorem simple_newAxes (ha : arr = false) : ∀ (fk : List Key) (c : Nat) (ns s : List Nat) (seen : Bool),
    ns.length = s.length → List.Forall₂ (SimpleKeyR rep fwd arr) fk (naShape (c :: ns) s) →
    naKeysOk seen c ns fk ∧ List.Forall₂ (SimpleKeyR rep fwd arr) (containedKeys c ns fk) s := by
  intro fk
  induction fk with
  | nil =>
    intro c ns s seen hl h
    have h0 := h.length_eq
    have hlen := naShape_length (na := c :: ns) (s := s) (by simp [hl])
    rw [hlen] at h0
    have : s = [] := by
      have : s.length = 0 := by simp at h0; omega
      exact List.length_eq_zero_iff.mp this
    subst this
    refine ⟨by unfold naKeysOk; trivial, ?_⟩
    unfold containedKeys
    exact List.Forall₂.nil
  | cons k fk ih =>
    intro c ns s seen hl h
    cases c with
    | succ c =>
      rw [naShape_succ] at h
      obtain ⟨h1, h2⟩ := List.forall₂_cons.mp h
      obtain ⟨hk, hst⟩ := simple_new_axis h1 ha
      obtain ⟨i1, i2⟩ := ih c ns s (seen || k.isScalar) hl h2
      have hnn := h1.exact.1
      constructor
      · rcases hk with ⟨i, rfl⟩ | ⟨sl, rfl⟩ <;> unfold naKeysOk
        · exact ⟨Or.inl ⟨_, rfl⟩, by rw [hst]; (intro e; cases e), i1⟩
        · exact ⟨Or.inr (Or.inl ⟨_, rfl⟩), by rw [hst]; (intro e; cases e), i1⟩
      · rcases hk with ⟨i, rfl⟩ | ⟨sl, rfl⟩ <;> exact i2
    | zero =>
      match ns, s, hl with
      | [], [], _ =>
        rw [show naShape [0] [] = [] from rfl] at h
        cases h
      | n :: ns, x :: s, hl =>
        rw [naShape_zero] at h
        obtain ⟨h1, h2⟩ := List.forall₂_cons.mp h
        obtain ⟨i1, i2⟩ := ih n ns s (seen || k.isScalar) (by simpa using hl) h2
        rcases h1.basic ha with ⟨i, rfl⟩ | ⟨sl, rfl⟩
        · constructor
          · unfold naKeysOk; exact i1
          · exact List.Forall₂.cons h1 i2
        · constructor
          · unfold naKeysOk; exact i1
          · exact List.Forall₂.cons h1 i2

/-! ### broadcasts -/

theorem simple_bcast (ha : arr = false) (d : List (Nat × Nat)) : ∀ (fk : List Key) (ax : Nat) (s : List Nat),
    (∀ q ∈ d, ax ≤ q.1 → s[q.1 - ax]? = some 1) →
    List.Forall₂ (SimpleKeyR rep fwd arr) fk (bcShape d ax s) →
    bcastKeysOk d ax fk ∧ List.Forall₂ (SimpleKeyR rep fwd arr) (bcastInner d ax fk) s := by
  intro fk
  induction fk with
  | nil =>
    intro ax s hd h
    have : s = [] := by
      have := h.length_eq
      rw [bcShape_length] at this
      exact List.length_eq_zero_iff.mp this.symm
    subst this
    exact ⟨trivial, List.Forall₂.nil⟩
  | cons k fk ih =>
    intro ax s hd h
    match s with
    | [] => cases h
    | n :: s =>
      unfold bcShape at h
      obtain ⟨h1, h2⟩ := List.forall₂_cons.mp h
      obtain ⟨i1, i2⟩ := ih (ax + 1) s (by
        intro q hq hle
        have := hd q hq (by omega)
        rw [show q.1 - ax = q.1 - (ax + 1) + 1 by omega] at this
        simpa using this) h2
      unfold bcastKeysOk bcastInner
      by_cases hm : d.any (fun p => p.1 == ax) = true
      · simp only [hm, if_true]
        have hn1 : n = 1 := by
          obtain ⟨q, hq, he⟩ := List.any_eq_true.mp hm
          have he : q.1 = ax := by simpa using he
          have := hd q hq (by omega)
          rw [he] at this
          simpa using this
        subst hn1
        rcases h1.basic ha with ⟨i, rfl⟩ | ⟨sl, rfl⟩
        · exact ⟨⟨Or.inl ⟨_, rfl⟩, i1⟩, List.Forall₂.cons (Or.inl ⟨0, rfl, rfl, fun _ => le_refl _⟩) i2⟩
        · exact ⟨⟨Or.inr ⟨_, rfl⟩, i1⟩, List.Forall₂.cons (simple_full _) i2⟩
      · have hm' : d.lookup ax = none := by
          rw [← Option.not_isSome_iff_eq_none, lookup_isSome_iff]; exact hm
        simp only [hm', Option.getD_none] at h1
        simp only [hm]
        refine ⟨⟨⟨?_, ?_⟩, i1⟩, List.Forall₂.cons h1 i2⟩
        · intro l e; subst e
          rcases h1.basic ha with ⟨i, h⟩ | ⟨sl, h⟩ <;> cases h
        · intro l e; subst e
          exact absurd h1 SimpleKeyR.not_barr

/-! ### transposition -/

theorem forall₂_transposed {R : Key → Nat → Prop} {axes s : List Nat} {fk rem : List Key} (hp : axes.Perm (List.range s.length))
    (h : List.Forall₂ R fk (axes.map (fun j => s.getD j 0))) (hr : axesInverse axes fk = .ok rem) :
    List.Forall₂ R rem s := by
  have hal := axes_length hp
  have hfl : fk.length = s.length := by rw [h.length_eq, List.length_map, hal]
  rw [axesInverse_ok axes fk Key.full (by rw [hfl]; exact hp)] at hr
  injection hr with hr
  subst hr
  rw [List.forall₂_iff_get]
  refine ⟨by simp [hfl], ?_⟩
  intro i hi hi'
  simp only [List.get_eq_getElem, List.getElem_map, List.getElem_range]
  have hi2 : i < s.length := hi'
  have h1 := order_idxOf_lt hp i hi2
  have h2 := order_getD_idxOf hp i hi2
  have h3 := forall₂_getD h (axes.idxOf i) (by rw [hfl]; exact h1) Key.full 0
  rw [getD_map' axes (fun j => s.getD j 0) _ 0 0 (by rw [hal]; exact h1), h2] at h3
  rwa [List.getD_eq_getElem?_getD (l := s), List.getElem?_eq_getElem hi2] at h3

/-! ### stacks -/

theorem simple_fancySafe {ks : List Key} {s : List Nat} (h : List.Forall₂ (SimpleKeyR rep fwd arr) ks s)
    (hc : arr = true → ks.length ≤ 1) : fancySafe ks := by
  by_cases ha : arr = true
  · have := hc ha
    match ks, this with
    | [], _ => left; rfl
    | [k], _ =>
      by_cases hk : k.isArr = true
      · right
        refine ⟨by simp [hk], ?_⟩
        have : k.isAdv = true := by cases k <;> simp_all [Key.isArr, Key.isAdv]
        simp [contiguousAdv, this]
      · left; simpa using hk
  · left
    rw [List.any_eq_false]
    intro k hk
    obtain ⟨n, _, hn⟩ := forall₂_mem_left h hk
    rcases hn.basic (by simpa using ha) with ⟨i, rfl⟩ | ⟨sl, rfl⟩ <;> simp [Key.isArr]

/-! ### mosaics -/

theorem tileKey_simple {off n : Nat} {g : List Int} (h : ∀ i ∈ g, (off : Int) ≤ i ∧ i - off < n) (hne : g ≠ [])
    (hs : rep = false → g.Nodup) : SimpleKeyR rep true true (tileKey off g) n := by
  have hr := tileKey_resolve off n g h
  match g, hne with
  | [i], _ =>
    obtain ⟨r, hr', hp⟩ := resolve1_slice hr
    refine Or.inr (Or.inl ⟨_, r, rfl, fun _ => rfl, hr', ?_⟩)
    intro _ e
    subst e
    simp at hp
  | i :: j :: g, _ =>
    refine Or.inr (Or.inr ⟨rfl, (i :: j :: g).map (fun x => x - off), Or.inl rfl, fun _ => by simp, ?_, ?_⟩)
    · exact fun hr => (hs hr).map (fun a b hab => by simpa using hab)
    · intro x hx
      obtain ⟨y, hy, rfl⟩ := List.mem_map.mp hx
      have := h y hy
      refine ⟨?_, fun _ => by omega⟩
      simp [inRange]; omega

/-- What the positions picked on the axis of a mosaic look like. -/
theorem simple_axis {k : Key} {n : Nat} (h : SimpleKeyR rep true arr k n) (hn : n ≠ 0) :
    (∃ i : Int, k = .int i ∧ 0 ≤ i ∧ i < n) ∨ ∃ is : List Int, is ≠ [] ∧ (∀ i ∈ is, 0 ≤ i ∧ i < n) ∧ (rep = false → is.Nodup) ∧
      ((∃ s : PySlice, k = .slice s ∧ s.range n = .ok is ∧ s.negStep = false) ∨ (k = .iarr is ∨ k = .tuple is)) := by
  rcases h with ⟨i, rfl, h, h0⟩ | ⟨s, r, rfl, hneg, hr, hne⟩ | ⟨_, l, hk, hne, hnd, hb⟩
  · left
    simp [inRange] at h
    exact ⟨i, rfl, h0 rfl, h.2⟩
  · exact Or.inr ⟨r, hne hn, range_mem hr, fun _ => range_nodup hr, Or.inl ⟨s, rfl, hr, hneg rfl⟩⟩
  · refine Or.inr ⟨l, hne hn, fun i hi => ?_, hnd, Or.inr hk⟩
    obtain ⟨h1, h2⟩ := hb i hi
    simp [inRange] at h1
    exact ⟨h2 (Or.inr rfl), h1.2⟩

/-- The groups of a list of distinct positions. -/
theorem simple_groups {lens : List Nat} {is : List Int} (hb : ∀ i ∈ is, 0 ≤ i ∧ i < (lens.sum : Nat)) (hs : rep = false → is.Nodup) :
    ∀ g ∈ groupTiles lens is, g.1 < lens.length ∧
      SimpleKeyR rep true true (tileKey ((tileOffsets lens).getD g.1 0) g.2) (lens.getD g.1 0) := by
  obtain ⟨h1, h2⟩ := groupTiles_ok lens is
  intro g hg
  obtain ⟨hne, ht⟩ := h2 g hg
  have hmem : ∀ i ∈ g.2, i ∈ is := by
    intro i hi
    rw [← h1]
    exact List.mem_flatten.mpr ⟨g.2, List.mem_map_of_mem hg, hi⟩
  have hsub : g.2.Sublist is := by
    rw [← h1]
    exact List.sublist_flatten_of_mem (List.mem_map_of_mem hg)
  obtain ⟨i0, hi0⟩ := List.exists_mem_of_ne_nil _ hne
  have hi0' := hb i0 (hmem i0 hi0)
  obtain ⟨n, hn1, hn2, hn3, hn4, hn5⟩ := tileIndex_ok lens i0 hi0'.1 hi0'.2
  rw [ht i0 hi0] at hn1 hn2 hn3
  refine ⟨hn1, ?_⟩
  rw [hn3, getD_getElem? 0 hn2]
  refine tileKey_simple ?_ hne (fun hr => (hs hr).sublist hsub)
  intro i hi
  have hi' := hb i (hmem i hi)
  obtain ⟨n', k1, k2, k3, k4, k5⟩ := tileIndex_ok lens i hi'.1 hi'.2
  rw [ht i hi] at k1 k2 k3 k4 k5
  rw [hn2] at k2
  injection k2 with k2
  subst k2
  exact ⟨k4, k5⟩

theorem SimpleKeyR.mono {k : Key} {n : Nat} (h : SimpleKeyR rep fwd arr k n) : SimpleKeyR rep fwd true k n := by
  rcases h with h | h | ⟨_, h⟩
  · exact Or.inl h
  · exact Or.inr (Or.inl h)
  · exact Or.inr (Or.inr ⟨rfl, h⟩)

theorem simple_mosaic {lens : List Nat} {axis : Nat} {s : List Nat} {fk : List Key} {G : Nat → List Key → Prop}
    (hax : axis < s.length) (hpos : 0 < lens.sum) (hfk : List.Forall₂ (SimpleKeyR rep true arr) fk (s.set axis lens.sum))
    (hG : ∀ t, t < lens.length → ∀ ks, List.Forall₂ (SimpleKeyR rep true true) ks (s.set axis (lens.getD t 0)) → G t ks) :
    mosaicKeysOk lens axis G fk := by
  have hfl : fk.length = s.length := by rw [hfk.length_eq, List.length_set]
  have htile : ∀ t, t < lens.length → ∀ k, SimpleKeyR rep true true k (lens.getD t 0) → G t (fk.set axis k) := by
    intro t htn k hk
    refine hG t htn _ ?_
    have := forall₂_set (hfk.imp (fun _ _ h => h.mono)) axis hk
    rwa [List.set_set] at this
  unfold mosaicKeysOk
  simp only
  split
  · rename_i htrim
    intro t htn
    have := htile t htn Key.full (simple_full _)
    rwa [← trim_full htrim (by omega), set_getD_self] at this
  · have hk := forall₂_getD hfk axis (by rw [hfl]; exact hax) Key.full 0
    rw [getD_set_self _ _ _ _ hax] at hk
    rcases simple_axis hk (by omega) with ⟨i, hi, h0, h1⟩ | ⟨is, hne, hb, hnd, hform⟩
    · rw [hi]
      obtain ⟨n, k1, k2, k3, k4, k5⟩ := tileIndex_ok lens i h0 h1
      refine ⟨h0, htile _ k1 _ (Or.inl ⟨_, rfl, ?_, fun _ => ?_⟩)⟩
      · rw [k3, getD_getElem? 0 k2]
        simp [inRange]; omega
      · rw [k3]; omega
    · have hg := simple_groups hb hnd
      rcases hform with ⟨sl, hsl, hr, hneg⟩ | hia
      · rw [hsl]
        simp only
        intro r hr'
        rw [hr] at hr'
        injection hr' with hr'
        subst hr'
        refine ⟨⟨hne, fun i hi => (hb i hi).1, ?_⟩, ?_⟩
        · intro g hgm
          obtain ⟨g1, g2⟩ := hg g hgm
          exact htile g.1 g1 _ g2
        · rw [hneg]; intro e; cases e
      · have hmany : is ≠ [] ∧ (∀ i ∈ is, 0 ≤ i) ∧ ∀ g ∈ groupTiles lens is, G g.1 (fk.set axis (tileKey ((tileOffsets lens).getD g.1 0) g.2)) := by
          refine ⟨hne, fun i hi => (hb i hi).1, ?_⟩
          intro g hgm
          obtain ⟨g1, g2⟩ := hg g hgm
          exact htile g.1 g1 _ g2
        rcases hia with hia | hia <;> rw [hia] <;> exact hmany

theorem forall₂_agg {R : Key → Nat → Prop} {axis : Nat} {s : List Nat} {fk : List Key} (hR : ∀ n, R Key.full n) (hax : axis < s.length)
    (h : List.Forall₂ R fk (s.eraseIdx axis)) : List.Forall₂ R (fk.take axis ++ [Key.full] ++ fk.drop axis) s := by
  have hs : s = s.take axis ++ s[axis] :: s.drop (axis + 1) := by
    rw [← List.drop_eq_getElem_cons hax, List.take_append_drop]
  have hl : (s.take axis).length = axis := by simp; omega
  have he : s.eraseIdx axis = s.take axis ++ s.drop (axis + 1) := by
    conv_lhs => rw [hs]
    exact eraseIdx_middle _ _ _ _ hl
  rw [he] at h
  obtain ⟨h1, h2⟩ := forall₂_take_drop h
  rw [hl] at h1 h2
  conv => rhs; rw [hs]
  rw [List.append_assoc]
  exact List.rel_append h1 (List.Forall₂.cons (hR _) h2)

/-! ### adapters -/

theorem cleanup_noBarr : ∀ {new : List Key} {sh : List Nat} {ks' : List Key},
    (new.zip sh).mapM (fun p => cleanupKey p.1 p.2) = .ok ks' → (∀ l, Key.barr l ∉ new) → ∀ l, Key.barr l ∉ ks'
  | [], sh, ks', h, _ => by cases h; simp
  | k :: new, [], ks', h, _ => by cases h; simp
  | k :: new, n :: sh, ks', h, hn => by
    rw [List.zip_cons_cons, List.mapM_cons] at h
    obtain ⟨y, hy, h⟩ := bind_ok.mp h
    obtain ⟨ys, hys, h⟩ := bind_ok.mp h
    cases h
    have ih := cleanup_noBarr hys (fun l hl => hn l (List.mem_cons_of_mem _ hl))
    intro l hl
    rcases List.mem_cons.mp hl with e | hl
    · subst e
      cases k <;> simp only [cleanupKey] at hy
      all_goals first | (split at hy <;> cases hy; done) | (cases hy; done) | skip
      split at hy
      · cases hy
      · cases hy; exact hn l List.mem_cons_self
    · exact ih l hl

theorem adapterLoop_noBarr : ∀ (stored : List Key) (sh : List Nat) (new ks' : List Key), (∀ l, Key.barr l ∉ stored) →
    (∀ l, Key.barr l ∉ new) → adapterLoop stored sh new = .ok ks' → ∀ l, Key.barr l ∉ ks'
  | [], sh, new, ks', _, hn, h => by
    unfold adapterLoop at h
    exact cleanup_noBarr h hn
  | k :: stored, sh, [], ks', hst, _, h => by
    unfold adapterLoop at h
    cases h
    exact hst
  | k :: stored, sh, nk :: new, ks', hst, hn, h => by
    have hst' : ∀ l, Key.barr l ∉ stored := fun l hl => hst l (List.mem_cons_of_mem _ hl)
    have hn' : ∀ l, Key.barr l ∉ new := fun l hl => hn l (List.mem_cons_of_mem _ hl)
    have cons : ∀ {x : Key} {r : List Key}, ((∃ i, x = .int i) ∨ ∃ l, x = .tuple l) → (∀ l, Key.barr l ∉ r) →
        ∀ l, Key.barr l ∉ x :: r := by
      intro x r hx hr l hl
      rcases List.mem_cons.mp hl with e | hl
      · subst e
        rcases hx with ⟨_, e⟩ | ⟨_, e⟩ <;> cases e
      · exact hr l hl
    cases k with
    | int i =>
      rw [adapterLoop] at h
      · obtain ⟨r, hr, h⟩ := bind_ok.mp h
        cases h
        exact cons (Or.inl ⟨_, rfl⟩) (adapterLoop_noBarr stored sh.tail (nk :: new) r hst' hn hr)
      · simp
    | slice sl =>
      rw [adapterLoop] at h
      obtain ⟨ind, _, h⟩ := bind_ok.mp h
      obtain ⟨k', hk', h⟩ := bind_ok.mp h
      obtain ⟨r, hr, h⟩ := bind_ok.mp h
      cases h
      exact cons (remapKey_form hk') (adapterLoop_noBarr stored sh.tail new r hst' hn' hr)
    | tuple l =>
      rw [adapterLoop] at h
      obtain ⟨k', hk', h⟩ := bind_ok.mp h
      obtain ⟨r, hr, h⟩ := bind_ok.mp h
      cases h
      exact cons (remapKey_form hk') (adapterLoop_noBarr stored sh.tail new r hst' hn' hr)
    | list l =>
      rw [adapterLoop] at h
      obtain ⟨k', hk', h⟩ := bind_ok.mp h
      obtain ⟨r, hr, h⟩ := bind_ok.mp h
      cases h
      exact cons (remapKey_form hk') (adapterLoop_noBarr stored sh.tail new r hst' hn' hr)
    | iarr l =>
      rw [adapterLoop] at h
      obtain ⟨k', hk', h⟩ := bind_ok.mp h
      obtain ⟨r, hr, h⟩ := bind_ok.mp h
      cases h
      exact cons (remapKey_form hk') (adapterLoop_noBarr stored sh.tail new r hst' hn' hr)
    | barr l => exact absurd List.mem_cons_self (hst l)
    | newaxis => rw [adapterLoop] at h <;> first | cases h | simp
    | ellipsis => rw [adapterLoop] at h <;> first | cases h | simp
    | bad => rw [adapterLoop] at h <;> first | cases h | simp

/-- Keys of a fresh adapter after simple indexing. -/
theorem cleanup_simple {new : List Key} {sh : List Nat} {ks' : List Key} (hs : List.Forall₂ (SimpleKeyR rep fwd false) new sh)
    (h : (new.zip sh).mapM (fun p => cleanupKey p.1 p.2) = .ok ks') : ks' = new := by
  induction hs generalizing ks' with
  | nil => cases h; rfl
  | @cons k n new sh hk _ ih =>
    rw [List.zip_cons_cons, List.mapM_cons] at h
    obtain ⟨y, hy, h⟩ := bind_ok.mp h
    obtain ⟨ys, hys, h⟩ := bind_ok.mp h
    cases h
    rw [ih hys]
    rcases hk.basic rfl with ⟨i, rfl⟩ | ⟨s, rfl⟩
    · simp only [cleanupKey] at hy
      split at hy <;> cases hy
      rfl
    · cases hy; rfl

theorem basic_takeSafe {ks : List Key} (h : ∀ k ∈ ks, (∃ i, k = .int i) ∨ ∃ s, k = .slice s) : takeSafe ks := by
  unfold takeSafe
  have h1 : ks.filter Key.isTuple = [] := by
    rw [List.filter_eq_nil_iff]
    intro k hk
    rcases h k hk with ⟨_, rfl⟩ | ⟨_, rfl⟩ <;> simp [Key.isTuple]
  rw [h1]
  simp only [List.length_nil]
  rw [if_neg (by omega)]
  left
  rw [List.any_eq_false]
  intro k hk
  rcases h k hk with ⟨_, rfl⟩ | ⟨_, rfl⟩ <;> simp [Key.isArr]

/-! ### every plain expression supports simple keys -/

theorem simple_ok [Inhabited V] (m : Mode α V) (nm : Bool) (fwd : Bool) : ∀ (a : Arr α) (arr : Bool) (cut : Cut), a.WF →
    a.PlainR rep m fwd arr cut → ∀ fk : List Key, List.Forall₂ (SimpleKeyR rep fwd arr) fk (a.den m).shape →
    a.keysOk fk ∧ a.clean m nm cut fk
  | .adapter o c stored, arr, cut, hwf, hp, fk, hfk => by
    have hx := dropNew_exact (simpleKeys_exact hfk)
    obtain ⟨p0, p1, p2⟩ := hp
    refine ⟨fun k hk l e => p1 l (e ▸ hk), ?_⟩
    have hnb : ∀ l, Key.barr l ∉ fk := by
      intro l hl
      obtain ⟨n, _, hn⟩ := forall₂_mem_left hfk hl
      exact hn.not_barr
    unfold Arr.clean
    rw [hx]
    intro ks' hks
    refine ⟨fun _ => adapterLoop_noBarr stored _ fk ks' p1 hnb hks, fun ho => ?_, Or.inr p0⟩
    obtain ⟨hst, r, hr⟩ := hwf
    have hden := den_adapter m o c stored r hr
    rw [hden] at hfk
    obtain ⟨fk0, σ, h1, h2, rfl⟩ := npIndex_ok_iff.mp hr
    rcases p2 with h | h | ⟨rfl, rfl⟩
    · rw [ho] at h; cases h
    · have hfk0 := expandKeys_storable hst h1
      rw [h, Nat.sub_self, List.replicate_zero, List.append_nil] at hfk0
      subst hfk0
      exact (adapterLoop_intTuple fk0 _ fk ks' σ (fun k hk => ⟨hst k hk, fun l e => p1 l (e ▸ hk)⟩) h2 hfk.length_eq hks).takeSafe
    · have hfk0 := expandKeys_storable hst h1
      simp only [List.nil_append, List.length_nil, Nat.sub_zero] at hfk0
      subst hfk0
      have hsh : selShape σ = c.data.shape := (resolve_full h2).1
      have hfk : List.Forall₂ (SimpleKeyR rep fwd false) fk (selShape σ) := hfk
      rw [hsh] at hfk
      unfold adapterLoop at hks
      rw [cleanup_simple hfk hks]
      refine basic_takeSafe ?_
      intro k hk
      obtain ⟨n, _, hn⟩ := forall₂_mem_left hfk hk
      exact hn.basic rfl
  | .const s v dt, arr, cut, hwf, hp, fk, hfk => by
    refine ⟨?_, trivial⟩
    intro l hl
    obtain ⟨n, _, hn⟩ := forall₂_mem_left hfk hl
    exact hn.not_list
  | .newAxes a na, arr, cut, hwf, hp, fk, hfk => by
    obtain ⟨hwa, s, hs, hl⟩ := hwf
    have hden := hwa.den_shape m hs
    match na, hl with
    | c :: ns, hl =>
      have hfk' : List.Forall₂ (SimpleKeyR rep fwd arr) fk (naShape (c :: ns) s) := by rw [← hden]; exact hfk
      obtain ⟨h1, h2⟩ := simple_newAxes hp.1 fk c ns s false (by simpa using hl) hfk'
      obtain ⟨i1, i2⟩ := simple_ok m nm fwd a arr cut hwa hp.2 _ (by rw [hden]; exact h2)
      exact ⟨⟨h1, i1⟩, i2⟩
  | .bcast a d lead, arr, cut, hwf, hp, fk, hfk => by
    have hx := dropNew_exact (simpleKeys_exact hfk)
    obtain ⟨hwa, _, _, hn, hlead, s, hs, h1⟩ := hwf
    have hden := hwa.den_shape m hs
    have hfk' : List.Forall₂ (SimpleKeyR rep fwd arr) fk (lead ++ bcShape d 0 s) := by rw [← hden]; exact hfk
    obtain ⟨f1, f2⟩ := forall₂_take_drop hfk'
    obtain ⟨b1, b2⟩ := simple_bcast hp.1 d (fk.drop lead.length) 0 s (by intro q hq _; simpa using h1 q hq) f2
    obtain ⟨i1, i2⟩ := simple_ok m nm fwd a arr cut hwa hp.2 _ (by rw [hden]; exact b2)
    unfold Arr.keysOk Arr.clean
    rw [hx]
    refine ⟨⟨?_, ?_, b1, i1⟩, i2⟩
    · intro l hl
      obtain ⟨n, _, hn⟩ := forall₂_mem_left f1 hl
      exact hn.not_list
    · intro σ hσ l hl
      obtain ⟨σ', h1', _, h3'⟩ := simpleKeys_resolve f1
      rw [hσ] at h1'
      injection h1' with h1'
      subst h1'
      exact h3' hlead l hl
  | .transposed a axes, arr, cut, hwf, hp, fk, hfk => by
    have hx := dropNew_exact (simpleKeys_exact hfk)
    obtain ⟨hwa, s, hs, hpm⟩ := hwf
    have hden := hwa.den_shape m hs
    unfold Arr.keysOk Arr.clean
    rw [hx]
    have hfk' : List.Forall₂ (SimpleKeyR rep fwd arr) fk (axes.map (fun j => s.getD j 0)) := by rw [← hden]; exact hfk
    have ih : ∀ rem, axesInverse axes fk = .ok rem → a.keysOk rem ∧ a.clean m nm cut rem := fun rem hrem =>
      simple_ok m nm fwd a arr cut hwa hp rem (by rw [hden]; exact forall₂_transposed hpm hfk' hrem)
    exact ⟨fun rem h => (ih rem h).1, fun rem h => (ih rem h).2⟩
  | .stack ss items, arr, cut, hwf, hp, fk, hfk => by
    have hx := dropNew_exact (simpleKeys_exact hfk)
    obtain ⟨h0, s, hi⟩ := hwf
    have hz := hi _ (inB_zeros ss h0)
    have hfk' : List.Forall₂ (SimpleKeyR rep fwd arr) fk (ss ++ s) := by
      have : ((Arr.stack ss items).den m).shape = ss ++ s := by
        unfold Arr.den NDA.stacked
        simp only
        rw [hz.1.den_shape m hz.2]
      rw [← this]; exact hfk
    obtain ⟨f1, f2⟩ := forall₂_take_drop hfk'
    obtain ⟨p1, p2, p3⟩ := hp
    have ih : ∀ i, InB ss i → (items i).keysOk (fk.drop ss.length) ∧ (items i).clean m nm cut (fk.drop ss.length) := fun i hin =>
      simple_ok m nm fwd (items i) arr cut (hi i hin).1 (p3 i hin) _
        (by rw [(hi i hin).1.den_shape m (hi i hin).2]; exact f2)
    unfold Arr.keysOk Arr.clean
    rw [hx]
    refine ⟨⟨?_, ?_, ?_, fun i hin => (ih i hin).1⟩, fun hc _ => p2 hc, fun i hin => (ih i hin).2⟩
    · intro l hl
      obtain ⟨n, _, hn⟩ := forall₂_mem_left f1 hl
      exact hn.not_list
    · exact simple_fancySafe f1 (fun h => by rw [f1.length_eq]; exact p1 h)
    · intro σ hσ
      obtain ⟨σ', h1', h2', _⟩ := simpleKeys_resolve f1
      rw [hσ] at h1'
      injection h1' with h1'
      subst h1'
      exact h2' h0
  | .mosaic n tiles axis, arr, cut, hwf, hp, fk, hfk => by
    have hx := dropNew_exact (simpleKeys_exact hfk)
    obtain ⟨s, hax, ht, hsh⟩ := hwf.mosaic_shapes m
    obtain ⟨p1, p2, p3, p4⟩ := hp
    subst p1
    rw [hsh] at hfk
    have hts : ∀ t, t < n → ((tiles t).den m).shape =
        s.set axis (((List.range n).map (fun i => (okOr (tiles i).shape []).getD axis 0)).getD t 0) := by
      intro t htn
      exact (ht t htn).1.den_shape m (ht t htn).2
    have ih : ∀ t, t < ((List.range n).map (fun i => (okOr (tiles i).shape []).getD axis 0)).length → ∀ ks,
        List.Forall₂ (SimpleKeyR rep true true) ks
          (s.set axis (((List.range n).map (fun i => (okOr (tiles i).shape []).getD axis 0)).getD t 0)) →
        (tiles t).keysOk ks ∧ (tiles t).clean m nm (if cut = .whole then .whole else .arrays) ks := by
      intro t htn ks hks
      have htn : t < n := by simpa using htn
      exact simple_ok m nm true (tiles t) true _ (ht t htn).1 (p4 t htn) ks (by rw [hts t htn]; exact hks)
    unfold Arr.keysOk Arr.clean
    rw [hx]
    have hfk' : List.Forall₂ (SimpleKeyR rep true arr) fk
      (s.set axis ((List.range n).map (fun i => (okOr (tiles i).shape []).getD axis 0)).sum) := hfk
    exact ⟨simple_mosaic hax p2 hfk' (fun t htn ks hks => (ih t htn ks hks).1), fun hc _ => p3 hc,
      simple_mosaic hax p2 hfk' (fun t htn ks hks => (ih t htn ks hks).2)⟩
  | .asType a dt, arr, cut, hwf, hp, fk, hfk => simple_ok m nm fwd a arr cut hwf hp fk hfk
  | .maskVal a v, arr, cut, hwf, hp, fk, hfk => simple_ok m nm fwd a arr cut hwf hp fk hfk
  | .agg a axis k, arr, cut, hwf, hp, fk, hfk => by
    have hx := dropNew_exact (simpleKeys_exact hfk)
    obtain ⟨hwa, s, hs, hax⟩ := hwf
    have hden := hwa.den_shape m hs
    unfold Arr.keysOk Arr.clean
    rw [hx]
    obtain ⟨i1, i2⟩ := simple_ok m nm fwd a arr _ hwa hp.2 (fk.take axis ++ [Key.full] ++ fk.drop axis)
      (by rw [hden]; exact forall₂_agg simple_full hax (by rw [← hden]; exact hfk))
    refine ⟨i1, ?_, i2⟩
    cases rep with
    | true => exact Or.inl (hp.1 rfl)
    | false =>
      right
      intro x hx
      obtain ⟨n, _, hn⟩ := forall₂_mem_left hfk hx
      exact hn.distinct
  | .elem1 a op, arr, cut, hwf, hp, fk, hfk => by
    have hx := dropNew_exact (simpleKeys_exact hfk)
    unfold Arr.keysOk Arr.clean
    rw [hx]
    exact simple_ok m nm fwd a arr _ hwf hp fk hfk
  | .elem2 a b op, arr, cut, hwf, hp, fk, hfk => by
    have hx := dropNew_exact (simpleKeys_exact hfk)
    obtain ⟨hwa, hwb, hab⟩ := hwf
    have hsh : (a.den m).shape = (b.den m).shape := by
      rw [hwa.shape_eq m, hwb.shape_eq m] at hab; exact Except.ok.inj hab
    unfold Arr.keysOk Arr.clean
    rw [hx]
    obtain ⟨i1, i2⟩ := simple_ok m nm fwd a arr _ hwa hp.2.1 fk hfk
    obtain ⟨j1, j2⟩ := simple_ok m nm fwd b arr _ hwb hp.2.2 fk (by rw [← hsh]; exact hfk)
    refine ⟨⟨i1, j1⟩, fun _ => ?_, i2, j2⟩
    cases rep with
    | true => exact Or.inl (hp.1 rfl)
    | false =>
      right
      intro x hx
      obtain ⟨n, _, hn⟩ := forall₂_mem_left hfk hx
      exact hn.distinct

end Biggus

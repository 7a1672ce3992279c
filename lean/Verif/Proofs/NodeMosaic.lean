import Verif.Proofs.NodeStack
/-
Indexing a linear mosaic (concatenation of tiles).
-/
namespace Biggus

variable {α V : Type}

/-! ### positions in a concatenation -/

theorem locate_flatten {β : Type} (ls : List (List β)) (j : Nat) (h : j < ls.flatten.length) :
    ∃ l, ls[(locate (ls.map List.length) j).1]? = some l ∧
      (locate (ls.map List.length) j).2 < l.length ∧
      l[(locate (ls.map List.length) j).2]? = ls.flatten[j]? := by
  induction ls generalizing j with
  | nil => simp at h
  | cons l ls ih =>
    simp only [List.map_cons, locate, List.flatten_cons]
    by_cases hj : j < l.length
    · rw [if_pos hj]
      exact ⟨l, rfl, hj, (List.getElem?_append_left hj).symm⟩
    · rw [if_neg hj]
      rw [List.flatten_cons, List.length_append] at h
      obtain ⟨l', h1, h2, h3⟩ := ih (j - l.length) (by omega)
      refine ⟨l', ?_, h2, ?_⟩
      · simpa using h1
      · rw [List.getElem?_append_right (by omega)]; exact h3

theorem locate_offset (lens : List Nat) (t n p : Nat) (ht : lens[t]? = some n) (hp : p < n) :
    locate lens ((lens.take t).sum + p) = (t, p) := by
  induction lens generalizing t with
  | nil => simp at ht
  | cons l lens ih =>
    cases t with
    | zero =>
      have : l = n := by simpa using ht
      subst this
      simp [locate, hp]
    | succ t =>
      have ht' : lens[t]? = some n := by simpa using ht
      rw [List.take_succ_cons, List.sum_cons, locate, if_neg (by omega),
        show l + (lens.take t).sum + p - l = (lens.take t).sum + p by omega, ih t ht']

theorem tileOffsets_cons (l : Nat) (ls : List Nat) :
    tileOffsets (l :: ls) = 0 :: (tileOffsets ls).map (l + ·) := by
  unfold tileOffsets
  rw [List.length_cons, List.range_succ_eq_map, List.map_cons, List.map_map, List.map_map]
  simp

theorem tileOffsets_getD (lens : List Nat) (t : Nat) (h : t < lens.length) :
    (tileOffsets lens).getD t 0 = (lens.take t).sum := by
  unfold tileOffsets
  rw [List.getD_eq_getElem?_getD, List.getElem?_map, List.getElem?_range h]; rfl

theorem tileIndex_count (lens : List Nat) (i : Nat) (h : i < lens.sum) :
    (tileOffsets lens).countP (fun (o : Nat) => decide ((o : Int) ≤ (i : Int))) = (locate lens i).1 + 1 ∧
      ∃ n, lens[(locate lens i).1]? = some n ∧ (locate lens i).2 < n ∧
        i = (lens.take (locate lens i).1).sum + (locate lens i).2 := by
  induction lens generalizing i with
  | nil => simp at h
  | cons l lens ih =>
    rw [tileOffsets_cons, List.countP_cons, List.countP_map]
    simp only [locate]
    rw [List.sum_cons] at h
    by_cases hi : i < l
    · rw [if_pos hi]
      refine ⟨?_, l, rfl, hi, by simp⟩
      rw [List.countP_eq_zero.mpr]
      · simp
      · intro o _; simp; omega
    · rw [if_neg hi]
      obtain ⟨h1, n, h2, h3, h4⟩ := ih (i - l) (by omega)
      refine ⟨?_, n, by simpa using h2, h3, ?_⟩
      · have : (tileOffsets lens).countP ((fun (o : Nat) => decide ((o : Int) ≤ (i : Int))) ∘ fun x => l + x) =
            (tileOffsets lens).countP (fun (o : Nat) => decide ((o : Int) ≤ ((i - l : Nat) : Int))) := by
          apply List.countP_congr
          intro o _; simp; omega
        rw [this, h1]; simp
      · simp only [List.take_succ_cons, List.sum_cons]; omega

/-- The tile of a valid position, and the position in it. -/
theorem tileIndex_ok (lens : List Nat) (i : Int) (h0 : 0 ≤ i) (h : i < lens.sum) :
    ∃ n, tileIndex lens i < lens.length ∧ lens[tileIndex lens i]? = some n ∧
      (tileOffsets lens).getD (tileIndex lens i) 0 = (lens.take (tileIndex lens i)).sum ∧
      ((lens.take (tileIndex lens i)).sum : Int) ≤ i ∧ i - ((lens.take (tileIndex lens i)).sum : Int) < n := by
  obtain ⟨h1, n, h2, h3, h4⟩ := tileIndex_count lens i.toNat (by omega)
  have ht : tileIndex lens i = (locate lens i.toNat).1 := by
    unfold tileIndex
    rw [show i = ((i.toNat : Nat) : Int) by omega, h1]; rfl
  rw [ht]
  have hlt : (locate lens i.toNat).1 < lens.length := (List.getElem?_eq_some_iff.mp h2).1
  refine ⟨n, hlt, h2, tileOffsets_getD _ _ hlt, ?_, ?_⟩ <;> omega

/-! ### grouping by tile -/

theorem groupTiles_ok (lens : List Nat) (is : List Int) :
    ((groupTiles lens is).map Prod.snd).flatten = is ∧
      ∀ g ∈ groupTiles lens is, g.2 ≠ [] ∧ ∀ i ∈ g.2, tileIndex lens i = g.1 := by
  induction is with
  | nil => exact ⟨rfl, by simp [groupTiles]⟩
  | cons i is ih =>
    rw [groupTiles]
    cases hg : groupTiles lens is with
    | nil =>
      rw [hg] at ih
      simp only [List.map_nil, List.flatten_nil] at ih
      rw [← ih.1]
      simp
    | cons x rest =>
      obtain ⟨t', g⟩ := x
      rw [hg] at ih
      simp only [List.map_cons, List.flatten_cons] at ih
      obtain ⟨ih1, ih2⟩ := ih
      have ihx := ih2 (t', g) List.mem_cons_self
      simp only
      split
      · rename_i ht
        refine ⟨by simp only [List.map_cons, List.flatten_cons, List.cons_append, ih1], ?_⟩
        intro y hy
        rcases List.mem_cons.mp hy with rfl | hy
        · refine ⟨by simp, fun j hj => ?_⟩
          rcases List.mem_cons.mp hj with rfl | hj
          · rfl
          · rw [ihx.2 j hj]; exact ht.symm
        · exact ih2 y (List.mem_cons_of_mem _ hy)
      · refine ⟨by simp only [List.map_cons, List.flatten_cons, List.cons_append, List.nil_append, ih1], ?_⟩
        intro y hy
        rcases List.mem_cons.mp hy with rfl | hy
        · exact ⟨by simp, fun j hj => by rw [List.mem_singleton.mp hj]⟩
        · exact ih2 y hy

theorem tileKey_exact (off : Nat) (g : List Int) : (tileKey off g).isNewaxis = false ∧ (tileKey off g).isEllipsis = false := by
  unfold tileKey; split <;> exact ⟨rfl, rfl⟩

theorem tileKey_resolve (off n : Nat) (g : List Int) (h : ∀ i ∈ g, (off : Int) ≤ i ∧ i - off < n) :
    resolve1 (tileKey off g) n = .ok (.pick (g.map (fun i : Int => (i - off).toNat))) := by
  have hgen : resolve1 (.iarr (g.map (· - (off : Int)))) n = .ok (.pick (g.map (fun i : Int => (i - off).toNat))) := by
    simp only [resolve1]
    rw [if_pos]
    · rw [List.map_map]
      congr 2
      apply List.map_congr_left
      intro i hi
      have := h i hi
      simp only [Function.comp_apply]
      rw [normIdx_nonneg (by omega)]
    · rw [List.all_eq_true]
      intro x hx
      obtain ⟨i, hi, rfl⟩ := List.mem_map.mp hx
      have := h i hi
      exact inRange_of_bounds (by omega) (by omega)
  match g, h, hgen with
  | [], _, hgen => exact hgen
  | [i], h, _ =>
    have hi := h i List.mem_cons_self
    obtain ⟨k, hk⟩ : ∃ k : Nat, i - (off : Int) = k := ⟨(i - off).toNat, by omega⟩
    have h1 : (i : Int) - off + 1 = ((k + 1 : Nat) : Int) := by omega
    have := resolve1_span k (k + 1) n (by omega) (by omega)
    simp only [tileKey, List.map_cons, List.map_nil]
    rw [h1, hk]
    have hs : resolve1 (.slice ⟨some (k : Int), some ((k + 1 : Nat) : Int), some 1⟩) n =
        resolve1 (.slice ⟨some (k : Int), some ((k + 1 : Nat) : Int), none⟩) n := by
      simp [resolve1, PySlice.range, PySlice.indices]
    rw [hs]
    simpa [Key.span] using this
  | i :: j :: g, _, hgen => exact hgen

/-! ### trimmed keys -/

theorem trimKeys_spec (fk : List Key) : ∃ r, fk = trimKeys fk ++ List.replicate r Key.full := by
  refine ⟨(fk.reverse.takeWhile (· = Key.full)).length, ?_⟩
  have h1 : fk.reverse.takeWhile (· = Key.full) = List.replicate (fk.reverse.takeWhile (· = Key.full)).length Key.full := by
    rw [List.eq_replicate_iff]
    exact ⟨rfl, fun k hk => by simpa using List.mem_takeWhile_imp hk⟩
  have h2 := List.takeWhile_append_dropWhile (p := (· = Key.full)) (l := fk.reverse)
  have h3 := congrArg List.reverse h2
  rw [List.reverse_append, List.reverse_reverse] at h3
  unfold trimKeys
  rw [h1, List.reverse_replicate] at h3
  exact h3.symm

theorem nConsuming_exact {ks : List Key} (h : Exact ks) : nConsuming ks = ks.length := by
  unfold nConsuming
  rw [List.filter_eq_self.mpr]
  intro k hk; simp [(h k hk).1]

theorem expandKeys_pad {ks : List Key} {r : Nat} (h : Exact ks) :
    expandKeys ks (ks.length + r) = .ok (ks ++ List.replicate r Key.full) := by
  rw [expandKeys_noEllipsis ks _ (by simpa using fun k hk => (h k hk).2), nConsuming_exact h, if_pos (by omega)]
  simp

theorem scalar_count {ks : List Key} {sh : List Nat} {σ : List Sel} (he : Exact ks) (h : resolve ks sh = .ok σ) :
    ks.length - (ks.filter Key.isScalar).length = (selShape σ).length := by
  induction ks generalizing sh σ with
  | nil => obtain ⟨rfl, rfl⟩ := resolve_nil_iff.mp h; rfl
  | cons k ks ih =>
    obtain ⟨n, ns, s, σ', rfl, rfl, h1, h2⟩ := (resolve_cons_iff (he k List.mem_cons_self).1).mp h
    have := ih he.tail h2
    have hle : (ks.filter Key.isScalar).length ≤ ks.length := List.length_filter_le _ _
    have hs := resolve1_scalar (he k List.mem_cons_self).1 h1
    rw [List.filter_cons]
    by_cases hk : k.isScalar = true
    · rw [if_pos hk]
      rw [hk] at hs
      cases s with
      | «at» v => simp only [selShape, List.length_cons]; omega
      | pick l => simp [Sel.isPick] at hs
      | new => exact ((resolve1_ok (he k List.mem_cons_self).1 h1)).elim
    · rw [if_neg hk]
      cases s with
      | «at» v => simp [Sel.isPick, hk] at hs
      | pick l => simp only [selShape, List.length_cons]; omega
      | new => exact ((resolve1_ok (he k List.mem_cons_self).1 h1)).elim

/-! ### assembling the tiles -/

theorem getD_getElem? {β : Type} {l : List β} {i : Nat} {x : β} (d : β) (h : l[i]? = some x) : l.getD i d = x := by
  rw [List.getD_eq_getElem?_getD, h]; rfl

theorem set_middle {β : Type} (a : List β) (x y : β) (b : List β) (n : Nat) (h : a.length = n) :
    (a ++ x :: b).set n y = a ++ y :: b := by
  subst h; simp

theorem getD_middle {β : Type} (a : List β) (x d : β) (b : List β) (n : Nat) (h : a.length = n) :
    (a ++ x :: b).getD n d = x := by
  subst h; simp [List.getD_eq_getElem?_getD]

theorem mosaic_assemble [Inhabited α] [Inhabited V] (m : Mode α V) {n : Nat} {tiles : Nat → Arr α} {axis : Nat}
    {lens sp sr : List Nat} (hln : lens.length = n) (hsp : sp.length = axis)
    (hshape : ∀ t, t < n → ((tiles t).den m).shape = sp ++ lens.getD t 0 :: sr)
    {kp kr : List Key} {τp τr : List Sel} {P : List Nat}
    (hτp : resolve kp sp = .ok τp) (hτr : resolve kr sr = .ok τr)
    {gs : List (Nat × List Nat)} {bs : List (Arr α)} (hne : gs ≠ [])
    (hF : List.Forall₂ (fun (g : Nat × List Nat) b => g.1 < n ∧ (∀ p ∈ g.2, p < lens.getD g.1 0) ∧
      b.WF ∧ b.den m ≈ₐ ((tiles g.1).den m).ortho (τp ++ .pick g.2 :: τr) ∧ ((tiles g.1).noLead → b.noLead)) gs bs)
    (hP : P = (gs.map (fun g => g.2.map (fun p => (lens.take g.1).sum + p))).flatten) :
    Sim m (.mosaic n tiles axis) (mkMosaic bs (selShape τp).length)
      (((Arr.mosaic n tiles axis).den m).ortho (τp ++ .pick P :: τr)) := by
  have hlen : gs.length = bs.length := hF.length_eq
  have hget : ∀ j, j < gs.length → ∃ g b, gs[j]? = some g ∧ bs[j]? = some b ∧ g.1 < n ∧
      (∀ p ∈ g.2, p < lens.getD g.1 0) ∧ b.WF ∧ b.den m ≈ₐ ((tiles g.1).den m).ortho (τp ++ .pick g.2 :: τr) ∧
      ((tiles g.1).noLead → b.noLead) := by
    intro j hj
    have := (List.forall₂_iff_get.mp hF).2 j hj (by omega)
    exact ⟨gs[j], bs[j], List.getElem?_eq_getElem hj, List.getElem?_eq_getElem (by omega), this⟩
  have hbshape : ∀ (j : Nat) (g : Nat × List Nat) (b : Arr α), gs[j]? = some g → bs[j]? = some b →
      b.shape = .ok (selShape τp ++ g.2.length :: selShape τr) ∧
      (b.den m).shape = selShape τp ++ g.2.length :: selShape τr := by
    intro j g b hg hb
    obtain ⟨g', b', h1, h2, _, _, hw, he, _⟩ := hget j (List.getElem?_eq_some_iff.mp hg).1
    rw [hg] at h1; rw [hb] at h2; cases h1; cases h2
    have : (b.den m).shape = selShape τp ++ g.2.length :: selShape τr := by
      rw [he.1]; simp [NDA.ortho, selShape_append, selShape]
    exact ⟨by rw [hw.shape_eq m, this], this⟩
  set ax := (selShape τp).length with hax
  -- the constructor succeeds
  have hmk : mkMosaic bs ax = .ok (.mosaic bs.length (fun i => bs.getD i default) ax) := by
    cases bs with
    | nil => simp at hlen; exact absurd (List.length_eq_zero_iff.mp (by simpa using hlen)) hne
    | cons b0 bs' =>
      obtain ⟨g0, b0', hg0, hb0, _⟩ := hget 0 (by rw [hlen]; simp)
      simp at hb0; subst hb0
      have hs0 := (hbshape 0 g0 b0 hg0 (by simp)).1
      unfold mkMosaic
      simp only [hs0, bind, Except.bind]
      rw [if_neg (by simp [hax])]
      have : bs'.mapM (fun t => do
          let s ← t.shape
          if ¬ ax < s.length then throw PyErr.index
          if s.eraseIdx ax ≠ (selShape τp ++ g0.2.length :: selShape τr).eraseIdx ax then throw PyErr.value) =
          .ok (bs'.map (fun _ => ())) := by
        apply mapM_ok
        intro b hb
        obtain ⟨j, hj⟩ := List.mem_iff_getElem?.mp hb
        have hjl : j < bs'.length := (List.getElem?_eq_some_iff.mp hj).1
        obtain ⟨g, b', hg, hb', _⟩ := hget (j + 1) (by rw [hlen]; simp; omega)
        have hb'' : b' = b := by
          rw [List.getElem?_cons_succ, hj] at hb'; exact (Option.some.inj hb').symm
        subst hb''
        rw [(hbshape (j + 1) g b' hg (by simpa using hj)).1]
        simp only [bind, Except.bind]
        rw [if_neg (by simp [hax]), if_neg]
        · rfl
        · simp [hax, List.eraseIdx_append_of_length_le]
      simp only [bind, Except.bind] at this
      rw [this]
      rfl
  have hbget : ∀ (j : Nat) (b : Arr α), bs[j]? = some b → bs.getD j default = b := fun j b h => getD_getElem? _ h
  have hnewlens : (List.range bs.length).map (fun i => ((bs.getD i default).den m).shape.getD ax 0) =
      gs.map (fun g => g.2.length) := by
    apply List.ext_getElem?
    intro j
    rcases Nat.lt_or_ge j gs.length with hj | hj
    · obtain ⟨g, b, hg, hb, _⟩ := hget j hj
      rw [List.getElem?_map, List.getElem?_range (by omega), List.getElem?_map, hg]
      simp only [Option.map_some, hbget j b hb]
      rw [(hbshape j g b hg hb).2, getD_middle _ _ _ _ _ rfl]
    · rw [List.getElem?_eq_none (by simp; omega), List.getElem?_eq_none (by simpa using hj)]
  have hpos : 0 < gs.length := List.length_pos_iff.mpr hne
  have hPlen : P.length = (gs.map (fun g => g.2.length)).sum := by
    rw [hP, List.length_flatten, List.map_map]; congr 1; apply List.map_congr_left; intro g _; simp
  have hdshape : ((Arr.mosaic bs.length (fun i => bs.getD i default) ax).den m).shape =
      selShape τp ++ P.length :: selShape τr := by
    obtain ⟨g, b, hg, hb, _⟩ := hget 0 hpos
    simp only [Arr.den, NDA.concat]
    rw [hnewlens, hbget 0 b hb, (hbshape 0 g b hg hb).2, set_middle _ _ _ _ _ rfl, hPlen]
  refine ⟨_, hmk, ⟨by omega, selShape τp ++ P.length :: selShape τr, by simp [hax], ?_⟩, ⟨?_, ?_⟩, ?_⟩
  · intro j hj
    obtain ⟨g, b, hg, hb, h1, h2, h3, h4, h5⟩ := hget j (by omega)
    simp only [hbget j b hb]
    exact ⟨h3, g.2.length, by rw [set_middle _ _ _ _ _ rfl]; exact (hbshape j g b hg hb).1⟩
  · rw [hdshape]; simp [NDA.ortho, selShape_append, selShape]
  · intro idx hi
    rw [hdshape] at hi
    obtain ⟨hi1, hi2⟩ := inB_split hi
    rw [← hax] at hi1 hi2
    cases hdrop : idx.drop ax with
    | nil => rw [hdrop] at hi2; exact hi2.elim
    | cons j ir =>
      rw [hdrop] at hi2
      obtain ⟨hj, hir⟩ := hi2
      have htl : (idx.take ax).length = ax := by rw [hi1.length]
      have hidx : idx = idx.take ax ++ j :: ir := by rw [← hdrop, List.take_append_drop]
      generalize idx.take ax = ip at hidx htl hi1
      subst hidx
      clear hdrop hi
      -- where position j is
      have hP' : j < (gs.map (fun g => g.2.map (fun p => (lens.take g.1).sum + p))).flatten.length := by
        rw [← hP]; exact hj
      obtain ⟨l, hl1, hl2, hl3⟩ := locate_flatten _ j hP'
      have hlens' : (gs.map (fun g => g.2.map (fun p => (lens.take g.1).sum + p))).map List.length =
          gs.map (fun g => g.2.length) := by
        rw [List.map_map]; apply List.map_congr_left; intro g _; simp
      rw [hlens'] at hl1 hl2 hl3
      rw [← hP] at hl3
      set T := (locate (gs.map (fun g => g.2.length)) j).1 with hT
      set Q := (locate (gs.map (fun g => g.2.length)) j).2 with hQ
      have hTQ : locate (gs.map (fun g => g.2.length)) j = (T, Q) := rfl
      rw [List.getElem?_map] at hl1
      have hTlt : T < gs.length := by
        rcases Nat.lt_or_ge T gs.length with h | h
        · exact h
        · rw [List.getElem?_eq_none h] at hl1; simp at hl1
      obtain ⟨g, b, hg, hb, h1, h2, h3, h4, h5⟩ := hget T hTlt
      rw [hg] at hl1
      simp only [Option.map_some, Option.some.injEq] at hl1
      subst hl1
      have hQlt : Q < g.2.length := by simpa using hl2
      have hPj : P.getD j 0 = (lens.take g.1).sum + g.2.getD Q 0 := by
        rw [List.getD_eq_getElem?_getD, ← hl3, List.getElem?_map, getD_some 0 hQlt]; rfl
      have hlocP : locate lens (P.getD j 0) = (g.1, g.2.getD Q 0) := by
        rw [hPj]
        refine locate_offset lens g.1 (lens.getD g.1 0) _ (getD_some 0 (by omega)) ?_
        exact h2 _ (getD_mem _ _ _ hQlt)
      have hsrcp : ∀ x : List Nat, j < x.length → selSrc (τp ++ .pick x :: τr) (ip ++ j :: ir) =
          selSrc τp ip ++ x.getD j 0 :: selSrc τr ir := by
        intro x _
        rw [selSrc_append (by rw [← hax, List.take_left' htl]; exact hi1), ← hax, List.take_left' htl,
          List.drop_left' htl]
        rfl
      have hsl : (selSrc τp ip).length = axis := by rw [(selSrc_inB hτp _ hi1).length, hsp]
      -- left-hand side
      have hL : ((Arr.mosaic bs.length (fun i => bs.getD i default) ax).den m).get (ip ++ j :: ir) =
          ((tiles g.1).den m).get (selSrc τp ip ++ g.2.getD Q 0 :: selSrc τr ir) := by
        simp only [Arr.den, NDA.concat]
        rw [hnewlens, getD_middle _ _ _ _ _ htl, hTQ]
        simp only
        rw [hbget T b hb, set_middle _ _ _ _ _ htl, h4.2 _ (by
          rw [(hbshape T g b hg hb).2]; exact inB_append hi1 ⟨hQlt, hir⟩)]
        simp only [NDA.ortho]
        congr 1
        rw [selSrc_append (by rw [← hax, List.take_left' htl]; exact hi1), ← hax, List.take_left' htl,
          List.drop_left' htl]
        rfl
      -- right-hand side
      have hR : (((Arr.mosaic n tiles axis).den m).ortho (τp ++ .pick P :: τr)).get (ip ++ j :: ir) =
          ((tiles g.1).den m).get (selSrc τp ip ++ g.2.getD Q 0 :: selSrc τr ir) := by
        have hlens : (List.range n).map (fun i => ((tiles i).den m).shape.getD axis 0) = lens := by
          apply List.ext_getElem?
          intro i
          rcases Nat.lt_or_ge i n with h | h
          · rw [List.getElem?_map, List.getElem?_range h, getD_some 0 (by omega : i < lens.length)]
            simp only [Option.map_some]
            rw [hshape i h, getD_middle _ _ _ _ _ hsp]
          · rw [List.getElem?_eq_none (by simpa using h), List.getElem?_eq_none (by omega)]
        simp only [NDA.ortho, Arr.den, NDA.concat]
        rw [hsrcp P hj, hlens, getD_middle _ _ _ _ _ hsl, hlocP]
        simp only
        rw [set_middle _ _ _ _ _ hsl]
      rw [hL, hR]
  · intro hnl j hj
    obtain ⟨g, b, hg, hb, h1, h2, h3, h4, h5⟩ := hget j (by omega)
    simp only [hbget j b hb]
    exact h5 (hnl g.1 h1)

theorem range_flatten (lens : List Nat) :
    ((List.range lens.length).map (fun t => (List.range (lens.getD t 0)).map (fun p => (lens.take t).sum + p))).flatten =
      List.range lens.sum := by
  induction lens with
  | nil => rfl
  | cons l ls ih =>
    rw [List.length_cons, List.range_succ_eq_map, List.map_cons, List.flatten_cons, List.map_map, List.sum_cons,
      List.range_add, ← ih]
    congr 1
    · simp
    · rw [List.map_flatten, List.map_map]
      congr 1
      apply List.map_congr_left
      intro t _
      simp only [Function.comp_apply, List.map_map, List.take_succ_cons, List.sum_cons]
      simp only [List.getD_cons_succ]
      apply List.map_congr_left
      intro p _
      simp only [Function.comp_apply]
      omega

theorem forall₂_map_left {β γ δ : Type} {R : γ → δ → Prop} {f : β → γ} {l : List β} {l' : List δ}
    (h : List.Forall₂ (fun x y => R (f x) y) l l') : List.Forall₂ R (l.map f) l' := by
  induction h with
  | nil => exact .nil
  | cons h _ ih => exact .cons h ih

theorem mapM_sim {β γ : Type} {R : β → γ → Prop} (l : List β) (f : β → Res γ)
    (h : ∀ x ∈ l, ∃ y, f x = .ok y ∧ R x y) : ∃ ys, l.mapM f = .ok ys ∧ List.Forall₂ R l ys := by
  induction l with
  | nil => exact ⟨[], rfl, .nil⟩
  | cons x l ih =>
    obtain ⟨y, h1, h2⟩ := h x List.mem_cons_self
    obtain ⟨ys, h3, h4⟩ := ih (fun z hz => h z (List.mem_cons_of_mem _ hz))
    refine ⟨y :: ys, ?_, .cons h2 h4⟩
    rw [List.mapM_cons, h1, h3]; rfl

theorem Exact.set {ks : List Key} (h : Exact ks) (i : Nat) {k : Key} (hk : k.isNewaxis = false ∧ k.isEllipsis = false) :
    Exact (ks.set i k) := by
  intro x hx
  rcases List.mem_or_eq_of_mem_set hx with h' | rfl
  · exact h x h'
  · exact hk

theorem set_append_lt {β : Type} (a b : List β) (i : Nat) (x : β) (h : i < a.length) :
    (a ++ b).set i x = a.set i x ++ b := by
  rw [List.set_append, if_pos h]

theorem mosaicFull_ok [Inhabited α] [Inhabited V] (m : Mode α V) {inner : Nat → List Key → Res (Arr α)} {n : Nat}
    {tiles : Nat → Arr α} {axis : Nat} (hwf : (Arr.mosaic n tiles axis).WF) {fk : List Key} {τ : List Sel}
    (he : Exact fk) (hτ : resolve fk ((Arr.mosaic n tiles axis).den m).shape = .ok τ) (G : Nat → List Key → Prop)
    (hg : mosaicKeysOk ((List.range n).map (fun i => ((tiles i).den m).shape.getD axis 0)) axis G fk)
    (hin : ∀ t ks fk' σ, t < n → expandKeys ks ((tiles t).den m).shape.length = .ok fk' → Exact fk' → G t fk' →
      resolve fk' ((tiles t).den m).shape = .ok σ → Sim m (tiles t) (inner t ks) (((tiles t).den m).ortho σ)) :
    Sim m (.mosaic n tiles axis) (mosaicFull inner (fun i => (tiles i).shape) n axis fk)
      (((Arr.mosaic n tiles axis).den m).ortho τ) := by
  obtain ⟨hn, s, hax, ht⟩ := hwf
  set lens := (List.range n).map (fun i => ((tiles i).den m).shape.getD axis 0) with hlens
  have hln : lens.length = n := by simp [hlens]
  have hlget : ∀ t, t < n → lens.getD t 0 = ((tiles t).den m).shape.getD axis 0 := by
    intro t h
    rw [hlens, List.getD_eq_getElem?_getD, List.getElem?_map, List.getElem?_range h]; rfl
  obtain ⟨sp, x0, sr, hs, hsp⟩ : ∃ sp x0 sr, s = sp ++ x0 :: sr ∧ sp.length = axis := by
    refine ⟨s.take axis, s[axis], s.drop (axis + 1), ?_, by rw [List.length_take]; omega⟩
    rw [← List.drop_eq_getElem_cons hax, List.take_append_drop]
  subst hs
  have hshape : ∀ t, t < n → ((tiles t).den m).shape = sp ++ lens.getD t 0 :: sr := by
    intro t h
    obtain ⟨hw, k, hk⟩ := ht t h
    have h1 := hw.den_shape m hk
    rw [set_middle _ _ _ _ _ hsp] at h1
    rw [hlget t h, h1, getD_middle _ _ _ _ _ hsp]
  have hdim : ∀ t, t < n → ((tiles t).den m).shape.length = sp.length + 1 + sr.length := by
    intro t h; rw [hshape t h]; simp; omega
  have hden : ((Arr.mosaic n tiles axis).den m).shape = sp ++ lens.sum :: sr := by
    simp only [Arr.den, NDA.concat]
    rw [hshape 0 hn, set_middle _ _ _ _ _ hsp, hlens]
  rw [hden] at hτ
  have hlen := (resolve_length he hτ).1
  obtain ⟨kp, k, kr, hfk, hkp⟩ : ∃ kp k kr, fk = kp ++ k :: kr ∧ kp.length = axis := by
    have h1 : axis < fk.length := by rw [hlen]; simp; omega
    refine ⟨fk.take axis, fk[axis], fk.drop (axis + 1), ?_, by rw [List.length_take]; omega⟩
    rw [← List.drop_eq_getElem_cons h1, List.take_append_drop]
  have hep : Exact kp := fun x hx => he x (by rw [hfk]; simp [hx])
  have hek : Exact (k :: kr) := fun x hx => he x (by rw [hfk]; exact List.mem_append_right _ hx)
  rw [hfk] at hτ
  obtain ⟨τp, τkr, rfl, hτp, hτkr⟩ := resolve_append_inv hep (by rw [hkp, hsp]) hτ
  obtain ⟨n', ns', tk, τr, h1, rfl, htk, hτr⟩ := (resolve_cons_iff (hek k List.mem_cons_self).1).mp hτkr
  cases h1
  have her : Exact kr := hek.tail
  -- resolving the keys of one tile
  have hres : ∀ t k' t', t < n → k'.isNewaxis = false → resolve1 k' (lens.getD t 0) = .ok t' →
      resolve (kp ++ k' :: kr) ((tiles t).den m).shape = .ok (τp ++ t' :: τr) := by
    intro t k' t' h hk' h1
    rw [hshape t h]
    exact resolve_append hep hτp ((resolve_cons_iff hk').mpr ⟨_, _, _, _, rfl, rfl, h1, hτr⟩)
  have hscal := scalar_count hep hτp
  rw [hkp] at hscal
  obtain ⟨rr, hrr⟩ := trimKeys_spec fk
  have heT : Exact (trimKeys fk) := fun x hx => he x (by rw [hrr]; exact List.mem_append_left _ hx)
  have hTl : (trimKeys fk).length + rr = sp.length + 1 + sr.length := by
    have := congrArg List.length hrr
    rw [List.length_append, List.length_replicate, hlen] at this
    simp at this; omega
  unfold mosaicFull
  simp only
  by_cases hshort : (trimKeys fk).length ≤ axis
  · rw [if_pos hshort]
    have hG : ∀ t, t < n → G t fk := by
      have := hg
      unfold mosaicKeysOk at this
      simp only [hshort, if_true] at this
      intro t h; exact this t (by omega)
    -- the key on the axis is `:`
    have hk : k = Key.full := by
      have h1 : fk[axis]? = some k := by rw [hfk, List.getElem?_append_right (by omega)]; simp [hkp]
      rw [hrr, List.getElem?_append_right hshort, List.getElem?_replicate] at h1
      split at h1
      · exact (Option.some.inj h1).symm
      · cases h1
    subst hk
    rw [resolve1_full] at htk
    cases htk
    have hsc : axis - ((trimKeys fk).filter Key.isScalar).length = (selShape τp).length := by
      rw [← hscal]
      congr 1
      have h1 : kp = trimKeys fk ++ List.replicate (axis - (trimKeys fk).length) Key.full := by
        have h2 : fk.take axis = kp := by rw [hfk]; exact List.take_left' hkp
        rw [← h2]
        conv_lhs => rw [hrr]
        rw [List.take_append, List.take_of_length_le hshort, List.take_replicate]
        congr 2
        omega
      rw [h1, List.filter_append]
      have : (List.replicate (axis - (trimKeys fk).length) Key.full).filter Key.isScalar = [] := by
        rw [List.filter_eq_nil_iff]
        intro x hx; rw [List.eq_of_mem_replicate hx]; simp [Key.full, Key.isScalar]
      rw [this]; simp
    rw [hsc]
    obtain ⟨bs, hbs, hF⟩ := mapM_sim (R := fun t b => b.WF ∧
        b.den m ≈ₐ ((tiles t).den m).ortho (τp ++ .pick (List.range (lens.getD t 0)) :: τr) ∧
        ((tiles t).noLead → b.noLead)) (List.range n) (fun i => inner i (trimKeys fk)) (by
      intro t htm
      have htn : t < n := by simpa using htm
      have hexp : expandKeys (trimKeys fk) ((tiles t).den m).shape.length = .ok fk := by
        rw [hdim t htn, ← hTl, expandKeys_pad heT, ← hrr]
      exact hin t _ fk _ htn hexp he (hG t htn) (by rw [hfk]; exact hres t _ _ htn rfl (resolve1_full _)))
    rw [hbs]
    simp only [bind, Except.bind]
    have hF2 : List.Forall₂ (fun t b => t < n ∧ b.WF ∧
        b.den m ≈ₐ ((tiles t).den m).ortho (τp ++ .pick (List.range (lens.getD t 0)) :: τr) ∧
        ((tiles t).noLead → b.noLead)) (List.range n) bs := by
      rw [List.forall₂_iff_get] at hF ⊢
      refine ⟨hF.1, fun i h1 h2 => ⟨?_, hF.2 i h1 h2⟩⟩
      simpa using h1
    refine mosaic_assemble m hln hsp hshape hτp hτr (gs := (List.range n).map (fun t => (t, List.range (lens.getD t 0))))
      (by simp; omega) ?_ ?_
    · refine forall₂_map_left (hF2.imp ?_)
      rintro t b ⟨h1, h2, h3, h4⟩
      exact ⟨h1, fun p hp => by simpa using hp, h2, h3, h4⟩
    · rw [List.map_map, ← range_flatten, hln]; rfl
  · rw [if_neg hshort]
    have hlensM : (List.range n).mapM (fun i => do let s ← (tiles i).shape; return s.getD axis 0) = .ok lens := by
      apply mapM_ok
      intro i hi
      have hi' : i < n := by simpa using hi
      rw [(ht i hi').1.shape_eq m]; rfl
    simp only [bind, Except.bind, pure, Except.pure] at hlensM ⊢
    rw [hlensM]
    simp only
    have hlt : axis < (trimKeys fk).length := by omega
    have hkget : (trimKeys fk).getD axis Key.full = k := by
      have h1 : fk[axis]? = some k := by rw [hfk, List.getElem?_append_right (by omega)]; simp [hkp]
      rw [hrr, List.getElem?_append_left hlt] at h1
      exact getD_getElem? _ h1
    have hkget' : fk.getD axis Key.full = k := by rw [hfk]; exact getD_middle _ _ _ _ _ hkp
    have htake : (trimKeys fk).take axis = kp := by
      have h2 : fk.take axis = kp := by rw [hfk]; exact List.take_left' hkp
      rw [← h2]
      conv_rhs => rw [hrr]
      rw [List.take_append_of_le_length (by omega)]
    have hsetfk : ∀ k', fk.set axis k' = kp ++ k' :: kr := by
      intro k'; rw [hfk]; exact set_middle _ _ _ _ _ hkp
    have hexp : ∀ t k', t < n → k'.isNewaxis = false ∧ k'.isEllipsis = false →
        expandKeys ((trimKeys fk).set axis k') ((tiles t).den m).shape.length = .ok (fk.set axis k') := by
      intro t k' h hk'
      have h1 := expandKeys_pad (r := rr) (heT.set axis hk')
      rw [List.length_set, hTl, ← hdim t h, ← set_append_lt _ _ _ _ hlt, ← hrr] at h1
      exact h1
    unfold mosaicKeysOk at hg
    simp only [hshort, if_false, hkget'] at hg
    unfold mosaicAxis
    rw [hkget]
    -- several positions
    have hmany : ∀ (is : List Int) (rev : Bool), (∀ i ∈ is, i < (lens.sum : Int)) →
        (is ≠ [] ∧ (∀ i ∈ is, 0 ≤ i) ∧ ∀ g ∈ groupTiles lens is,
          G g.1 (fk.set axis (tileKey ((tileOffsets lens).getD g.1 0) g.2))) →
        (rev = true → (groupTiles lens is).length = 1) → tk = .pick (is.map Int.toNat) →
        Sim m (.mosaic n tiles axis) (mosaicMany inner lens axis (trimKeys fk) is rev)
          (((Arr.mosaic n tiles axis).den m).ortho (τp ++ tk :: τr)) := by
      intro is rev hub ⟨hne, hlb, hGg⟩ hrev htk'
      obtain ⟨hflat, hgrp⟩ := groupTiles_ok lens is
      -- facts about one group
      have hone : ∀ g ∈ groupTiles lens is, g.1 < n ∧ (tileOffsets lens).getD g.1 0 = (lens.take g.1).sum ∧
          ∀ i ∈ g.2, ((lens.take g.1).sum : Int) ≤ i ∧ i - ((lens.take g.1).sum : Int) < lens.getD g.1 0 := by
        intro g hgm
        have hmem : ∀ i ∈ g.2, i ∈ is := by
          intro i hi
          rw [← hflat, List.mem_flatten]
          exact ⟨g.2, List.mem_map_of_mem hgm, hi⟩
        have hti : ∀ i ∈ g.2, g.1 < n ∧ (tileOffsets lens).getD g.1 0 = (lens.take g.1).sum ∧
            ((lens.take g.1).sum : Int) ≤ i ∧ i - ((lens.take g.1).sum : Int) < lens.getD g.1 0 := by
          intro i hi
          obtain ⟨n1, a1, a2, a3, a4, a5⟩ := tileIndex_ok lens i (hlb i (hmem i hi)) (hub i (hmem i hi))
          rw [(hgrp g hgm).2 i hi] at a1 a2 a3 a4 a5
          rw [getD_getElem? 0 a2]
          exact ⟨by omega, a3, a4, a5⟩
        obtain ⟨i0, hi0⟩ := List.exists_mem_of_ne_nil _ (hgrp g hgm).1
        exact ⟨(hti i0 hi0).1, (hti i0 hi0).2.1, fun i hi => (hti i hi).2.2⟩
      obtain ⟨bs, hbs, hF⟩ := mapM_sim (R := fun (g : Nat × List Int) b => b.WF ∧
          b.den m ≈ₐ ((tiles g.1).den m).ortho
            (τp ++ .pick (g.2.map (fun i : Int => (i - ((lens.take g.1).sum : Nat)).toNat)) :: τr) ∧
          ((tiles g.1).noLead → b.noLead)) (groupTiles lens is)
          (fun g => inner g.1 ((trimKeys fk).set axis (tileKey ((tileOffsets lens).getD g.1 0) g.2))) (by
        intro g hgm
        obtain ⟨b1, b2, b3⟩ := hone g hgm
        have hx := tileKey_exact ((tileOffsets lens).getD g.1 0) g.2
        refine hin g.1 _ _ _ b1 (hexp g.1 _ b1 hx) (he.set axis hx) (hGg g hgm) ?_
        rw [hsetfk, b2]
        refine hres g.1 _ _ b1 (tileKey_exact _ _).1 (tileKey_resolve _ _ _ ?_)
        exact b3)
      unfold mosaicMany
      rw [hbs]
      simp only [bind, Except.bind]
      have hrevbs : (if rev = true then bs.reverse else bs) = bs := by
        split
        · rename_i hr
          have h1 := hrev hr
          rw [hF.length_eq] at h1
          match bs, h1 with
          | [b], _ => rfl
        · rfl
      rw [hrevbs, htake, hscal, htk']
      refine mosaic_assemble m hln hsp hshape hτp hτr
        (gs := (groupTiles lens is).map (fun g => (g.1, g.2.map (fun i : Int => (i - ((lens.take g.1).sum : Nat)).toNat))))
        ?_ ?_ ?_
      · intro h
        rw [List.map_eq_nil_iff] at h
        rw [h] at hflat
        exact hne hflat.symm
      · refine forall₂_map_left ?_
        rw [List.forall₂_iff_get] at hF ⊢
        refine ⟨hF.1, fun i h1 h2 => ?_⟩
        obtain ⟨c1, c2, c3⟩ := hF.2 i h1 h2
        obtain ⟨b1, b2, b3⟩ := hone ((groupTiles lens is).get ⟨i, h1⟩) (List.get_mem _ _)
        refine ⟨b1, ?_, c1, c2, c3⟩
        intro p hp
        obtain ⟨j, hj, rfl⟩ := List.mem_map.mp hp
        have := b3 j hj
        show _ < lens.getD ((groupTiles lens is).get ⟨i, h1⟩).1 0; omega
      · conv_lhs => rw [← hflat]
        rw [List.map_flatten, List.map_map, List.map_map]
        congr 1
        apply List.map_congr_left
        intro g hgm
        obtain ⟨b1, b2, b3⟩ := hone g hgm
        simp only [Function.comp_apply, List.map_map]
        apply List.map_congr_left
        intro i hi
        have := b3 i hi
        simp only [Function.comp_apply]
        omega
    -- the cases
    have hseq : ∀ l : List Int, k.isScalar = false → resolve1 k lens.sum = resolve1 (.tuple l) lens.sum →
        (l ≠ [] ∧ (∀ i ∈ l, 0 ≤ i) ∧ ∀ g ∈ groupTiles lens l,
          G g.1 (fk.set axis (tileKey ((tileOffsets lens).getD g.1 0) g.2))) →
        Sim m (.mosaic n tiles axis) (mosaicMany inner lens axis (trimKeys fk) l false)
          (((Arr.mosaic n tiles axis).den m).ortho (τp ++ tk :: τr)) := by
      intro l _ hr hgl
      rw [hr] at htk
      simp only [resolve1] at htk
      split at htk
      · rename_i hall
        have hb : ∀ i ∈ l, i < (lens.sum : Int) := by
          intro i hi
          have := List.all_eq_true.mp hall i hi
          simp [inRange] at this; omega
        refine hmany l false hb hgl (by simp) ?_
        cases htk
        congr 1
        apply List.map_congr_left
        intro i hi
        exact normIdx_nonneg (hgl.2.1 i hi)
      · cases htk
    cases k with
    | int i =>
      simp only at hg ⊢
      simp only [resolve1] at htk
      split at htk
      · rename_i hr
        have hi : i < (lens.sum : Int) := by simp [inRange] at hr; omega
        cases htk
        obtain ⟨n1, a1, a2, a3, a4, a5⟩ := tileIndex_ok lens i hg.1 hi
        have hlg : lens.getD (tileIndex lens i) 0 = n1 := getD_getElem? 0 a2
        have htn : tileIndex lens i < n := by omega
        have hx : Key.isNewaxis (.int (i - (tileOffsets lens).getD (tileIndex lens i) 0)) = false ∧
          Key.isEllipsis (.int (i - (tileOffsets lens).getD (tileIndex lens i) 0)) = false := ⟨rfl, rfl⟩
        have hr1 : resolve1 (.int (i - (tileOffsets lens).getD (tileIndex lens i) 0)) (lens.getD (tileIndex lens i) 0) =
            .ok (.at (i - ((lens.take (tileIndex lens i)).sum : Nat)).toNat) := by
          simp only [resolve1]
          rw [a3, hlg, if_pos (inRange_of_bounds (by omega) a5), normIdx_nonneg (by omega)]
        obtain ⟨b, hb1, hb2, hb3, hb4⟩ := hin (tileIndex lens i) _ _ _ htn (hexp _ _ htn hx) (he.set axis hx) hg.2 (by
          rw [hsetfk]; exact hres _ _ _ htn rfl hr1)
        refine ⟨b, hb1, hb2, hb3.trans ⟨?_, ?_⟩, fun hnl => hb4 (hnl _ htn)⟩
        · simp [NDA.ortho, selShape_append, selShape]
        · intro idx hidx
          simp only [NDA.ortho, selShape_append, selShape] at hidx
          have hi1 := (inB_split hidx).1
          simp only [NDA.ortho, Arr.den, NDA.concat]
          rw [← hlens, selSrc_append hi1, selSrc_append hi1]
          have hsl : (selSrc τp (idx.take (selShape τp).length)).length = axis := by
            rw [(selSrc_inB hτp _ hi1).length, hsp]
          simp only [selSrc]
          rw [getD_middle _ _ _ _ _ hsl]
          have hloc : locate lens (normIdx i lens.sum) =
              (tileIndex lens i, (i - ((lens.take (tileIndex lens i)).sum : Nat)).toNat) := by
            rw [normIdx_nonneg hg.1]
            have := locate_offset lens (tileIndex lens i) n1 (i - ((lens.take (tileIndex lens i)).sum : Nat)).toNat a2 (by omega)
            rw [← this]; congr 1; omega
          rw [hloc]
          simp only
          rw [set_middle _ _ _ _ _ hsl]
      · cases htk
    | slice sl =>
      simp only at hg ⊢
      obtain ⟨r, hr, rfl⟩ := resolve1_slice htk
      simp only [hr, bind, Except.bind]
      obtain ⟨hgm, hgs⟩ := hg r hr
      exact hmany r sl.negStep (fun i hi => (range_mem hr i hi).2) hgm hgs rfl
    | tuple l => exact hseq l rfl rfl hg
    | list l => exact hseq l rfl rfl hg
    | iarr l => exact hseq l rfl rfl hg
    | barr l => exact hg.elim
    | newaxis => exact hg.elim
    | ellipsis => exact hg.elim
    | bad => exact hg.elim

end Biggus

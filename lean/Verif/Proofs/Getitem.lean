import Verif.Proofs.NodeMosaic
/-
Indexing any well-formed lazy array with supported keys denotes NumPy's indexing.
-/
namespace Biggus

variable {α V : Type}

/-! ### aggregations -/

theorem reduce_congr {A B : NDA V} {axis : Nat} {f : List V → V} (h : A ≈ₐ B) (hax : axis < A.shape.length) :
    A.reduce axis f ≈ₐ B.reduce axis f := by
  refine ⟨by simp [NDA.reduce, h.1], fun idx hi => ?_⟩
  simp only [NDA.reduce, NDA.column]
  rw [← h.1]
  congr 1
  apply List.map_congr_left
  intro j hj
  rw [List.mem_range] at hj
  refine h.2 _ ?_
  simp only [NDA.reduce] at hi
  generalize A.shape = s at hax hi hj
  clear h
  induction s generalizing axis idx with
  | nil => simp at hax
  | cons n s ih =>
    cases axis with
    | zero => simpa using ⟨hj, hi⟩
    | succ ax =>
      cases idx with
      | nil => simp [InB] at hi
      | cons i idx => exact ⟨hi.1, ih idx (by simpa using hax) hi.2 (by simpa using hj)⟩

theorem insertIdx_middle {β : Type} (a b : List β) (x : β) (n : Nat) (h : a.length = n) :
    (a ++ b).insertIdx n x = a ++ x :: b := by
  subst h
  induction a with
  | nil => rfl
  | cons y a ih => simp [ih]

theorem eraseIdx_middle {β : Type} (a b : List β) (x : β) (n : Nat) (h : a.length = n) :
    (a ++ x :: b).eraseIdx n = a ++ b := by
  subst h; simp [List.eraseIdx_append_of_length_le]

theorem aggFull_ok [Inhabited V] (m : Mode α V) {inner : List Key → Res (Arr α)} {a : Arr α} {axis : Nat}
    {k : AggKind α} (hwf : (Arr.agg a axis k).WF) {fk : List Key} {τ : List Sel} (he : Exact fk)
    (hτ : resolve fk ((Arr.agg a axis k).den m).shape = .ok τ)
    (hin : ∀ σ, Exact (fk.take axis ++ [Key.full] ++ fk.drop axis) →
      resolve (fk.take axis ++ [Key.full] ++ fk.drop axis) (a.den m).shape = .ok σ →
      Sim m a (inner (fk.take axis ++ [Key.full] ++ fk.drop axis)) ((a.den m).ortho σ)) :
    Sim m (.agg a axis k) (aggFull inner axis k fk) (((Arr.agg a axis k).den m).ortho τ) := by
  obtain ⟨hwa, s, hs, hax⟩ := hwf
  have hden := hwa.den_shape m hs
  obtain ⟨sp, n, sr, hsp, hspl⟩ : ∃ sp n sr, s = sp ++ n :: sr ∧ sp.length = axis := by
    refine ⟨s.take axis, s[axis], s.drop (axis + 1), ?_, by rw [List.length_take]; omega⟩
    rw [← List.drop_eq_getElem_cons hax, List.take_append_drop]
  subst hsp
  have hsh : ((Arr.agg a axis k).den m).shape = sp ++ sr := by
    simp only [Arr.den, NDA.reduce, hden]; exact eraseIdx_middle _ _ _ _ hspl
  rw [hsh] at hτ
  have hlen := (resolve_length he hτ).1
  have hep : Exact (fk.take axis) := fun x hx => he x (List.mem_of_mem_take hx)
  have her : Exact (fk.drop axis) := fun x hx => he x (List.mem_of_mem_drop hx)
  have hkl : (fk.take axis).length = sp.length := by
    rw [List.length_take, hlen, List.length_append]; omega
  rw [← List.take_append_drop axis fk] at hτ
  obtain ⟨τp, τr, rfl, hτp, hτr⟩ := resolve_append_inv hep hkl hτ
  have hef : Exact (fk.take axis ++ [Key.full] ++ fk.drop axis) :=
    (hep.append (by intro x hx; rw [List.mem_singleton.mp hx]; exact exact_full)).append her
  have hr : resolve (fk.take axis ++ [Key.full] ++ fk.drop axis) (a.den m).shape =
      .ok (τp ++ .pick (List.range n) :: τr) := by
    rw [hden, List.append_assoc]
    exact resolve_append hep hτp ((resolve_cons_iff rfl).mpr ⟨_, _, _, _, rfl, rfl, resolve1_full n, hτr⟩)
  obtain ⟨b, hb1, hb2, hb3, hb4⟩ := hin _ hef hr
  have hsc := scalar_count hep hτp
  rw [hkl, hspl] at hsc
  unfold aggFull
  rw [hb1]
  simp only [bind, Except.bind, pure, Except.pure]
  rw [hsc]
  have hbsh : (b.den m).shape = selShape τp ++ n :: selShape τr := by
    rw [hb3.1]; simp [NDA.ortho, selShape_append, selShape]
  refine ⟨_, rfl, ⟨hb2, selShape τp ++ n :: selShape τr, by rw [hb2.shape_eq m, hbsh], by simp⟩, ?_, fun _ => trivial⟩
  have hn1 : (a.den m).shape.getD axis 0 = n := by rw [hden]; exact getD_middle _ _ _ _ _ hspl
  have hn2 : (b.den m).shape.getD (selShape τp).length 0 = n := by rw [hbsh]; exact getD_middle _ _ _ _ _ rfl
  simp only [Arr.den]
  rw [hn1, hn2]
  refine (reduce_congr hb3 (by rw [hbsh]; simp)).trans ⟨?_, ?_⟩
  · simp only [NDA.reduce, NDA.ortho, selShape_append, selShape]
    exact eraseIdx_middle _ _ _ _ rfl
  · intro idx hi
    have hi' : InB (selShape τp ++ selShape τr) idx := by
      have hx : (selShape (τp ++ .pick (List.range n) :: τr)).eraseIdx (selShape τp).length =
          selShape τp ++ selShape τr := by
        rw [selShape_append, selShape]; exact eraseIdx_middle _ _ _ _ rfl
      simp only [NDA.reduce, NDA.ortho] at hi
      rwa [hx] at hi
    obtain ⟨h1, h2⟩ := inB_split hi'
    simp only [NDA.reduce, NDA.ortho, NDA.column]
    congr 1
    have hl1 : (selShape (τp ++ .pick (List.range n) :: τr)).getD (selShape τp).length 0 = n := by
      rw [selShape_append, selShape, List.length_range]; exact getD_middle _ _ _ _ _ rfl
    rw [hl1, hn1]
    congr 1
    apply List.map_congr_left
    intro j hj
    rw [List.mem_range] at hj
    congr 1
    have hidx : idx = idx.take (selShape τp).length ++ idx.drop (selShape τp).length := (List.take_append_drop _ _).symm
    have htl : (idx.take (selShape τp).length).length = (selShape τp).length := h1.length
    have hsl : (selSrc τp (idx.take (selShape τp).length)).length = axis := by
      rw [(selSrc_inB hτp _ h1).length, hspl]
    rw [selSrc_append h1, insertIdx_middle _ _ _ _ hsl]
    conv_lhs => rw [hidx, insertIdx_middle _ _ _ _ htl]
    rw [selSrc_append (by rw [List.take_left' htl]; exact h1), List.take_left' htl, List.drop_left' htl]
    simp only [selSrc]
    congr 2
    simp [List.getD_eq_getElem?_getD, List.getElem?_range hj]

/-! ### element-wise -/

theorem computeBcastShape_self (s : List Nat) : computeBcastShape s s = .ok s := by
  unfold computeBcastShape
  simp only [Nat.sub_self, List.replicate_zero, List.nil_append]
  rw [mapM_ok _ _ Prod.fst]
  · congr 1
    induction s with
    | nil => rfl
    | cons n s ih => simp [ih]
  · intro p hp
    have : p.1 = p.2 := by
      induction s with
      | nil => simp at hp
      | cons n s ih =>
        rw [List.zip_cons_cons, List.mem_cons] at hp
        rcases hp with rfl | hp
        · rfl
        · exact ih hp
    rw [if_pos this]

theorem bcastKwargs_self (s : List Nat) : bcastKwargs s s = ([], []) := by
  unfold bcastKwargs
  simp only [Nat.sub_self, List.drop_zero, List.take_zero, Prod.mk.injEq, and_true]
  rw [List.map_eq_nil_iff, List.filter_eq_nil_iff]
  intro p hp
  have h1 := List.fst_mem_of_mem_zipIdx hp
  have : ∀ (s : List Nat) (x : Nat × Nat), x ∈ s.zip s → x.1 = x.2 := by
    intro s
    induction s with
    | nil => intro x hx; simp at hx
    | cons n s ih =>
      intro x hx
      rw [List.zip_cons_cons, List.mem_cons] at hx
      rcases hx with rfl | hx
      · rfl
      · exact ih x hx
  simp [this s p.1 h1]

theorem mkElem2_same {a b : Arr α} {s : List Nat} (ha : a.shape = .ok s) (hb : b.shape = .ok s) (op : Op2 α) :
    mkElem2 a b op = .ok (.elem2 a b op) := by
  unfold mkElem2 broadcastArrays
  simp only [ha, hb, computeBcastShape_self, bcastKwargs_self, bcastSide, bind, Except.bind, pure, Except.pure]
  rfl

theorem dropNew_exact {fk : List Key} (h : Exact fk) : dropNew fk = fk := by
  unfold dropNew
  rw [List.filter_eq_self]
  intro k hk; simp [(h k hk).1]

theorem ortho_map {β γ : Type} (f : β → γ) (a : NDA β) (σ : List Sel) : (a.map f).ortho σ = (a.ortho σ).map f := rfl

/-! ### the theorem -/

/-- Indexing a well-formed expression with keys it supports gives a well-formed expression for the array that NumPy's
(orthogonal) indexing gives. -/
theorem getitem_ok [Inhabited α] [Inhabited V] (m : Mode α V) : ∀ a : Arr α, a.WF → ∀ ks fk r,
    expandKeys ks (a.den m).shape.length = .ok fk → a.keysOk fk → npIndex (a.den m) ks = .ok r →
    Sim m a (a.getitem ks) r
  | .adapter o c stored, hwf, ks, fk, r, hfk, hg, hr => by
    have hsh := hwf.shape_eq m
    unfold Arr.getitem
    refine arrayGetitem_ok m (a := .adapter o c stored) hwf hr ?_
    intro fk' σ hfk' he hσ
    obtain ⟨b, h1, h2, h3⟩ := adapterFull_ok m o c stored hwf hg _ σ he hσ
    refine ⟨b, h1, h2, h3, fun _ => ?_⟩
    unfold adapterFull at h1
    simp only [bind, Except.bind] at h1
    split at h1
    · cases h1
    · unfold mkAdapter at h1
      simp only [bind, Except.bind] at h1
      split at h1
      · cases h1
      · split at h1
        · cases h1
        · cases h1; trivial
  | .const s v dt, hwf, ks, fk, r, hfk, hg, hr => by
    obtain ⟨fk', σ, h1, h2, rfl⟩ := npIndex_ok_iff.mp hr
    rw [hfk] at h1; cases h1
    unfold Arr.getitem
    have hs : slicedShape s ks = .ok (selShape σ) := by
      refine C02_sliced_shape_is_numpy_shape (⟨s, fun _ => ()⟩ : NDA Unit) _ ks ?_ (npIndex_ok_iff.mpr ⟨fk, σ, hfk, h2, rfl⟩)
      intro l hl
      refine hg l ?_
      unfold expandKeys at hfk
      simp only at hfk
      rw [← List.takeWhile_append_dropWhile (p := fun k : Key => !k.isEllipsis) (l := ks), List.mem_append] at hl
      split at hfk
      · rename_i hd
        rw [hd] at hl
        split at hfk
        · cases hfk; simp at hl; simp [hl]
        · cases hfk
      · rename_i e post hd
        split at hfk
        · cases hfk
        · split at hfk
          · cases hfk
            rcases hl with hl | hl
            · simp only [List.mem_append]; exact Or.inl (Or.inl hl)
            · rw [hd] at hl
              rcases List.mem_cons.mp hl with h | h
              · have := List.head?_dropWhile_not (fun k : Key => !k.isEllipsis) ks
                rw [hd] at this
                simp [← h, Key.isEllipsis] at this
              · simp only [List.mem_append]; exact Or.inr h
          · cases hfk
    rw [hs]
    exact ⟨_, rfl, trivial, ⟨rfl, fun _ _ => rfl⟩, fun _ => trivial⟩
  | .newAxes a na, hwf, ks, fk, r, hfk, hg, hr => by
    obtain ⟨hwa, s, hs, hl⟩ := hwf
    have hden := hwa.den_shape m hs
    obtain ⟨fk', τ, h1, h2, rfl⟩ := npIndex_ok_iff.mp hr
    rw [hfk] at h1; cases h1
    match na, hl, hg with
    | c :: ns, hl, hg =>
      unfold Arr.getitem
      rw [hs]
      simp only [bind, Except.bind]
      obtain ⟨b, b1, b2, b3, b4⟩ := newAxesGetitem_ok m (inner := fun ks => a.getitem ks) (a := a) (na := c :: ns) rfl
        (by rw [hden]; simpa using hl) (keys := ks) (fk := fk) (τ := τ) hfk h2 hg.1 (by
          intro σ he hσ
          have hlen := (resolve_length he hσ).1
          have hexp : expandKeys (containedKeys c ns fk) (a.den m).shape.length = .ok (containedKeys c ns fk) :=
            expandKeys_self (fun k hk => (he k hk).2) (by rw [nConsuming_exact he, hlen])
          obtain ⟨b, b1, b2, b3, _⟩ := getitem_ok m a hwa (containedKeys c ns fk) _ _ hexp hg.2
            (npIndex_ok_iff.mpr ⟨_, σ, hexp, hσ, rfl⟩)
          exact ⟨b, b1, b2, b3⟩)
      rw [hden] at b1
      exact ⟨b, b1, b2, b3, fun _ => b4⟩
  | .bcast a d lead, hwf, ks, fk, r, hfk, hg, hr => by
    unfold Arr.getitem
    refine arrayGetitem_ok m (a := .bcast a d lead) hwf hr ?_
    intro fk' σ hfk' he hσ
    rw [hfk] at hfk'; cases hfk'
    obtain ⟨g1, g2, g3, g4⟩ := hg
    refine bcastFull_ok m hwf he hσ g1 g2 g3 ?_
    intro σ' he' hσ'
    have hlen := (resolve_length he' hσ').1
    have hexp := expandKeys_self (fun k hk => (he' k hk).2) (by rw [nConsuming_exact he', hlen])
    exact getitem_ok m a hwf.1 _ _ _ hexp g4 (npIndex_ok_iff.mpr ⟨_, σ', hexp, hσ', rfl⟩)
  | .transposed a axes, hwf, ks, fk, r, hfk, hg, hr => by
    unfold Arr.getitem
    refine arrayGetitem_ok m (a := .transposed a axes) hwf hr ?_
    intro fk' σ hfk' he hσ
    rw [hfk] at hfk'; cases hfk'
    refine transposedFull_ok m hwf he hσ ?_
    intro rem σ' hrem he' hσ'
    have hlen := (resolve_length he' hσ').1
    have hexp := expandKeys_self (fun k hk => (he' k hk).2) (by rw [nConsuming_exact he', hlen])
    exact getitem_ok m a hwf.1 _ _ _ hexp (hg rem hrem) (npIndex_ok_iff.mpr ⟨_, σ', hexp, hσ', rfl⟩)
  | .stack ss items, hwf, ks, fk, r, hfk, hg, hr => by
    unfold Arr.getitem
    refine arrayGetitem_ok m (a := .stack ss items) hwf hr ?_
    intro fk' σ hfk' he hσ
    rw [hfk] at hfk'; cases hfk'
    obtain ⟨g1, g2, g3, g4⟩ := hg
    refine stackFull_ok m hwf he hσ g1 g2 g3 ?_
    intro i σ' hi he' hσ'
    have hlen := (resolve_length he' hσ').1
    have hexp := expandKeys_self (fun k hk => (he' k hk).2) (by rw [nConsuming_exact he', hlen])
    obtain ⟨_, s, hi'⟩ := hwf
    exact getitem_ok m (items i) (hi' i hi).1 _ _ _ hexp (g4 i hi) (npIndex_ok_iff.mpr ⟨_, σ', hexp, hσ', rfl⟩)
  | .mosaic n tiles axis, hwf, ks, fk, r, hfk, hg, hr => by
    unfold Arr.getitem
    refine arrayGetitem_ok m (a := .mosaic n tiles axis) hwf hr ?_
    intro fk' σ hfk' he hσ
    rw [hfk] at hfk'; cases hfk'
    have hwf' := hwf
    obtain ⟨_, s, _, ht⟩ := hwf'
    refine mosaicFull_ok m hwf he hσ (fun t ks => (tiles t).keysOk ks) ?_ ?_
    · have : (List.range n).map (fun i => ((tiles i).den m).shape.getD axis 0) =
          (List.range n).map (fun i => (okOr (tiles i).shape []).getD axis 0) := by
        apply List.map_congr_left
        intro i hi
        rw [(ht i (by simpa using hi)).1.shape_eq m]; rfl
      rw [this]; exact hg
    · intro t ks' fk' σ' htn hexp he' hG hσ'
      exact getitem_ok m (tiles t) (ht t htn).1 ks' fk' _ hexp hG (npIndex_ok_iff.mpr ⟨_, σ', hexp, hσ', rfl⟩)
  | .asType a dt, hwf, ks, fk, r, hfk, hg, hr => by
    obtain ⟨fk', σ, h1, h2, rfl⟩ := npIndex_ok_iff.mp hr
    obtain ⟨b, b1, b2, b3, b4⟩ := getitem_ok m a hwf ks fk _ hfk hg (npIndex_ok_iff.mpr ⟨fk', σ, h1, h2, rfl⟩)
    unfold Arr.getitem
    rw [b1]
    exact ⟨_, rfl, b2, b3.map _, fun _ => trivial⟩
  | .maskVal a v, hwf, ks, fk, r, hfk, hg, hr => by
    obtain ⟨fk', σ, h1, h2, rfl⟩ := npIndex_ok_iff.mp hr
    obtain ⟨b, b1, b2, b3, b4⟩ := getitem_ok m a hwf ks fk _ hfk hg (npIndex_ok_iff.mpr ⟨fk', σ, h1, h2, rfl⟩)
    unfold Arr.getitem
    rw [b1]
    exact ⟨_, rfl, b2, b3.map _, fun _ => trivial⟩
  | .agg a axis k, hwf, ks, fk, r, hfk, hg, hr => by
    unfold Arr.getitem
    refine arrayGetitem_ok m (a := .agg a axis k) hwf hr ?_
    intro fk' σ hfk' he hσ
    rw [hfk] at hfk'; cases hfk'
    refine aggFull_ok m hwf he hσ ?_
    intro σ' he' hσ'
    have hlen := (resolve_length he' hσ').1
    have hexp := expandKeys_self (fun k hk => (he' k hk).2) (by rw [nConsuming_exact he', hlen])
    exact getitem_ok m a hwf.1 _ _ _ hexp hg (npIndex_ok_iff.mpr ⟨_, σ', hexp, hσ', rfl⟩)
  | .elem1 a op, hwf, ks, fk, r, hfk, hg, hr => by
    unfold Arr.getitem
    refine arrayGetitem_ok m (a := .elem1 a op) hwf hr ?_
    intro fk' σ hfk' he hσ
    rw [hfk] at hfk'; cases hfk'
    have hlen := (resolve_length he hσ).1
    have hexp := expandKeys_self (fun k hk => (he k hk).2) (by rw [nConsuming_exact he, hlen])
    obtain ⟨b, b1, b2, b3, b4⟩ := getitem_ok m a hwf _ _ _ hexp hg (npIndex_ok_iff.mpr ⟨_, σ, hexp, hσ, rfl⟩)
    simp only [bind, Except.bind, pure, Except.pure]
    rw [b1]
    exact ⟨_, rfl, b2, b3.map _, fun _ => trivial⟩
  | .elem2 a b op, hwf, ks, fk, r, hfk, hg, hr => by
    unfold Arr.getitem
    refine arrayGetitem_ok m (a := .elem2 a b op) hwf hr ?_
    intro fk' σ hfk' he hσ
    rw [hfk] at hfk'; cases hfk'
    obtain ⟨hwa, hwb, hab⟩ := hwf
    have hlen := (resolve_length he hσ).1
    have hexp := expandKeys_self (fun k hk => (he k hk).2) (by rw [nConsuming_exact he, hlen])
    have hsab : (a.den m).shape = (b.den m).shape := by
      rw [hwa.shape_eq m, hwb.shape_eq m] at hab; exact Except.ok.inj hab
    have hσa : resolve (dropNew fk) (a.den m).shape = .ok σ := hσ
    have hσb : resolve (dropNew fk) (b.den m).shape = .ok σ := by rw [← hsab]; exact hσ
    have hexpb : expandKeys (dropNew fk) (b.den m).shape.length = .ok (dropNew fk) := by rw [← hsab]; exact hexp
    obtain ⟨a', a1, a2, a3, a4⟩ := getitem_ok m a hwa _ _ _ hexp hg.1 (npIndex_ok_iff.mpr ⟨_, σ, hexp, hσa, rfl⟩)
    obtain ⟨b', b1, b2, b3, b4⟩ := getitem_ok m b hwb _ _ _ hexpb hg.2 (npIndex_ok_iff.mpr ⟨_, σ, hexpb, hσb, rfl⟩)
    have hsa : a'.shape = .ok (selShape σ) := by rw [a2.shape_eq m, a3.1]; rfl
    have hsb : b'.shape = .ok (selShape σ) := by rw [b2.shape_eq m, b3.1]; rfl
    simp only [bind, Except.bind]
    unfold dropNew at b1; rw [a1]; simp only; rw [b1]
    simp only
    rw [mkElem2_same hsa hsb]
    refine ⟨_, rfl, ⟨a2, b2, by rw [hsa, hsb]⟩, ⟨a3.1, fun idx hi => ?_⟩, fun _ => trivial⟩
    have ha := a3.2 idx hi
    have hb := b3.2 idx (by rw [b3.1]; have := a3.1; simp only [Arr.den, NDA.zip] at hi; rw [this] at hi; exact hi)
    simp only [Arr.den, NDA.zip, NDA.ortho] at ha hb ⊢
    rw [ha, hb]

end Biggus

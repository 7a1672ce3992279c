import Verif.Spec.Meta
import Verif.Proofs.EvalClosed
import Verif.Proofs.Constructors
import Verif.Proofs.NodeMosaic
/-
dtypes and fill values: proofs.
-/
namespace Biggus

variable {α : Type}

theorem mapM_mem {β γ : Type} {f : β → Res γ} : ∀ {l : List β} {r : List γ}, l.mapM f = .ok r → ∀ y ∈ r, ∃ x ∈ l, f x = .ok y := by
  intro l r h y hy
  have := mapM_ok_inv l f r h
  clear h
  induction this with
  | nil => cases hy
  | cons h1 h2 ih =>
    rcases List.mem_cons.mp hy with rfl | hy
    · exact ⟨_, List.mem_cons_self, h1⟩
    · obtain ⟨x, hx, hfx⟩ := ih hy
      exact ⟨x, List.mem_cons_of_mem _ hx, hfx⟩

/-! ### NumPy's fancy indexing stays in bounds -/

theorem resolve_exact_of_length : ∀ {ks : List Key} {sh : List Nat} {σ : List Sel}, resolve ks sh = .ok σ →
    nConsuming ks = sh.length ∧ ∀ k ∈ ks, k.isEllipsis = false
  | [], sh, σ, h => by obtain ⟨rfl, rfl⟩ := resolve_nil_iff.mp h; exact ⟨rfl, by simp⟩
  | k :: ks, sh, σ, h => by
    by_cases hk : k = .newaxis
    · subst hk
      obtain ⟨σ', rfl, h'⟩ := resolve_newaxis_iff.mp h
      obtain ⟨h1, h2⟩ := resolve_exact_of_length h'
      refine ⟨by simpa [nConsuming, Key.isNewaxis] using h1, ?_⟩
      intro k hk
      rcases List.mem_cons.mp hk with rfl | hk
      · rfl
      · exact h2 k hk
    · have hk' : k.isNewaxis = false := by cases k <;> simp_all [Key.isNewaxis]
      obtain ⟨n, ns, s, σ', rfl, rfl, h1, h2⟩ := (resolve_cons_iff hk').mp h
      obtain ⟨h3, h4⟩ := resolve_exact_of_length h2
      refine ⟨by simpa [nConsuming, hk'] using h3, ?_⟩
      intro x hx
      rcases List.mem_cons.mp hx with rfl | hx
      · cases x <;> simp [resolve1] at h1 <;> rfl
      · exact h4 x hx

theorem exact_of_resolve {ks : List Key} {sh : List Nat} {σ : List Sel} (hl : ks.length = sh.length) (h : resolve ks sh = .ok σ) :
    Exact ks := by
  obtain ⟨h1, h2⟩ := resolve_exact_of_length h
  intro k hk
  refine ⟨?_, h2 k hk⟩
  have : (ks.filter (fun k => !k.isNewaxis)).length = ks.length := by rw [hl]; exact h1
  have := List.length_filter_eq_length_iff.mp this k hk
  simpa using this

theorem bcastLen_mem : ∀ {ls : List Nat} {L : Nat}, bcastLen ls = some L → ∀ n ∈ ls, n = 1 ∨ n = L
  | [], L, _, n, hn => by cases hn
  | m :: ls, L, h, n, hn => by
    unfold bcastLen at h
    match h' : bcastLen ls with
    | none => rw [h'] at h; cases h
    | some M =>
      rw [h'] at h
      have ih := bcastLen_mem h'
      simp only at h
      split at h
      · rename_i hmM; cases h
        rcases List.mem_cons.mp hn with rfl | hn
        · exact Or.inr hmM
        · exact ih n hn
      · split at h
        · rename_i h1; cases h
          rcases List.mem_cons.mp hn with rfl | hn
          · exact Or.inl h1
          · exact ih n hn
        · split at h
          · rename_i h1; cases h
            rcases List.mem_cons.mp hn with rfl | hn
            · exact Or.inr rfl
            · rcases ih n hn with h | h
              · exact Or.inl h
              · exact Or.inl (h.trans h1)
          · cases h

theorem mixedSrc_inB {L : Nat} : ∀ {ks : List Key} {sh : List Nat} {σ : List Sel}, Exact ks → resolve ks sh = .ok σ →
    (∀ n ∈ (((ks.map Key.isAdv).zip σ).filter (·.1)).map (·.2.lenOf), n = 1 ∨ n = L) → ∀ b, b < L → ∀ idx,
    InB (basicDims ((ks.map Key.isAdv).zip σ)) idx → InB sh (mixedSrc ((ks.map Key.isAdv).zip σ) b idx)
  | [], sh, σ, _, h, _, b, _, idx, _ => by obtain ⟨rfl, rfl⟩ := resolve_nil_iff.mp h; trivial
  | k :: ks, sh, σ, he, h, hL, b, hb, idx, hi => by
    have hk := (he k List.mem_cons_self).1
    obtain ⟨n, ns, s, σ', rfl, rfl, h1, h2⟩ := (resolve_cons_iff hk).mp h
    have hs := resolve1_ok hk h1
    cases ha : k.isAdv with
    | true =>
      simp only [List.map_cons, List.zip_cons_cons, ha, List.filter_cons_of_pos, List.mem_cons] at hL
      simp only [List.map_cons, List.zip_cons_cons, ha, mixedSrc, basicDims] at hi ⊢
      refine ⟨?_, mixedSrc_inB he.tail h2 (fun n hn => hL n (Or.inr hn)) b hb idx hi⟩
      cases s with
      | «at» i => exact hs
      | new => exact hs.elim
      | pick l =>
        have := hL l.length (Or.inl rfl)
        simp only [advVal]
        split
        · exact hs _ (getD_mem l 0 0 (by omega))
        · exact hs _ (getD_mem l b 0 (by omega))
    | false =>
      have hsp : ∃ l, s = .pick l := by
        cases k <;> simp [Key.isAdv, Key.isArr] at ha
        · rename_i sl
          simp only [resolve1, bind, Except.bind] at h1
          split at h1
          · cases h1
          · cases h1; exact ⟨_, rfl⟩
        · simp [Key.isNewaxis] at hk
        · simp [resolve1] at h1
        · simp [resolve1] at h1
      obtain ⟨l, rfl⟩ := hsp
      simp only [List.map_cons, List.zip_cons_cons, ha] at hL
      simp only [List.map_cons, List.zip_cons_cons, ha, basicDims] at hi ⊢
      match idx, hi with
      | j :: idx, hi =>
        exact ⟨hs _ (getD_mem l j 0 hi.1), mixedSrc_inB he.tail h2 (fun n hn => hL n (by simpa using hn)) b hb idx hi.2⟩

theorem inB_erase {s1 : List Nat} {n : Nat} : ∀ {s2 idx : List Nat} {p : Nat}, s1.length = p → InB (s1 ++ [n] ++ s2) idx →
    idx.getD p 0 < n ∧ InB (s1 ++ s2) (idx.eraseIdx p) := by
  induction s1 with
  | nil =>
    intro s2 idx p hp h
    simp at hp; subst hp
    match idx, h with
    | i :: idx, h => exact ⟨h.1, h.2⟩
  | cons m s1 ih =>
    intro s2 idx p hp h
    simp at hp; subst hp
    match idx, h with
    | i :: idx, h =>
      obtain ⟨h1, h2⟩ := ih (p := s1.length) rfl h.2
      exact ⟨h1, h.1, h2⟩

theorem basicDims_takeWhile (adv : List Bool) : ∀ (σ : List Sel), adv.length = σ.length →
    (adv.takeWhile (!·)).length ≤ (basicDims (adv.zip σ)).length := by
  induction adv with
  | nil => simp
  | cons a adv ih =>
    intro σ h
    match σ, h with
    | s :: σ, h =>
      cases a with
      | true => simp
      | false =>
        have := ih σ (by simpa using h)
        simpa [basicDims] using this

/-- Everything NumPy's indexing selects is an element of the array. -/
theorem npFancy_inB {ss : List Nat} {ks : List Key} {sel : NDA (List Nat)} (h : npFancy (⟨ss, id⟩ : NDA (List Nat)) ks = .ok sel) :
    ∀ i, InB sel.shape i → InB ss (sel.get i) := by
  unfold npFancy at h
  simp only at h
  split at h
  · cases h
  rename_i hlen
  obtain ⟨σ, hσ, h⟩ := bind_ok.mp h
  have hl : (ks ++ List.replicate (ss.length - ks.length) Key.full).length = ss.length := by simp; omega
  have he := exact_of_resolve hl hσ
  generalize ks ++ List.replicate (ss.length - ks.length) Key.full = fk at *
  split at h
  · split at h
    · cases h
    · rename_i L hL
      cases h
      intro i hi
      have hlen' := resolve_length he hσ
      obtain ⟨h1, h2⟩ := inB_erase (p := if contiguousAdv (fk.map Key.isAdv) then ((fk.map Key.isAdv).takeWhile (!·)).length else 0) (by
        rw [List.length_take]
        split
        · exact Nat.min_eq_left (basicDims_takeWhile _ _ (by simp [hlen'.1, hlen'.2]))
        · simp) hi
      rw [List.take_append_drop] at h2
      exact mixedSrc_inB he hσ (bcastLen_mem hL) _ h1 _ h2
  · cases h
    exact selSrc_inB hσ

/-! ### `sliced_shape` empty means all keys are integers -/

theorem slicedShapeLoop_nil : ∀ {ks : List Key} {sh : List Nat}, slicedShapeLoop ks sh = .ok [] → ∀ k ∈ ks, k.isScalar = true
  | [], _, _, k, hk => by cases hk
  | k :: ks, sh, h, x, hx => by
    cases k with
    | int i =>
      rcases List.mem_cons.mp hx with rfl | hx
      · rfl
      · exact slicedShapeLoop_nil (by simpa [slicedShapeLoop] using h) x hx
    | _ =>
      exfalso
      simp only [slicedShapeLoop] at h
      repeat' split at h
      all_goals first
        | (cases h; done)
        | (simp only [bind, Except.bind] at h
           repeat' split at h
           all_goals cases h)

/-! ### invariants under indexing -/

theorem newAxesGetitem_inv {P : Arr α → Prop} {inner : List Key → Res (Arr α)} {n : Nat} {na : List Nat} {keys : List Key} {b : Arr α}
    (hin : ∀ ks b, inner ks = .ok b → P b) (hna : ∀ a na, P a → P (.newAxes a na)) (hb : ∀ a d l, P a → P (.bcast a d l))
    (h : newAxesGetitem inner n na keys = .ok b) : P b := by
  unfold newAxesGetitem at h
  obtain ⟨_, _, h⟩ := bind_ok.mp h
  obtain ⟨st, _, h⟩ := bind_ok.mp h
  obtain ⟨c, hc, h⟩ := bind_ok.mp h
  obtain ⟨r, hr, h⟩ := bind_ok.mp h
  have hr' : r = .newAxes c (combineAxes st.combine st.newAxes) := by
    unfold mkNewAxes at hr
    obtain ⟨_, _, hr⟩ := bind_ok.mp hr
    split at hr
    · cases hr
    · cases hr; rfl
  subst hr'
  split at h
  · cases h; exact hna _ _ (hin _ _ hc)
  · obtain ⟨x, d', l', rfl, hx⟩ := mkBcast_form h
    rcases hx with rfl | ⟨_, _, hx⟩
    · exact hb _ _ _ (hna _ _ (hin _ _ hc))
    · cases hx

theorem arrayGetitem_inv {P : Arr α → Prop} {full : List Key → Res (Arr α)} {shape : Res (List Nat)} {keys : List Key} {b : Arr α}
    (hin : ∀ ks b, full ks = .ok b → P b) (hna : ∀ a na, P a → P (.newAxes a na)) (hb : ∀ a d l, P a → P (.bcast a d l))
    (h : arrayGetitem full shape keys = .ok b) : P b := by
  unfold arrayGetitem at h
  obtain ⟨s, _, h⟩ := bind_ok.mp h
  obtain ⟨fk, _, h⟩ := bind_ok.mp h
  split at h
  · refine newAxesGetitem_inv (inner := fun ks => do let fk ← fullKeys ks s.length; full fk) ?_ hna hb h
    intro ks b hb'
    obtain ⟨_, _, hb'⟩ := bind_ok.mp hb'
    exact hin _ _ hb'
  · exact hin _ _ h

theorem tileIndex_lt {lens : List Nat} (h : 0 < lens.length) (i : Int) : tileIndex lens i < lens.length := by
  unfold tileIndex
  have : (tileOffsets lens).countP (fun (o : Nat) => decide ((o : Int) ≤ i)) ≤ (tileOffsets lens).length := List.countP_le_length
  have hl : (tileOffsets lens).length = lens.length := by simp [tileOffsets]
  split
  · omega
  · rename_i k hk; omega

theorem groupTiles_fst {lens : List Nat} (h : 0 < lens.length) : ∀ (is : List Int), ∀ g ∈ groupTiles lens is, g.1 < lens.length
  | [], g, hg => by cases hg
  | i :: is, g, hg => by
    unfold groupTiles at hg
    simp only at hg
    have ih := groupTiles_fst h is
    split at hg
    · rename_i t' g' rest heq
      rw [heq] at ih
      split at hg
      · rcases List.mem_cons.mp hg with rfl | hg
        · exact tileIndex_lt h i
        · exact ih g (List.mem_cons_of_mem _ hg)
      · rcases List.mem_cons.mp hg with rfl | hg
        · exact tileIndex_lt h i
        · exact ih g hg
    · rcases List.mem_cons.mp hg with rfl | hg
      · exact tileIndex_lt h i
      · cases hg

/-- Same dtype, and consistent. -/
def HasDtype (T : DTypes α) (d : Nat) (a : Arr α) : Prop := a.dtype T = d ∧ a.DtypeOk T

theorem hasDtype_bcast {T : DTypes α} {d : Nat} {sub b : Arr α} {di : List (Nat × Nat)} {lead : List Nat}
    (hs : HasDtype T d sub) (h : mkBcast sub di lead = .ok b) : HasDtype T d b := by
  obtain ⟨x, d', l', rfl, hx⟩ := mkBcast_form h
  rcases hx with rfl | ⟨_, _, rfl⟩
  · exact hs
  · exact hs

theorem hasDtype_mosaic [Inhabited α] {T : DTypes α} {d : Nat} {tiles : List (Arr α)} {axis : Nat} {b : Arr α}
    (hs : ∀ t ∈ tiles, HasDtype T d t) (h : mkMosaic tiles axis = .ok b) : HasDtype T d b := by
  obtain ⟨hne, _, rfl⟩ := mkMosaic_iff.mp h
  have hpos : 0 < tiles.length := List.length_pos_iff.mpr hne
  have hg : ∀ i, i < tiles.length → HasDtype T d (tiles.getD i default) := fun i hi => hs _ (getD_mem tiles i default hi)
  refine ⟨(hg 0 hpos).1, hpos, ?_, fun i hi => (hg i hi).2⟩
  intro i j hi hj
  rw [(hg i hi).1, (hg j hj).1]

theorem hasDtype_mosaicFull [Inhabited α] {T : DTypes α} {d : Nat} {inner : Nat → List Key → Res (Arr α)} {tshape : Nat → Res (List Nat)}
    {n axis : Nat} {fk : List Key} {b : Arr α} (hn : 0 < n) (hin : ∀ i, i < n → ∀ ks b, inner i ks = .ok b → HasDtype T d b)
    (h : mosaicFull inner tshape n axis fk = .ok b) : HasDtype T d b := by
  unfold mosaicFull at h
  simp only at h
  split at h
  · obtain ⟨tiles, ht, h⟩ := bind_ok.mp h
    refine hasDtype_mosaic ?_ h
    intro t htm
    obtain ⟨i, hi, h⟩ := mapM_mem ht t htm
    exact hin i (List.mem_range.mp hi) _ _ h
  · obtain ⟨lens, hl, h⟩ := bind_ok.mp h
    have hlen : lens.length = n := by
      have := (mapM_ok_inv _ _ _ hl).length_eq
      simpa using this.symm
    have hpos : 0 < lens.length := by omega
    have many : ∀ is rev, mosaicMany inner lens axis (trimKeys fk) is rev = .ok b → HasDtype T d b := by
      intro is rev h
      unfold mosaicMany at h
      obtain ⟨tiles, ht, h⟩ := bind_ok.mp h
      refine hasDtype_mosaic ?_ h
      have hall : ∀ t ∈ tiles, HasDtype T d t := by
        intro t htm
        obtain ⟨g, hg, h⟩ := mapM_mem ht t htm
        refine hin g.1 ?_ _ _ h
        rw [← hlen]
        exact groupTiles_fst hpos is g hg
      intro t htm
      split at htm
      · exact hall t (List.mem_reverse.mp htm)
      · exact hall t htm
    unfold mosaicAxis at h
    split at h
    · exact hin _ (by rw [← hlen]; exact tileIndex_lt hpos _) _ _ h
    · obtain ⟨_, _, h⟩ := bind_ok.mp h
      exact many _ _ h
    · exact many _ _ h
    · exact many _ _ h
    · exact many _ _ h
    · split at h <;> cases h
    · cases h

theorem selShape_scalars : ∀ {ks : List Key} {ss : List Nat} {σ : List Sel}, (∀ k ∈ ks, k.isScalar = true) → resolve ks ss = .ok σ →
    selShape σ = []
  | [], ss, σ, _, h => by obtain ⟨rfl, rfl⟩ := resolve_nil_iff.mp h; rfl
  | k :: ks, ss, σ, hall, h => by
    have hk := hall k List.mem_cons_self
    cases k with
    | int i =>
      obtain ⟨n, ns, s, σ', rfl, rfl, h1, h2⟩ := (resolve_cons_iff (k := .int i) rfl).mp h
      simp only [resolve1] at h1
      split at h1
      · cases h1
        show selShape σ' = []
        exact selShape_scalars (ks := ks) (fun k hk => hall k (List.mem_cons_of_mem _ hk)) h2
      · cases h1
    | _ => cases hk

theorem npFancy_scalars {ss : List Nat} {sk : List Key} {sel : NDA (List Nat)} (hrs : slicedShape ss sk = .ok [])
    (hsel : npFancy (⟨ss, id⟩ : NDA (List Nat)) sk = .ok sel) : InB sel.shape [] := by
  unfold slicedShape at hrs
  obtain ⟨fk', hfk', hrs⟩ := bind_ok.mp hrs
  have hsc := slicedShapeLoop_nil hrs
  unfold npFancy at hsel
  simp only at hsel
  split at hsel
  · cases hsel
  rename_i hlen
  obtain ⟨σ, hσ, hsel⟩ := bind_ok.mp hsel
  have hl : (sk ++ List.replicate (ss.length - sk.length) Key.full).length = ss.length := by
    simp only [List.length_append, List.length_replicate]; omega
  have he := exact_of_resolve hl hσ
  have hesk : Exact sk := fun k hk => he k (List.mem_append_left _ hk)
  have hall : ∀ k ∈ sk ++ List.replicate (ss.length - sk.length) Key.full, k.isScalar = true := by
    have hp := expandKeys_pad (r := ss.length - sk.length) hesk
    rw [show sk.length + (ss.length - sk.length) = ss.length by omega] at hp
    have := fullKeys_of_expandKeys _ _ _ hp
    rw [this] at hfk'
    cases hfk'
    exact hsc
  have hna : (sk ++ List.replicate (ss.length - sk.length) Key.full).any Key.isArr = false := by
    rw [List.any_eq_false]
    intro k hk
    have := hall k hk
    cases k with
    | int i => simp [Key.isArr]
    | _ => cases this
  rw [if_neg (by rw [hna]; simp)] at hsel
  cases hsel
  show InB (selShape σ) []
  rw [selShape_scalars hall hσ]; trivial

theorem hasDtype_stackFull {T : DTypes α} {d : Nat} {inner : List Nat → List Key → Res (Arr α)} {ss : List Nat} {items : List Nat → Arr α}
    {fk : List Key} {b : Arr α} (hit : ∀ i, InB ss i → HasDtype T d (items i))
    (hin : ∀ i, InB ss i → ∀ ks b, inner i ks = .ok b → HasDtype T d b)
    (h : stackFull inner ss items fk = .ok b) : HasDtype T d b := by
  unfold stackFull at h
  simp only at h
  obtain ⟨rs, hrs, h'⟩ := bind_ok.mp h
  clear h
  obtain ⟨sel, hsel, h⟩ := bind_ok.mp h'
  clear h'
  have hb := npFancy_inB hsel
  split at h
  · rename_i hre
    have hrs0 : rs = [] := by simpa using hre
    subst hrs0
    refine hin _ (hb [] ?_) _ _ h
    exact npFancy_scalars hrs hsel
  · obtain ⟨us, hus, h⟩ := bind_ok.mp h
    obtain ⟨hne, _, rfl⟩ := mkStack_iff.mp h
    have hitem : ∀ i, InB sel.shape i → HasDtype T d
        (if i ∈ ndindex rs then okOr (inner (sel.get i) (fk.drop ss.length)) (items (sel.get i)) else items (sel.get i)) := by
      intro i hi
      split
      · cases hr : inner (sel.get i) (fk.drop ss.length) with
        | ok c => exact hin _ (hb i hi) _ _ hr
        | error e => exact hit _ (hb i hi)
      · exact hit _ (hb i hi)
    have hz := inB_zeros _ hne
    refine ⟨(hitem _ hz).1, hne, ?_, fun i hi => (hitem i hi).2⟩
    intro i j hi hj
    rw [(hitem i hi).1, (hitem j hj).1]

theorem hasDtype_elem2 {T : DTypes α} {a b c : Arr α} {da db : Nat} {op : Op2 α} (ha : HasDtype T da a) (hb : HasDtype T db b)
    (h : mkElem2 a b op = .ok c) : HasDtype T (T.op2 op da db) c := by
  unfold mkElem2 at h
  obtain ⟨⟨a', b'⟩, hab, h⟩ := bind_ok.mp h
  cases h
  unfold broadcastArrays at hab
  obtain ⟨sa, _, hab⟩ := bind_ok.mp hab
  obtain ⟨sb, _, hab⟩ := bind_ok.mp hab
  obtain ⟨full, _, hab⟩ := bind_ok.mp hab
  obtain ⟨x, hx, hab⟩ := bind_ok.mp hab
  obtain ⟨y, hy, hab⟩ := bind_ok.mp hab
  cases hab
  have side : ∀ {e e' : Arr α} {d : Nat} {kw}, HasDtype T d e → bcastSide e kw = .ok e' → HasDtype T d e' := by
    intro e e' d kw he h
    unfold bcastSide at h
    split at h
    · cases h; exact he
    · exact hasDtype_bcast he h
  have h1 := side ha hx
  have h2 := side hb hy
  refine ⟨?_, h1.2, h2.2⟩
  show T.op2 op (a'.dtype T) (b'.dtype T) = _
  rw [h1.1, h2.1]

/-- Indexing keeps the dtype, and the parts stay consistent. -/
theorem getitem_dtype [Inhabited α] (T : DTypes α) : ∀ (a : Arr α), a.DtypeOk T → ∀ ks b, a.getitem ks = .ok b → HasDtype T (a.dtype T) b
  | .adapter o c stored, _, ks, b, h => by
    unfold Arr.getitem at h
    refine arrayGetitem_inv (P := HasDtype T c.dtype) ?_ (fun _ _ h => h) (fun _ _ _ h => h) h
    intro ks b h
    unfold adapterFull at h
    obtain ⟨r, _, h⟩ := bind_ok.mp h
    unfold mkAdapter at h
    simp only at h
    split at h
    · cases h
    · obtain ⟨_, _, h⟩ := bind_ok.mp h
      cases h
      exact ⟨rfl, trivial⟩
  | .const s v dt, _, ks, b, h => by
    unfold Arr.getitem at h
    obtain ⟨_, _, h⟩ := bind_ok.mp h
    cases h
    exact ⟨rfl, trivial⟩
  | .newAxes a na, hd, ks, b, h => by
    unfold Arr.getitem at h
    obtain ⟨s, _, h⟩ := bind_ok.mp h
    exact newAxesGetitem_inv (P := HasDtype T (a.dtype T)) (fun ks b h => getitem_dtype T a hd ks b h) (fun _ _ h => h) (fun _ _ _ h => h) h
  | .bcast a d lead, hd, ks, b, h => by
    unfold Arr.getitem at h
    refine arrayGetitem_inv (P := HasDtype T (a.dtype T)) ?_ (fun _ _ h => h) (fun _ _ _ h => h) h
    intro ks b h
    unfold bcastFull at h
    obtain ⟨_, _, h⟩ := bind_ok.mp h
    obtain ⟨_, _, h⟩ := bind_ok.mp h
    obtain ⟨_, _, h⟩ := bind_ok.mp h
    obtain ⟨⟨ak, d'⟩, _, h⟩ := bind_ok.mp h
    obtain ⟨sub, hsub, h⟩ := bind_ok.mp h
    refine hasDtype_bcast ?_ h
    unfold bcastSub at hsub
    obtain ⟨f, _, hsub⟩ := bind_ok.mp hsub
    split at hsub
    · cases hsub; exact ⟨rfl, hd⟩
    · exact getitem_dtype T a hd _ _ hsub
  | .transposed a axes, hd, ks, b, h => by
    unfold Arr.getitem at h
    refine arrayGetitem_inv (P := HasDtype T (a.dtype T)) ?_ (fun _ _ h => h) (fun _ _ _ h => h) h
    intro ks b h
    unfold transposedFull at h
    obtain ⟨rem, _, h⟩ := bind_ok.mp h
    obtain ⟨c, hc, h⟩ := bind_ok.mp h
    unfold mkTransposed at h
    obtain ⟨_, _, h⟩ := bind_ok.mp h
    split at h
    · cases h
    · cases h
      exact getitem_dtype T a hd rem c hc
  | .stack ss items, hd, ks, b, h => by
    unfold Arr.getitem at h
    obtain ⟨hne, hsame, hok⟩ := hd
    have hz := inB_zeros ss hne
    refine arrayGetitem_inv (P := HasDtype T ((items (ss.map (fun _ => 0))).dtype T)) ?_ (fun _ _ h => h) (fun _ _ _ h => h) h
    intro ks b h
    refine hasDtype_stackFull (fun i hi => ⟨hsame i _ hi hz, hok i hi⟩) ?_ h
    intro i hi ks b h
    have := getitem_dtype T (items i) (hok i hi) ks b h
    rw [hsame i _ hi hz] at this
    exact this
  | .mosaic n tiles axis, hd, ks, b, h => by
    unfold Arr.getitem at h
    obtain ⟨hn, hsame, hok⟩ := hd
    refine arrayGetitem_inv (P := HasDtype T ((tiles 0).dtype T)) ?_ (fun _ _ h => h) (fun _ _ _ h => h) h
    intro ks b h
    refine hasDtype_mosaicFull hn ?_ h
    intro i hi ks b h
    have := getitem_dtype T (tiles i) (hok i hi) ks b h
    rw [hsame i 0 hi hn] at this
    exact this
  | .asType a dt, hd, ks, b, h => by
    unfold Arr.getitem at h
    obtain ⟨c, hc, h⟩ := bind_ok.mp h
    cases h
    exact ⟨rfl, (getitem_dtype T a hd ks c hc).2⟩
  | .maskVal a v, hd, ks, b, h => by
    unfold Arr.getitem at h
    obtain ⟨c, hc, h⟩ := bind_ok.mp h
    cases h
    exact getitem_dtype T a hd ks c hc
  | .agg a axis k, hd, ks, b, h => by
    unfold Arr.getitem at h
    refine arrayGetitem_inv (P := HasDtype T (k.dtype T (a.dtype T))) ?_ (fun _ _ h => h) (fun _ _ _ h => h) h
    intro ks b h
    unfold aggFull at h
    obtain ⟨c, hc, h⟩ := bind_ok.mp h
    cases h
    have := getitem_dtype T a hd _ _ hc
    exact ⟨by show k.dtype T (c.dtype T) = _; rw [this.1], this.2⟩
  | .elem1 a op, hd, ks, b, h => by
    unfold Arr.getitem at h
    refine arrayGetitem_inv (P := HasDtype T (T.op1 op (a.dtype T))) ?_ (fun _ _ h => h) (fun _ _ _ h => h) h
    intro ks b h
    obtain ⟨c, hc, h⟩ := bind_ok.mp h
    cases h
    have := getitem_dtype T a hd _ _ hc
    exact ⟨by show T.op1 op (c.dtype T) = _; rw [this.1], this.2⟩
  | .elem2 a b op, hd, ks, r, h => by
    unfold Arr.getitem at h
    refine arrayGetitem_inv (P := HasDtype T (T.op2 op (a.dtype T) (b.dtype T))) ?_ (fun _ _ h => h) (fun _ _ _ h => h) h
    intro ks r h
    obtain ⟨c, hc, h⟩ := bind_ok.mp h
    obtain ⟨d, hdd, h⟩ := bind_ok.mp h
    exact hasDtype_elem2 (getitem_dtype T a hd.1 _ _ hc) (getitem_dtype T b hd.2 _ _ hdd) h

end Biggus

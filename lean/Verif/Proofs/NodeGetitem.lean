import Verif.Proofs.NodeNewAxes
/-
`NewAxesArray.__getitem__` and the shared `Array.__getitem__`.
-/
namespace Biggus

variable {α V : Type}

theorem naShape_length {na s : List Nat} (h : na.length = s.length + 1) :
    (naShape na s).length = na.sum + s.length := by
  induction s generalizing na with
  | nil =>
    match na, h with
    | [n], _ => simp [naShape]
  | cons x s ih =>
    match na, h with
    | n :: ns, h => simp [naShape, ih (na := ns) (by simpa using h)]; omega

theorem insertAxes_congr {A B : NDA V} {na : List Nat} (h : A ≈ₐ B) (hna : na.length = A.shape.length + 1) :
    A.insertAxes na ≈ₐ B.insertAxes na := by
  refine ⟨by simp [NDA.insertAxes, h.1], fun idx hi => h.2 _ ?_⟩
  simp only [NDA.insertAxes] at hi
  generalize A.shape = s at hna hi
  induction s generalizing na idx with
  | nil =>
    match na, hna with
    | [n], _ => trivial
  | cons x s ih =>
    match na, hna with
    | n :: n' :: ns, hna =>
      simp only [naShape] at hi
      obtain ⟨_, hi2⟩ := inB_split hi
      rw [List.length_replicate] at hi2
      simp only [naStrip]
      cases hd : idx.drop n with
      | nil => rw [hd] at hi2; exact hi2.elim
      | cons i r =>
        rw [hd] at hi2
        exact ⟨hi2.1, ih (na := n' :: ns) r (by simpa using hna) hi2.2⟩

/-- Exact full-length keys expand to themselves. -/
theorem expandKeys_self {fk : List Key} {n : Nat} (he : ∀ k ∈ fk, k.isEllipsis = false) (hn : nConsuming fk = n) :
    expandKeys fk n = .ok fk := by
  rw [expandKeys_noEllipsis fk n (by simpa using he), if_pos (by omega), hn]
  simp

theorem newAxesGetitem_ok [Inhabited V] (m : Mode α V) {inner : List Key → Res (Arr α)} {a : Arr α}
    {na : List Nat} {c : Nat} {ns : List Nat} (hna : na = c :: ns)
    (hl : ns.length = (a.den m).shape.length) {keys fk : List Key} {τ : List Sel}
    (hfk : expandKeys keys (naShape na (a.den m).shape).length = .ok fk)
    (hτ : resolve fk (naShape na (a.den m).shape) = .ok τ) (hg : naKeysOk false c ns fk)
    (hin : ∀ σ, Exact (containedKeys c ns fk) → resolve (containedKeys c ns fk) (a.den m).shape = .ok σ →
      ∃ b, inner (containedKeys c ns fk) = .ok b ∧ b.WF ∧ b.den m ≈ₐ (a.den m).ortho σ) :
    ∃ b, newAxesGetitem inner (a.den m).shape.length na keys = .ok b ∧ b.WF ∧
      b.den m ≈ₐ ((a.den m).insertAxes na).ortho τ ∧ b.noLead := by
  subst hna
  obtain ⟨hE, _⟩ := expandKeys_spec hfk
  obtain ⟨st, f1, f2, f3, f4, f5⟩ := naFold (p := 0) (o := 0) (P := []) (C0 := []) (K0 := []) (D0 := []) hl hg hτ
  obtain ⟨σ, s1, s2, s3, s4, s5, s6, _⟩ := naSem (p := 0) hl hg hτ
  obtain ⟨b, hb1, hb2, hb3⟩ := hin σ (containedKeys_exact hE c ns) s1
  simp only [List.nil_append, List.length_nil, Nat.add_zero, List.map_id', addHead_zero] at f1 f2 f3 f4 f5
  have hbs : (b.den m).shape = selShape σ := hb3.1
  have hbshape : b.shape = .ok (selShape σ) := by rw [hb2.shape_eq m, hbs]
  have hmk : mkNewAxes b (combineAxes st.combine st.newAxes) = .ok (.newAxes b (naOut c ns fk)) := by
    unfold mkNewAxes
    rw [hbshape, f2, f4, combine_naRaw]
    simp only [bind, Except.bind]
    rw [if_neg (by omega)]; rfl
  have hwf : (Arr.newAxes b (naOut c ns fk)).WF := ⟨hb2, _, hbshape, s2⟩
  have hden : (Arr.newAxes b (naOut c ns fk)).den m ≈ₐ ((a.den m).ortho σ).insertAxes (naOut c ns fk) :=
    insertAxes_congr hb3 (by rw [hbs]; exact s2)
  have hdenshape : ((Arr.newAxes b (naOut c ns fk)).den m).shape = naShape (naOut c ns fk) (selShape σ) := hden.1
  have hgoal : (((a.den m).ortho σ).insertAxes (naOut c ns fk)).stretch (naDict 0 c ns fk) [] ≈ₐ
      ((a.den m).insertAxes (c :: ns)).ortho τ := by
    refine ⟨s5, fun idx hi => ?_⟩
    simp only [NDA.stretch, NDA.ortho, NDA.insertAxes, List.nil_append, List.length_nil, List.drop_zero] at hi ⊢
    rw [s6 idx (by rw [← s5]; exact hi)]
  have hres : newAxesGetitem inner (a.den m).shape.length (c :: ns) keys =
      if (naDict 0 c ns fk).isEmpty then .ok (.newAxes b (naOut c ns fk))
      else mkBcast (.newAxes b (naOut c ns fk)) (naDict 0 c ns fk) [] := by
    unfold newAxesGetitem
    rw [naShape_length (by simpa using hl)] at hfk
    rw [fullKeys_of_expandKeys keys fk _ hfk]
    simp only [bind, Except.bind]
    rw [← hl, naInsert_true]
    simp only [Nat.zero_add] at f1
    rw [f1]
    simp only [f3, hb1, hmk, f5]
    rfl
  rw [hres]
  by_cases hd : naDict 0 c ns fk = []
  · rw [hd] at hgoal ⊢
    refine ⟨_, rfl, hwf, hden.trans (NDA.Eqv.trans ?_ hgoal), trivial⟩
    refine ⟨?_, fun idx _ => ?_⟩
    · simp [NDA.stretch, bcShape_nil]
    · simp [NDA.stretch, bcIdx_nil]
  · rw [if_neg (by simpa using hd)]
    have h1 : ∀ p ∈ naDict 0 c ns fk, ((Arr.newAxes b (naOut c ns fk)).den m).shape[p.1]? = some 1 := by
      intro p hp; rw [hdenshape]; simpa using (s4 p hp).2
    obtain ⟨b', hb1', hb2', hb3', hb4'⟩ := mkBcast_ok m (lead := []) hwf trivial s3 h1 (by simp)
    exact ⟨b', hb1', hb2', hb3'.trans ((stretch_congr hden h1).trans hgoal), hb4' rfl⟩

theorem containedKeys_zeros (n : Nat) (fk : List Key) (h : nConsuming fk = n) :
    containedKeys 0 (List.replicate n 0) fk = fk.filter (fun k => !k.isNewaxis) := by
  induction fk generalizing n with
  | nil => simp [containedKeys]
  | cons k fk ih =>
    rw [nConsuming_cons] at h
    by_cases hk : k = .newaxis
    · subst hk
      simp only [containedKeys, List.filter_cons]
      rw [ih n (by simpa [Key.isNewaxis] using h)]
      simp [Key.isNewaxis]
    · have hk' : k.isNewaxis = false := by cases k <;> simp_all [Key.isNewaxis]
      rw [hk'] at h
      obtain ⟨n', rfl⟩ : ∃ n', n = n' + 1 := ⟨n - 1, by simp at h; omega⟩
      rw [List.replicate_succ, containedKeys, ih n' (by simp at h; omega)]
      · simp [hk']
      · exact hk

theorem naKeysOk_zeros (seen : Bool) (n : Nat) (fk : List Key) : naKeysOk seen 0 (List.replicate n 0) fk := by
  induction fk generalizing n seen with
  | nil => simp [naKeysOk]
  | cons k fk ih =>
    by_cases hk : k = .newaxis
    · subst hk; simp only [naKeysOk]; exact ih _ _
    · cases n with
      | zero => rw [List.replicate_zero, naKeysOk]; trivial; exact hk
      | succ n => rw [List.replicate_succ, naKeysOk]; exact ih _ _; exact hk

theorem naShape_zeros (s : List Nat) : naShape (List.replicate (s.length + 1) 0) s = s := by
  induction s with
  | nil => rfl
  | cons x s ih => rw [List.length_cons, List.replicate_succ, naShape, ih]; rfl

theorem naStrip_zeros (n : Nat) (idx : List Nat) (h : idx.length = n) :
    naStrip (List.replicate (n + 1) 0) idx = idx := by
  induction n generalizing idx with
  | zero => rw [List.length_eq_zero_iff.mp h]; rfl
  | succ n ih =>
    cases idx with
    | nil => simp at h
    | cons i idx =>
      rw [List.replicate_succ, List.replicate_succ, naStrip_zero, ← List.replicate_succ, ih idx (by simpa using h)]

/-- The shared `__getitem__`: it suffices that `_getitem_full_keys` is right for exact keys. -/
theorem arrayGetitem_ok [Inhabited V] (m : Mode α V) {full : List Key → Res (Arr α)} {a : Arr α} (hwf : a.WF)
    {keys : List Key} {r : NDA V} (hr : npIndex (a.den m) keys = .ok r)
    (hin : ∀ fk σ, expandKeys keys (a.den m).shape.length = .ok fk →
      Exact (fk.filter (fun k => !k.isNewaxis)) →
      resolve (fk.filter (fun k => !k.isNewaxis)) (a.den m).shape = .ok σ →
      Sim m a (full (fk.filter (fun k => !k.isNewaxis))) ((a.den m).ortho σ)) :
    Sim m a (arrayGetitem full a.shape keys) r := by
  obtain ⟨fk, τ, hfk, hτ, rfl⟩ := npIndex_ok_iff.mp hr
  obtain ⟨hE, hC⟩ := expandKeys_spec hfk
  have hsh := hwf.shape_eq m
  unfold arrayGetitem
  rw [hsh]
  simp only [bind, Except.bind, fullKeys_of_expandKeys keys fk _ hfk]
  by_cases hn : fk.any Key.isNewaxis = true
  · rw [if_pos hn]
    have hexp : expandKeys fk (a.den m).shape.length = .ok fk := expandKeys_self hE hC
    have hgoal := newAxesGetitem_ok m (a := a) (na := List.replicate ((a.den m).shape.length + 1) 0)
      (c := 0) (ns := List.replicate (a.den m).shape.length 0) (List.replicate_succ) (by simp)
      (keys := fk) (fk := fk) (τ := τ)
      (inner := fun ks => do let fk ← fullKeys ks (a.den m).shape.length; full fk)
      (by rw [naShape_zeros]; exact hexp) (by rw [naShape_zeros]; exact hτ) (naKeysOk_zeros _ _ _) (by
        intro σ he hσ
        rw [containedKeys_zeros _ fk hC] at he hσ ⊢
        obtain ⟨b, h1, h2, h3, _⟩ := hin fk σ hfk he hσ
        refine ⟨b, ?_, h2, h3⟩
        have hcl : nConsuming (fk.filter (fun k => !k.isNewaxis)) = (a.den m).shape.length := by
          rw [← hC]; unfold nConsuming; simp
        rw [fullKeys_of_expandKeys _ _ _ (expandKeys_self (fun k hk => (he k hk).2) hcl)]
        exact h1)
    obtain ⟨b, hb1, hb2, hb3, hb4⟩ := hgoal
    refine ⟨b, hb1, hb2, hb3.trans ?_, fun _ => hb4⟩
    refine ⟨rfl, fun idx hi => ?_⟩
    simp only [NDA.ortho, NDA.insertAxes]
    congr 1
    exact naStrip_zeros _ _ (selSrc_inB hτ idx hi).length
  · rw [if_neg hn]
    have hfilter : fk.filter (fun k => !k.isNewaxis) = fk := by
      rw [List.filter_eq_self]
      intro k hk
      simp only [Bool.not_eq_true', Bool.not_eq_true] at hn ⊢
      simpa using List.any_eq_false.mp hn k hk
    have := hin fk τ hfk (by
      rw [hfilter]
      intro k hk
      exact ⟨by simpa using List.any_eq_false.mp (by simpa using hn) k hk, hE k hk⟩) (by rw [hfilter]; exact hτ)
    rw [hfilter] at this
    exact this

end Biggus

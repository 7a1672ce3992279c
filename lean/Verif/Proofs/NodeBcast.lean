import Verif.Proofs.NodeAdapter
/-
Indexing a broadcast array.
-/
namespace Biggus

variable {α V : Type}

/-- `res` is a well-formed array standing for `r`; if `a` has no reachable leading broadcast dimensions,
neither has the result. -/
def Sim [Inhabited V] (m : Mode α V) (a : Arr α) (res : Res (Arr α)) (r : NDA V) : Prop :=
  ∃ b, res = .ok b ∧ b.WF ∧ b.den m ≈ₐ r ∧ (a.noLead → b.noLead)

theorem lookup_some_mem {d : List (Nat × Nat)} {q v : Nat} (h : d.lookup q = some v) : (q, v) ∈ d := by
  induction d with
  | nil => cases h
  | cons x d ih =>
    rw [List.lookup_cons] at h
    split at h
    · rename_i he
      have : q = x.1 := by simpa using he
      cases h; subst this; exact List.mem_cons_self
    · exact List.mem_cons_of_mem _ (ih h)

theorem lookup_isSome_iff (d : List (Nat × Nat)) (q : Nat) : (d.lookup q).isSome = d.any (fun p => p.1 == q) := by
  induction d with
  | nil => rfl
  | cons x d ih =>
    rw [List.lookup_cons, List.any_cons]
    by_cases h : q = x.1
    · subst h; simp
    · rw [show (q == x.1) = false by simpa using h, show (x.1 == q) = false by simpa using fun e => h e.symm]
      simpa using ih

theorem lookup_append (d d' : List (Nat × Nat)) (q : Nat) :
    (d ++ d').lookup q = (d.lookup q).or (d'.lookup q) := by
  induction d with
  | nil => simp
  | cons x d ih =>
    rw [List.cons_append, List.lookup_cons, List.lookup_cons]
    split
    · rfl
    · exact ih

theorem lookup_filter (d : List (Nat × Nat)) (p : Nat → Bool) (q : Nat) :
    (d.filter (fun x => p x.1)).lookup q = if p q then d.lookup q else none := by
  induction d with
  | nil => simp
  | cons x d ih =>
    rw [List.filter_cons]
    by_cases hx : p x.1
    · rw [if_pos hx, List.lookup_cons, List.lookup_cons]
      by_cases h : q = x.1
      · subst h; simp [hx]
      · rw [show (q == x.1) = false by simpa using h]; exact ih
    · rw [if_neg hx, ih, List.lookup_cons]
      by_cases h : q = x.1
      · subst h; simp [hx]
      · rw [show (q == x.1) = false by simpa using h]

theorem lookup_dictUpdate (d d' : List (Nat × Nat)) (q : Nat) :
    (dictUpdate d d').lookup q = (d'.lookup q).or (d.lookup q) := by
  unfold dictUpdate
  rw [lookup_append, lookup_filter d (fun k => !(d'.any (fun x => x.1 == k)))]
  have := lookup_isSome_iff d' q
  cases h : d'.lookup q with
  | none =>
    rw [h] at this
    rw [← this]; simp
  | some v =>
    rw [h] at this
    rw [← this]; simp

theorem bcShape_congr {d d' : List (Nat × Nat)} {p p' : Nat} {s : List Nat}
    (h : ∀ i, i < s.length → d.lookup (p + i) = d'.lookup (p' + i)) : bcShape d p s = bcShape d' p' s := by
  apply List.ext_getElem?
  intro i
  rw [bcShape_getElem?, bcShape_getElem?]
  rcases Nat.lt_or_ge i s.length with hi | hi
  · rw [h i hi]
  · rw [List.getElem?_eq_none hi]; rfl

theorem bcIdx_length (d : List (Nat × Nat)) (p : Nat) (s : List Nat) : (bcIdx d p s).length = s.length := by
  induction s generalizing p with
  | nil => rfl
  | cons n s ih => simp [bcIdx, ih]

theorem bcIdx_getElem? (d : List (Nat × Nat)) (p : Nat) (s : List Nat) (i : Nat) :
    (bcIdx d p s)[i]? = s[i]?.map (fun n => if (d.lookup (p + i)).isSome then 0 else n) := by
  induction s generalizing p i with
  | nil => simp [bcIdx]
  | cons n s ih =>
    cases i with
    | zero => simp [bcIdx]
    | succ i => simp only [bcIdx, List.getElem?_cons_succ, ih]; rw [show p + 1 + i = p + (i + 1) by omega]

theorem bcIdx_congr {d d' : List (Nat × Nat)} {p p' : Nat} {s : List Nat}
    (h : ∀ i, i < s.length → d.lookup (p + i) = d'.lookup (p' + i)) : bcIdx d p s = bcIdx d' p' s := by
  apply List.ext_getElem?
  intro i
  rw [bcIdx_getElem?, bcIdx_getElem?]
  rcases Nat.lt_or_ge i s.length with hi | hi
  · rw [h i hi]
  · rw [List.getElem?_eq_none hi]; rfl

theorem bcIdx_nil (p : Nat) (s : List Nat) : bcIdx [] p s = s := by
  induction s generalizing p with
  | nil => rfl
  | cons n s ih => simp [bcIdx, ih]

theorem inB_append {s t i j : List Nat} (h : InB s i) (h' : InB t j) : InB (s ++ t) (i ++ j) := by
  induction s generalizing i with
  | nil => cases i with
    | nil => exact h'
    | cons => exact h.elim
  | cons n s ih => cases i with
    | nil => exact h.elim
    | cons x i => exact ⟨h.1, ih h.2⟩

theorem inB_split {s t idx : List Nat} (h : InB (s ++ t) idx) :
    InB s (idx.take s.length) ∧ InB t (idx.drop s.length) := by
  induction s generalizing idx with
  | nil => exact ⟨trivial, by simpa using h⟩
  | cons n s ih => cases idx with
    | nil => exact h.elim
    | cons x i => exact ⟨⟨h.1, (ih h.2).1⟩, (ih h.2).2⟩

/-- Coordinates before stretching are valid. -/
theorem bcIdx_inB {d : List (Nat × Nat)} {p : Nat} {s idx : List Nat}
    (h1 : ∀ q ∈ d, p ≤ q.1 → s[q.1 - p]? = some 1) (h : InB (bcShape d p s) idx) : InB s (bcIdx d p idx) := by
  induction s generalizing p idx with
  | nil => cases idx with
    | nil => trivial
    | cons => exact h.elim
  | cons n s ih => cases idx with
    | nil => exact h.elim
    | cons x i =>
      refine ⟨?_, ih (fun q hq hp => ?_) h.2⟩
      · cases hl : d.lookup p with
        | none => simp only [Option.isSome_none]; have := h.1; rw [hl] at this; exact this
        | some v =>
          have := h1 _ (lookup_some_mem hl) (le_refl _)
          simp at this
          simp [this]
      · have := h1 q hq (by omega)
        rw [show q.1 - p = (q.1 - (p + 1)) + 1 by omega] at this
        simpa using this

theorem stretch_congr {A B : NDA V} {d : List (Nat × Nat)} {lead : List Nat} (h : A ≈ₐ B)
    (h1 : ∀ q ∈ d, A.shape[q.1]? = some 1) : A.stretch d lead ≈ₐ B.stretch d lead := by
  refine ⟨by simp [NDA.stretch, h.1], fun idx hi => h.2 _ (bcIdx_inB ?_ ?_)⟩
  · intro q hq _; simpa using h1 q hq
  · exact (inB_split hi).2

theorem dictUpdate_nodup {d d' : List (Nat × Nat)} (h : (d.map Prod.fst).Nodup) (h' : (d'.map Prod.fst).Nodup) :
    ((dictUpdate d d').map Prod.fst).Nodup := by
  unfold dictUpdate
  rw [List.map_append]
  apply List.Nodup.append
  · exact h.sublist (List.filter_sublist.map _)
  · exact h'
  · intro q hq hq'
    obtain ⟨x, hx, rfl⟩ := List.mem_map.mp hq
    obtain ⟨y, hy, hxy⟩ := List.mem_map.mp hq'
    have := (List.mem_filter.mp hx).2
    simp only [Bool.not_eq_true', List.any_eq_false] at this
    exact this y hy (by simpa using hxy)

theorem mkBcastFlat_ok {a : Arr α} {d : List (Nat × Nat)} {lead s : List Nat} (hs : a.shape = .ok s)
    (hn : (d.map Prod.fst).Nodup) (h1 : ∀ p ∈ d, s[p.1]? = some 1) (hl : ∀ l ∈ lead, 1 ≤ l) :
    mkBcastFlat a d lead = .ok (.bcast a d lead) := by
  unfold mkBcastFlat
  rw [hs]
  simp only [bind, Except.bind, shapeFromDict_ok d s hn h1, pure, Except.pure]
  rw [if_neg]
  simp only [List.any_eq_true, decide_eq_true_eq, not_exists, not_and]
  intro x hx
  have := hl x hx
  omega

/-- `BroadcastArray(sub, d, lead)` stands for the stretched array. -/
theorem mkBcast_ok [Inhabited V] (m : Mode α V) {sub : Arr α} {d : List (Nat × Nat)} {lead : List Nat}
    (hwf : sub.WF) (hnl : sub.noLead) (hn : (d.map Prod.fst).Nodup)
    (h1 : ∀ p ∈ d, (sub.den m).shape[p.1]? = some 1) (hl : ∀ l ∈ lead, 1 ≤ l) :
    ∃ b, mkBcast sub d lead = .ok b ∧ b.WF ∧ b.den m ≈ₐ (sub.den m).stretch d lead ∧
      (lead = [] → b.noLead) := by
  have hsh := hwf.shape_eq m
  by_cases hb : sub.notBcast = true
  · refine ⟨.bcast sub d lead, ?_, ⟨hwf, hb, hnl, hn, hl, _, hsh, h1⟩, NDA.Eqv.refl _, fun h => h⟩
    have : mkBcast sub d lead = mkBcastFlat sub d lead := by
      cases sub <;> first | rfl | simp [Arr.notBcast] at hb
    rw [this]
    exact mkBcastFlat_ok hsh hn h1 hl
  · match sub, hb with
    | .bcast a' d' lead', _ =>
      obtain ⟨hwf', hnb', hnl', hn', _, s, hs, h1'⟩ := hwf
      have hl' : lead' = [] := hnl
      subst hl'
      have hsden := hwf'.den_shape m hs
      have hsub : ((Arr.bcast a' d' []).den m).shape = bcShape d' 0 s := by
        simp [Arr.den, NDA.stretch, hsden]
      have hall : ∀ p ∈ dictUpdate d' d, s[p.1]? = some 1 := by
        intro p hp
        unfold dictUpdate at hp
        rcases List.mem_append.mp hp with hp | hp
        · exact h1' p (List.mem_filter.mp hp).1
        · have := h1 p hp
          rw [hsub, bcShape_getElem?] at this
          rw [Nat.zero_add] at this
          cases hlk : d'.lookup p.1 with
          | none => rw [hlk] at this; simpa using this
          | some v => exact h1' (p.1, v) (lookup_some_mem hlk)
      refine ⟨.bcast a' (dictUpdate d' d) lead, ?_,
        ⟨hwf', hnb', hnl', dictUpdate_nodup hn' hn, hl, s, hs, hall⟩, ?_, fun h => h⟩
      · show mkBcastFlat a' (dictUpdate d' d) (lead ++ []) = _
        rw [List.append_nil]
        exact mkBcastFlat_ok hs (dictUpdate_nodup hn' hn) hall hl
      · refine ⟨?_, fun idx hi => ?_⟩
        · simp only [Arr.den, NDA.stretch, List.nil_append]
          congr 1
          apply List.ext_getElem?
          intro i
          rw [bcShape_getElem?, bcShape_getElem?, bcShape_getElem?, lookup_dictUpdate]
          cases (a'.den m).shape[i]? <;> cases d.lookup (0 + i) <;> simp
        · simp only [Arr.den, NDA.stretch, List.length_nil, List.drop_zero]
          congr 1
          apply List.ext_getElem?
          intro i
          rw [bcIdx_getElem?, bcIdx_getElem?, bcIdx_getElem?, lookup_dictUpdate]
          cases (idx.drop lead.length)[i]? <;> cases d.lookup (0 + i) <;> cases d'.lookup (0 + i) <;> simp

/-! ### resolving concatenated keys -/

theorem resolve_append_inv {k1 k2 : List Key} {s1 s2 : List Nat} {τ : List Sel} (he : Exact k1)
    (hl : k1.length = s1.length) (h : resolve (k1 ++ k2) (s1 ++ s2) = .ok τ) :
    ∃ τ1 τ2, τ = τ1 ++ τ2 ∧ resolve k1 s1 = .ok τ1 ∧ resolve k2 s2 = .ok τ2 := by
  induction k1 generalizing s1 τ with
  | nil =>
    cases s1 with
    | nil => exact ⟨[], τ, rfl, rfl, h⟩
    | cons => simp at hl
  | cons k k1 ih =>
    cases s1 with
    | nil => simp at hl
    | cons n s1 =>
      obtain ⟨n', ns', t, τ', hnn, rfl, ht1, ht2⟩ := (resolve_cons_iff (he k List.mem_cons_self).1).mp h
      simp only [List.cons_append, List.cons.injEq] at hnn
      obtain ⟨rfl, rfl⟩ := hnn
      obtain ⟨τ1, τ2, rfl, hr1, hr2⟩ := ih he.tail (by simpa using hl) ht2
      exact ⟨t :: τ1, τ2, rfl, (resolve_cons_iff (he k List.mem_cons_self).1).mpr ⟨n, s1, t, τ1, rfl, rfl, ht1, hr1⟩, hr2⟩

theorem resolve_append {k1 k2 : List Key} {s1 s2 : List Nat} {τ1 τ2 : List Sel} (he : Exact k1)
    (h1 : resolve k1 s1 = .ok τ1) (h2 : resolve k2 s2 = .ok τ2) :
    resolve (k1 ++ k2) (s1 ++ s2) = .ok (τ1 ++ τ2) := by
  induction k1 generalizing s1 τ1 with
  | nil => obtain ⟨rfl, rfl⟩ := resolve_nil_iff.mp h1; exact h2
  | cons k k1 ih =>
    obtain ⟨n', ns', t, τ', rfl, rfl, ht1, ht2⟩ := (resolve_cons_iff (he k List.mem_cons_self).1).mp h1
    exact (resolve_cons_iff (he k List.mem_cons_self).1).mpr ⟨_, _, _, _, rfl, rfl, ht1, ih he.tail ht2⟩

theorem selShape_append (a b : List Sel) : selShape (a ++ b) = selShape a ++ selShape b := by
  induction a with
  | nil => rfl
  | cons s a ih => cases s <;> simp [selShape, ih]

/-- No `new` among the selections. -/
def NoNew (τ : List Sel) : Prop := ∀ s ∈ τ, s ≠ .new

theorem selSrc_append {a b : List Sel} {idx : List Nat} (ha : InB (selShape a) (idx.take (selShape a).length)) :
    selSrc (a ++ b) idx = selSrc a (idx.take (selShape a).length) ++ selSrc b (idx.drop (selShape a).length) := by
  induction a generalizing idx with
  | nil => simp [selSrc, selShape]
  | cons s a ih =>
    cases s with
    | «at» i => simp only [List.cons_append, selSrc, selShape]; rw [ih ha]
    | pick l =>
      cases idx with
      | nil => exact ha.elim
      | cons j idx => simp only [List.cons_append, selSrc, selShape, List.length_cons, List.take_succ_cons,
          List.drop_succ_cons]; rw [ih ha.2]
    | new =>
      cases idx with
      | nil => exact ha.elim
      | cons j idx => simp only [List.cons_append, selSrc, selShape, List.length_cons, List.take_succ_cons,
          List.drop_succ_cons]; rw [ih ha.2]

theorem bcastLoop_ok {dict : List (Nat × Nat)} : ∀ {fk : List Key} {ax rem : Nat} {s : List Nat} {τ : List Sel},
    rem ≤ ax → Exact fk → bcastKeysOk dict ax fk → (∀ q ∈ dict, ax ≤ q.1 → s[q.1 - ax]? = some 1) →
    resolve fk (bcShape dict ax s) = .ok τ →
    ∃ d σ, bcastLoop dict ax rem (bcShape dict ax s) fk = .ok (bcastInner dict ax fk, d) ∧
      Exact (bcastInner dict ax fk) ∧ resolve (bcastInner dict ax fk) s = .ok σ ∧
      (d.map Prod.fst).Nodup ∧ (∀ q ∈ d, ax - rem ≤ q.1 ∧ (selShape σ)[q.1 - (ax - rem)]? = some 1) ∧
      bcShape d (ax - rem) (selShape σ) = selShape τ ∧
      ∀ idx, InB (selShape τ) idx → selSrc σ (bcIdx d (ax - rem) idx) = bcIdx dict ax (selSrc τ idx) := by
  intro fk
  induction fk with
  | nil =>
    intro ax rem s τ hrem he hg h1 hτ
    obtain ⟨hs, rfl⟩ := resolve_nil_iff.mp hτ
    have hs0 : s = [] := by
      have := congrArg List.length hs; rw [bcShape_length] at this; exact List.length_eq_zero_iff.mp this
    subst hs0
    exact ⟨[], [], rfl, fun k hk => (by cases hk), rfl, List.nodup_nil, fun q hq => (by cases hq), rfl,
      fun idx hi => by simp [selSrc, bcIdx]⟩
  | cons k fk ih =>
    intro ax rem s τ hrem he hg h1 hτ
    have hke := he k List.mem_cons_self
    obtain ⟨n', ns', t, τ', hs, rfl, ht1, ht2⟩ := (resolve_cons_iff hke.1).mp hτ
    cases s with
    | nil => cases hs
    | cons n s =>
    simp only [bcShape, List.cons.injEq] at hs
    obtain ⟨hn', rfl⟩ := hs
    have h1' : ∀ q ∈ dict, ax + 1 ≤ q.1 → s[q.1 - (ax + 1)]? = some 1 := by
      intro q hq hp
      have := h1 q hq (by omega)
      rw [show q.1 - ax = (q.1 - (ax + 1)) + 1 by omega] at this
      simpa using this
    have hg1 := hg.1
    by_cases hd : dict.any (fun p => p.1 == ax) = true
    · -- broadcast axis
      rw [if_pos hd] at hg1
      obtain ⟨v, hv⟩ : ∃ v, dict.lookup ax = some v := by
        rw [← lookup_isSome_iff] at hd; exact Option.isSome_iff_exists.mp hd
      have hn1 : n = 1 := by have := h1 _ (lookup_some_mem hv) (le_refl _); simpa using this
      subst hn1
      have hn'v : n' = v := by rw [← hn', hv]; rfl
      rcases hg1 with ⟨i, rfl⟩ | ⟨sl, rfl⟩
      · obtain ⟨d, σ, hr1, hr1', hr2, hr3, hr4, hr5, hr6⟩ := ih (ax := ax + 1) (rem := rem + 1) (by omega) he.tail hg.2 h1' ht2
        rw [show ax + 1 - (rem + 1) = ax - rem by omega] at hr4 hr5 hr6
        simp only [resolve1] at ht1
        split at ht1
        · rename_i hir
          cases ht1
          refine ⟨d, .at 0 :: σ, ?_, ?_, ?_, hr3, hr4, hr5, ?_⟩
          · rw [bcastLoop, if_pos hd]
            simp only [bcShape, List.headD_cons, List.tail_cons, hv, Option.getD_some]
            rw [hn'v] at hir
            rw [if_pos hir]
            simp only [hr1, bind, Except.bind, bcastInner, if_pos hd]; rfl
          · intro x hx
            simp only [bcastInner, if_pos hd] at hx
            rcases List.mem_cons.mp hx with rfl | hx
            · exact ⟨rfl, rfl⟩
            · exact hr1' x hx
          · simp only [bcastInner, if_pos hd]
            exact (resolve_cons_iff rfl).mpr ⟨1, s, _, σ, rfl, rfl, by simp [resolve1, inRange, normIdx], hr2⟩
          · intro idx hi
            simp only [selSrc, bcIdx, hv, Option.isSome_some, if_true]
            rw [hr6 idx hi]
        · cases ht1
      · obtain ⟨d, σ, hr1, hr1', hr2, hr3, hr4, hr5, hr6⟩ := ih (ax := ax + 1) (rem := rem) (by omega) he.tail hg.2 h1' ht2
        rw [show ax + 1 - rem = (ax - rem) + 1 by omega] at hr4 hr5 hr6
        obtain ⟨r, hr, rfl⟩ := resolve1_slice ht1
        rw [hn'v] at hr
        have hlk : ∀ i, ((ax - rem, r.length) :: d).lookup (ax - rem + 1 + i) = d.lookup (ax - rem + 1 + i) := by
          intro i; rw [List.lookup_cons, show (ax - rem + 1 + i == ax - rem) = false by simp; omega]
        refine ⟨(ax - rem, r.length) :: d, .pick [0] :: σ, ?_, ?_, ?_, ?_, ?_, ?_, ?_⟩
        · rw [bcastLoop, if_pos hd]
          simp only [bcShape, List.headD_cons, List.tail_cons, hv, Option.getD_some]
          simp only [hr, hr1, bind, Except.bind, bcastInner, if_pos hd]; rfl
        · intro x hx
          simp only [bcastInner, if_pos hd] at hx
          rcases List.mem_cons.mp hx with rfl | hx
          · exact ⟨rfl, rfl⟩
          · exact hr1' x hx
        · simp only [bcastInner, if_pos hd]
          exact (resolve_cons_iff rfl).mpr ⟨1, s, _, σ, rfl, rfl, resolve1_full 1, hr2⟩
        · simp only [List.map_cons, List.nodup_cons]
          refine ⟨fun hm => ?_, hr3⟩
          obtain ⟨q, hq, hqe⟩ := List.mem_map.mp hm
          have := (hr4 q hq).1
          omega
        · intro q hq
          rcases List.mem_cons.mp hq with rfl | hq
          · exact ⟨le_refl _, by simp [selShape]⟩
          · have := hr4 q hq
            refine ⟨by omega, ?_⟩
            rw [show q.1 - (ax - rem) = (q.1 - (ax - rem + 1)) + 1 by omega]
            simpa [selShape] using this.2
        · simp only [selShape, bcShape, List.lookup_cons, beq_self_eq_true, Option.getD_some, List.length_map]
          rw [← hr5]
          congr 1
          exact bcShape_congr (fun i _ => by rw [hlk i])
        · intro idx hi
          cases idx with
          | nil => exact hi.elim
          | cons j idx =>
            simp only [selSrc, bcIdx, hv, Option.isSome_some, if_true, List.lookup_cons, beq_self_eq_true]
            rw [← hr6 idx hi.2, bcIdx_congr (d := (ax - rem, r.length) :: d) (d' := d) (fun i _ => hlk i)]
            simp
    · -- ordinary axis
      have hlk0 : dict.lookup ax = none := by
        rw [← lookup_isSome_iff] at hd; exact Option.not_isSome_iff_eq_none.mp hd
      have hn'n : n' = n := by rw [← hn', hlk0]; rfl
      subst hn'n
      have hinner : bcastInner dict ax (k :: fk) = k :: bcastInner dict (ax + 1) fk := by
        simp only [bcastInner, if_neg hd]
      have hex : Exact (bcastInner dict (ax + 1) fk) → Exact (k :: bcastInner dict (ax + 1) fk) := by
        intro h x hx
        rcases List.mem_cons.mp hx with rfl | hx
        · exact hke
        · exact h x hx
      have hloop : ∀ rem', (if k.isScalar then rem + 1 else rem) = rem' → ∀ d,
          bcastLoop dict (ax + 1) rem' (bcShape dict (ax + 1) s) fk = .ok (bcastInner dict (ax + 1) fk, d) →
          bcastLoop dict ax rem (bcShape dict ax (n' :: s)) (k :: fk) = .ok (k :: bcastInner dict (ax + 1) fk, d) := by
        intro rem' hrem' d h
        rw [bcastLoop, if_neg hd, hrem']
        simp only [bcShape, List.tail_cons, h, bind, Except.bind]; rfl
      have hsc : (k.isScalar = true ∧ ∃ i, t = .at i) ∨ (k.isScalar = false ∧ ∃ l, t = .pick l) := by
        cases k with
        | int i =>
          left; refine ⟨rfl, ?_⟩
          simp only [resolve1] at ht1
          split at ht1
          · cases ht1; exact ⟨_, rfl⟩
          · cases ht1
        | slice sl => right; obtain ⟨r, _, rfl⟩ := resolve1_slice ht1; exact ⟨rfl, _, rfl⟩
        | tuple l | list l | iarr l | barr l =>
          right; refine ⟨rfl, ?_⟩
          simp only [resolve1] at ht1
          split at ht1
          · cases ht1; exact ⟨_, rfl⟩
          · cases ht1
        | newaxis => simp [Key.isNewaxis] at hke
        | ellipsis => simp [Key.isEllipsis] at hke
        | bad => simp [resolve1] at ht1
      rw [hinner]
      rcases hsc with ⟨hsk, i, rfl⟩ | ⟨hsk, l, rfl⟩
      · obtain ⟨d, σ, hr1, hr1', hr2, hr3, hr4, hr5, hr6⟩ := ih (ax := ax + 1) (rem := rem + 1) (by omega) he.tail hg.2 h1' ht2
        rw [show ax + 1 - (rem + 1) = ax - rem by omega] at hr4 hr5 hr6
        refine ⟨d, .at i :: σ, hloop (rem + 1) (by rw [hsk]; rfl) d hr1, hex hr1',
          (resolve_cons_iff hke.1).mpr ⟨n', s, _, σ, rfl, rfl, ht1, hr2⟩, hr3, hr4, hr5, ?_⟩
        intro idx hi
        simp only [selSrc, bcIdx, hlk0, Option.isSome_none]
        rw [hr6 idx hi]; simp
      · obtain ⟨d, σ, hr1, hr1', hr2, hr3, hr4, hr5, hr6⟩ := ih (ax := ax + 1) (rem := rem) (by omega) he.tail hg.2 h1' ht2
        rw [show ax + 1 - rem = (ax - rem) + 1 by omega] at hr4 hr5 hr6
        have hnone : d.lookup (ax - rem) = none := by
          apply lookup_none_of_not_mem
          intro hm
          obtain ⟨q, hq, hqe⟩ := List.mem_map.mp hm
          have := (hr4 q hq).1
          omega
        refine ⟨d, .pick l :: σ, hloop rem (by rw [hsk]; rfl) d hr1, hex hr1',
          (resolve_cons_iff hke.1).mpr ⟨n', s, _, σ, rfl, rfl, ht1, hr2⟩, hr3, ?_, ?_, ?_⟩
        · intro q hq
          have := hr4 q hq
          refine ⟨by omega, ?_⟩
          rw [show q.1 - (ax - rem) = (q.1 - (ax - rem + 1)) + 1 by omega]
          simpa [selShape] using this.2
        · simp only [selShape, bcShape, hnone, Option.getD_none]
          rw [hr5]
        · intro idx hi
          cases idx with
          | nil => exact hi.elim
          | cons j idx =>
            simp only [selSrc, bcIdx, hnone, hlk0, Option.isSome_none]
            rw [← hr6 idx hi.2]; simp

theorem allFull_ok {ks : List Key} (h : ∀ k ∈ ks, (∀ l, k = .iarr l → l.length ≤ 1) ∧ (∀ l, k = .barr l → l.length ≤ 1)) :
    allFull ks = .ok true ∧ ks = List.replicate ks.length Key.full ∨ allFull ks = .ok false := by
  induction ks with
  | nil => exact Or.inl ⟨rfl, rfl⟩
  | cons k ks ih =>
    unfold allFull
    by_cases hk : k = Key.full
    · rw [if_pos hk]
      rcases ih (fun x hx => h x (List.mem_cons_of_mem _ hx)) with ⟨h1, h2⟩ | h1
      · left; refine ⟨h1, ?_⟩; rw [List.length_cons, List.replicate_succ, ← h2, hk]
      · right; exact h1
    · rw [if_neg hk]
      right
      have := h k List.mem_cons_self
      cases k with
      | iarr l => simp [this.1 l rfl]
      | barr l => simp [this.2 l rfl]
      | _ => rfl

theorem bcastInner_small {dict : List (Nat × Nat)} {ax : Nat} {fk : List Key} (h : bcastKeysOk dict ax fk) :
    ∀ k ∈ bcastInner dict ax fk, (∀ l, k = .iarr l → l.length ≤ 1) ∧ (∀ l, k = .barr l → l.length ≤ 1) := by
  induction fk generalizing ax with
  | nil => intro k hk; cases hk
  | cons k fk ih =>
    intro x hx
    have hg := h.1
    simp only [bcastInner] at hx
    rcases List.mem_cons.mp hx with rfl | hx
    · split
      · split <;> exact ⟨fun l h => (by cases h), fun l h => (by cases h)⟩
      · rename_i hd; rw [if_neg hd] at hg; exact hg
    · exact ih h.2 x hx

/-- Broadcast node: indexing commutes with stretching. -/
theorem bcastFull_ok [Inhabited V] (m : Mode α V) {inner : List Key → Res (Arr α)} {a : Arr α}
    {dict : List (Nat × Nat)} {lead : List Nat} (hwf : (Arr.bcast a dict lead).WF) {fk : List Key} {τ : List Sel}
    (he : Exact fk) (hτ : resolve fk ((Arr.bcast a dict lead).den m).shape = .ok τ)
    (hlist : ∀ l, Key.list l ∉ fk.take lead.length)
    (hpos : ∀ σ, resolve (fk.take lead.length) lead = .ok σ → ∀ l ∈ selShape σ, 1 ≤ l)
    (hg : bcastKeysOk dict 0 (fk.drop lead.length))
    (hin : ∀ σ, Exact (bcastInner dict 0 (fk.drop lead.length)) →
      resolve (bcastInner dict 0 (fk.drop lead.length)) (a.den m).shape = .ok σ →
      Sim m a (inner (bcastInner dict 0 (fk.drop lead.length))) ((a.den m).ortho σ)) :
    Sim m (.bcast a dict lead) (bcastFull inner a dict lead fk) (((Arr.bcast a dict lead).den m).ortho τ) := by
  obtain ⟨hwfa, hnb, hnl, hn, hlead, s, hs, h1⟩ := hwf
  have hsden := hwfa.den_shape m hs
  have hshape : ((Arr.bcast a dict lead).den m).shape = lead ++ bcShape dict 0 s := by
    simp [Arr.den, NDA.stretch, hsden]
  rw [hshape] at hτ
  have hlen := (resolve_length he hτ).1
  have hle : lead.length ≤ fk.length := by rw [hlen]; simp
  have hsplit : fk = fk.take lead.length ++ fk.drop lead.length := (List.take_append_drop _ _).symm
  have he1 : Exact (fk.take lead.length) := fun k hk => he k (List.mem_of_mem_take hk)
  have he2 : Exact (fk.drop lead.length) := fun k hk => he k (List.mem_of_mem_drop hk)
  rw [hsplit] at hτ
  have hl1 : (fk.take lead.length).length = lead.length := by rw [List.length_take]; omega
  obtain ⟨τ1, τ2, rfl, hτ1, hτ2⟩ := resolve_append_inv he1 hl1 hτ
  obtain ⟨d, σ, hr1, hr1', hr2, hr3, hr4, hr5, hr6⟩ := bcastLoop_ok (rem := 0) (le_refl 0) he2 hg (by
    intro q hq _; simpa using h1 q hq) hτ2
  simp only [Nat.sub_zero] at hr4 hr5 hr6
  have hls : slicedShape lead (fk.take lead.length) = .ok (selShape τ1) := by
    have := C02_sliced_shape_is_numpy_shape (⟨lead, fun _ => ()⟩ : NDA Unit) _ (fk.take lead.length) hlist
      (npIndex_exact (⟨lead, fun _ => ()⟩ : NDA Unit) _ τ1 hl1 he1 hτ1)
    exact this
  -- the indexed inner array
  have hsub : ∃ sub, bcastSub inner a (bcastInner dict 0 (fk.drop lead.length)) = .ok sub ∧
      sub.WF ∧ sub.den m ≈ₐ (a.den m).ortho σ ∧ sub.noLead := by
    have hr2' : resolve (bcastInner dict 0 (fk.drop lead.length)) (a.den m).shape = .ok σ := by rw [hsden]; exact hr2
    rcases allFull_ok (bcastInner_small hg) with ⟨hf, hrep⟩ | hf
    · refine ⟨a, by unfold bcastSub; rw [hf]; rfl, hwfa, ?_, hnl⟩
      have hll := (resolve_length hr1' hr2').1
      rw [hrep, hll] at hr2'
      have := resolve_full hr2'
      exact ⟨this.1.symm, fun idx hi => by simp only [NDA.ortho]; rw [this.2 idx hi]⟩
    · obtain ⟨b, hb1, hb2, hb3, hb4⟩ := hin σ hr1' hr2'
      exact ⟨b, by unfold bcastSub; rw [hf]; exact hb1, hb2, hb3, hb4 hnl⟩
  obtain ⟨sub, hs1, hs2, hs3, hs4⟩ := hsub
  have hsubshape : (sub.den m).shape = selShape σ := hs3.1
  obtain ⟨b, hb1, hb2, hb3, hb4⟩ := mkBcast_ok m (lead := selShape τ1) hs2 hs4 hr3 (by
    intro p hp; rw [hsubshape]; simpa using (hr4 p hp).2) (hpos τ1 hτ1)
  refine ⟨b, ?_, hb2, ?_, ?_⟩
  · unfold bcastFull
    rw [hls, hs]
    simp only [bind, Except.bind, shapeFromDict_ok dict s hn h1, hr1, hs1]
    exact hb1
  · refine hb3.trans ((stretch_congr hs3 (by intro p hp; rw [hsubshape]; simpa using (hr4 p hp).2)).trans ?_)
    refine ⟨?_, fun idx hi => ?_⟩
    · simp only [NDA.stretch, NDA.ortho, selShape_append, hr5]
    · simp only [NDA.stretch, NDA.ortho] at hi ⊢
      obtain ⟨hi1, hi2⟩ := inB_split hi
      rw [hr5] at hi2
      simp only [Arr.den, NDA.stretch]
      congr 1
      rw [hr6 _ hi2, selSrc_append hi1]
      congr 1
      rw [List.drop_left']
      have := (selSrc_inB hτ1 _ hi1).length
      exact this
  · intro hnl'
    have : lead = [] := hnl'
    subst this
    apply hb4
    obtain ⟨_, rfl⟩ := resolve_nil_iff.mp (by
      simpa using hτ1 : resolve [] [] = .ok τ1)
    rfl

end Biggus

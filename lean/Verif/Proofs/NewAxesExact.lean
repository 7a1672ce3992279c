import Verif.Proofs.Iter
import Verif.Spec.NewAxes
/-
Keys on the new dimensions of a `NewAxesArray`: what the code does with them for every int, slice and tuple.
-/
namespace Biggus

variable {α V : Type}

theorem nConsuming_resolve {ks : List Key} : ∀ {sh : List Nat} {σ : List Sel}, resolve ks sh = .ok σ → nConsuming ks = sh.length := by
  induction ks with
  | nil => intro sh σ h; obtain ⟨rfl, _⟩ := resolve_nil_iff.mp h; rfl
  | cons k ks ih =>
    intro sh σ h
    rw [nConsuming_cons]
    by_cases hk : k = .newaxis
    · subst hk
      obtain ⟨σ', rfl, h'⟩ := resolve_newaxis_iff.mp h
      rw [ih h']; simp [Key.isNewaxis]
    · have hk' : k.isNewaxis = false := by cases k <;> simp_all [Key.isNewaxis]
      obtain ⟨n, sh', t, σ', rfl, rfl, _, h'⟩ := (resolve_cons_iff hk').mp h
      rw [ih h']; simp [hk']; omega

theorem newDims_eq (c : Nat) (ns : List Nat) : newDims (c :: ns) = isNewOf c ns := by
  induction ns generalizing c with
  | nil => rfl
  | cons n ns ih => rw [newDims, isNewOf, ih]; simp

theorem newTypes {fk : List Key} : ∀ {c : Nat} {ns : List Nat}, NewKeys (isNewOf c ns) fk → naTypes c ns fk := by
  induction fk with
  | nil => intro c ns _; cases c <;> cases ns <;> simp [naTypes]
  | cons k fk ih =>
    intro c ns h
    by_cases hk : k = .newaxis
    · subst hk
      have h' : NewKeys (isNewOf c ns) fk := by
        rcases hf : isNewOf c ns with _ | ⟨_ | _, fs⟩ <;> rw [hf] at h <;> simpa only [NewKeys] using h
      cases c <;> cases ns <;> (simp only [naTypes]; exact ih h')
    · cases c with
      | succ c =>
        rw [isNewOf_succ, NewKeys] at h
        · rw [naTypes]
          · exact ⟨h.1, ih h.2⟩
          · exact hk
        · exact hk
      | zero =>
        cases ns with
        | nil => rw [naTypes]; · trivial
                 · exact hk
        | cons n ns =>
          simp only [isNewOf, List.replicate_zero, List.nil_append] at h
          rw [NewKeys] at h
          · rw [naTypes]
            · exact ih h
            · exact hk
          · exact hk

theorem naDict1_asks (p : Nat) (k : Key) : naDict1 p k = k.asks.toList.map (fun n => (p, n)) := by
  cases k with
  | slice s =>
    simp only [naDict1, Key.asks]
    cases s.range 1 with
    | error => rfl
    | ok r => by_cases h : r.length = 1 <;> simp [h]
  | _ => rfl

/-- What the loop does with the keys with `:` for the slices and tuples on new dimensions. -/
theorem keep_same {fk : List Key} : ∀ {p c : Nat} {ns : List Nat},
    containedKeys c ns (keepNew (isNewOf c ns) fk) = containedKeys c ns fk ∧
    naOut c ns (keepNew (isNewOf c ns) fk) = naOut c ns fk ∧
    naDict p c ns (keepNew (isNewOf c ns) fk) = [] ∧
    naDict p c ns fk = cutsNew (fun _ => true) p (isNewOf c ns) fk := by
  induction fk with
  | nil => intro p c ns; cases c <;> cases ns <;> simp [keepNew, containedKeys, naOut, naDict, cutsNew]
  | cons k fk ih =>
    intro p c ns
    by_cases hk : k = .newaxis
    · subst hk
      obtain ⟨h1, h2, h3, h4⟩ := ih (p := p + 1) (c := c) (ns := ns)
      have hkeep : keepNew (isNewOf c ns) (.newaxis :: fk) = .newaxis :: keepNew (isNewOf c ns) fk := by
        rcases isNewOf c ns with _ | ⟨_ | _, fs⟩ <;> simp only [keepNew]
      have hcut : cutsNew (fun _ => true) p (isNewOf c ns) (.newaxis :: fk) = cutsNew (fun _ => true) (p + 1) (isNewOf c ns) fk := by
        rcases isNewOf c ns with _ | ⟨_ | _, fs⟩ <;> simp only [cutsNew]
      rw [hkeep, hcut]
      simp only [containedKeys, naOut, naDict]
      exact ⟨h1, by rw [h2], h3, h4⟩
    · cases c with
      | succ c =>
        obtain ⟨h1, h2, h3, h4⟩ := ih (p := p + 1) (c := c) (ns := ns)
        have e1 : ∀ {k : Key} {X : List Key}, k ≠ .newaxis → containedKeys (c + 1) ns (k :: X) = containedKeys c ns X := by
          intro k X h; rw [containedKeys]; exact h
        have e2 : ∀ {k : Key} {X : List Key}, k ≠ .newaxis → naOut (c + 1) ns (k :: X) = if k.isScalar then naOut c ns X else bump (naOut c ns X) := by
          intro k X h; rw [naOut]; exact h
        have e3 : ∀ {k : Key} {X : List Key}, k ≠ .newaxis → naDict p (c + 1) ns (k :: X) = naDict1 p k ++ naDict (p + 1) c ns X := by
          intro k X h; rw [naDict]; exact h
        have hk' : (if k.isScalar = true then k else Key.full) ≠ .newaxis := by
          split
          · exact hk
          · simp [Key.full]
        rw [isNewOf_succ, keepNew, cutsNew, e1 hk, e1 hk', e2 hk, e2 hk', e3 hk, e3 hk']
        rotate_left
        all_goals first | exact hk | skip
        refine ⟨h1, ?_, ?_, ?_⟩
        · rw [h2]
          by_cases hs : k.isScalar = true
          · rw [if_pos hs]
          · rw [if_neg hs, if_neg hs, if_neg (by simp [Key.full, Key.isScalar])]
        · rw [h3, List.append_nil]
          split
          · rename_i hs
            cases k <;> first | rfl | simp [Key.isScalar] at hs
          · obtain ⟨r, hr, hl⟩ := range_full 1
            simp [naDict1, Key.full, hr, hl]
        · rw [h4, naDict1_asks]; simp
      | zero =>
        cases ns with
        | nil =>
          simp only [isNewOf, List.replicate_zero]
          rw [keepNew, cutsNew, naDict]
          · refine ⟨rfl, rfl, rfl, rfl⟩
          all_goals exact hk
        | cons n ns =>
          obtain ⟨h1, h2, h3, h4⟩ := ih (p := p + 1) (c := n) (ns := ns)
          simp only [isNewOf, List.replicate_zero, List.nil_append]
          rw [keepNew, cutsNew, containedKeys, naOut, naDict, containedKeys, naOut, naDict]
          rotate_left
          all_goals first | exact hk | skip
          refine ⟨by rw [h1], by rw [h2], h3, by simpa using h4⟩

theorem resolve1_zero {k : Key} {l : List Nat} (h : resolve1 k 1 = .ok (.pick l)) {j : Nat} (hj : j < l.length) : l.getD j 0 = 0 := by
  have hk : k.isNewaxis = false := by cases k <;> simp_all [Key.isNewaxis, resolve1]
  have hr : resolve [k] [1] = .ok [.pick l] := (resolve_cons_iff hk).mpr ⟨_, _, _, _, rfl, rfl, h, rfl⟩
  have := selSrc_inB hr [j] ⟨hj, trivial⟩
  have h0 : l.getD j 0 < 1 := this.1
  omega

/-- NumPy: the keys select what the keys with `:` on new dimensions select, stretched where they ask for other lengths. -/
theorem keep_sem {fk : List Key} : ∀ {p : Nat} {fs : List Bool} {s : List Nat} {τ : List Sel},
    List.Forall₂ (fun f n => f = true → n = 1) fs s → NewKeys fs fk → resolve fk s = .ok τ →
    ∃ τ', resolve (keepNew fs fk) s = .ok τ' ∧
      ((cutsNew (fun k => !k.isScalar) p fs fk).map Prod.fst).Pairwise (· < ·) ∧
      (∀ q ∈ cutsNew (fun k => !k.isScalar) p fs fk, p ≤ q.1 ∧ (selShape τ')[q.1 - p]? = some 1) ∧
      bcShape (cutsNew (fun k => !k.isScalar) p fs fk) p (selShape τ') = selShape τ ∧
      ∀ idx, InB (selShape τ) idx → selSrc τ' (bcIdx (cutsNew (fun k => !k.isScalar) p fs fk) p idx) = selSrc τ idx := by
  induction fk with
  | nil =>
    intro p fs s τ hf _ hτ
    obtain ⟨rfl, rfl⟩ := resolve_nil_iff.mp hτ
    cases hf
    exact ⟨[], rfl, List.Pairwise.nil, fun q hq => (by cases hq), rfl, fun idx _ => rfl⟩
  | cons k fk ih =>
    intro p fs s τ hf hg hτ
    have hnone : ∀ {d : List (Nat × Nat)}, (∀ q ∈ d, p + 1 ≤ q.1) → d.lookup p = none := by
      intro d hd
      apply lookup_none_of_not_mem
      intro hm
      obtain ⟨q, hq, hqe⟩ := List.mem_map.mp hm
      have := hd q hq
      omega
    by_cases hk : k = .newaxis
    · subst hk
      obtain ⟨τ', rfl, hτ'⟩ := resolve_newaxis_iff.mp hτ
      have hg' : NewKeys fs fk := by rcases fs with _ | ⟨_ | _, fs⟩ <;> simpa only [NewKeys] using hg
      have hkeep : keepNew fs (.newaxis :: fk) = .newaxis :: keepNew fs fk := by
        rcases fs with _ | ⟨_ | _, fs⟩ <;> simp only [keepNew]
      have hcut : cutsNew (fun k => !k.isScalar) p fs (.newaxis :: fk) = cutsNew (fun k => !k.isScalar) (p + 1) fs fk := by
        rcases fs with _ | ⟨_ | _, fs⟩ <;> simp only [cutsNew]
      rw [hkeep, hcut]
      obtain ⟨σ, h1, h2, h3, h4, h5⟩ := ih (p := p + 1) hf hg' hτ'
      have hn := hnone (fun q hq => (h3 q hq).1)
      refine ⟨.new :: σ, resolve_newaxis_iff.mpr ⟨_, rfl, h1⟩, h2, ?_, ?_, ?_⟩
      · intro q hq
        have := h3 q hq
        refine ⟨by omega, ?_⟩
        rw [show q.1 - p = (q.1 - (p + 1)) + 1 by omega]
        simpa [selShape] using this.2
      · simp only [selShape, bcShape, hn, Option.getD_none, h4]
      · intro idx hi
        cases idx with
        | nil => exact hi.elim
        | cons j idx => simp only [bcIdx, selSrc]; exact h5 idx hi.2
    · have hk' : k.isNewaxis = false := by cases k <;> simp_all [Key.isNewaxis]
      obtain ⟨n, sh, t, τ', rfl, rfl, ht, hτ'⟩ := (resolve_cons_iff hk').mp hτ
      obtain ⟨f, fs, rfl⟩ : ∃ f fs', fs = f :: fs' := by cases hf; exact ⟨_, _, rfl⟩
      obtain ⟨hf1, hf2⟩ := List.forall₂_cons.mp hf
      cases f with
      | true =>
        obtain rfl : n = 1 := hf1 rfl
        rw [NewKeys] at hg
        swap; exact hk
        obtain ⟨hg1, hg2⟩ := hg
        rw [keepNew, cutsNew]
        rotate_left
        all_goals first | exact hk | skip
        -- a key that keeps the dimension
        have hkeep : ∀ (l : List Nat), t = .pick l → k.isScalar = false →
            (k.asks = none ∧ l.length = 1 ∨ k.asks = some l.length) → ∃ τ₁,
            resolve ((if k.isScalar = true then k else Key.full) :: keepNew fs fk) (1 :: sh) = .ok τ₁ ∧
            ((k.asks.toList.map (fun n => (p, n)) ++ cutsNew (fun k => !k.isScalar) (if (!k.isScalar) = true then p + 1 else p) fs fk).map Prod.fst).Pairwise (· < ·) ∧
            (∀ q ∈ k.asks.toList.map (fun n => (p, n)) ++ cutsNew (fun k => !k.isScalar) (if (!k.isScalar) = true then p + 1 else p) fs fk,
              p ≤ q.1 ∧ (selShape τ₁)[q.1 - p]? = some 1) ∧
            bcShape (k.asks.toList.map (fun n => (p, n)) ++ cutsNew (fun k => !k.isScalar) (if (!k.isScalar) = true then p + 1 else p) fs fk) p (selShape τ₁) =
              selShape (t :: τ') ∧
            ∀ idx, InB (selShape (t :: τ')) idx →
              selSrc τ₁ (bcIdx (k.asks.toList.map (fun n => (p, n)) ++ cutsNew (fun k => !k.isScalar) (if (!k.isScalar) = true then p + 1 else p) fs fk) p idx) =
              selSrc (t :: τ') idx := by
          intro l htl hs ha
          subst htl
          simp only [hs, Bool.not_false, if_true, Bool.false_eq_true, if_false]
          obtain ⟨σ, h1, h2, h3, h4, h5⟩ := ih (p := p + 1) hf2 hg2 hτ'
          have hn := hnone (fun q hq => (h3 q hq).1)
          generalize hD : cutsNew (fun k => !k.isScalar) (p + 1) fs fk = D at h2 h3 h4 h5 hn
          have hlk : ∀ i, (k.asks.toList.map (fun n => (p, n)) ++ D).lookup (p + 1 + i) = D.lookup (p + 1 + i) := by
            intro i
            rw [lookup_append]
            rcases ha with ⟨ha, _⟩ | ha <;> rw [ha]
            · simp
            · rw [Option.toList_some, List.map_singleton, List.lookup_cons, show (p + 1 + i == p) = false by simp; omega]; simp
          have hd1 : ∀ q ∈ k.asks.toList.map (fun n => (p, n)), q.1 = p := by
            intro q hq
            obtain ⟨_, _, rfl⟩ := List.mem_map.mp hq; rfl
          have hkf : Key.full.isNewaxis = false := rfl
          refine ⟨.pick [0] :: σ, (resolve_cons_iff hkf).mpr ⟨_, _, _, _, rfl, rfl, resolve1_full 1, h1⟩, ?_, ?_, ?_, ?_⟩
          · rw [List.map_append, List.pairwise_append]
            refine ⟨?_, h2, ?_⟩
            · rcases ha with ⟨ha, _⟩ | ha <;> rw [ha] <;> simp
            · intro a hma b hmb
              obtain ⟨q, hq, rfl⟩ := List.mem_map.mp hma
              obtain ⟨q', hq', rfl⟩ := List.mem_map.mp hmb
              have := (h3 q' hq').1
              rw [hd1 q hq]; omega
          · intro q hq
            rcases List.mem_append.mp hq with hq | hq
            · rw [hd1 q hq]; simp [selShape]
            · have := h3 q hq
              refine ⟨by omega, ?_⟩
              rw [show q.1 - p = (q.1 - (p + 1)) + 1 by omega]
              simpa [selShape] using this.2
          · simp only [bcShape, selShape]
            rw [bcShape_congr (d' := D) (p' := p + 1) (fun i _ => hlk i), h4]
            congr 1
            rcases ha with ⟨ha, hl⟩ | ha <;> rw [ha]
            · simp [hn, hl]
            · simp
          · intro idx hi
            cases idx with
            | nil => exact hi.elim
            | cons j idx =>
              simp only [bcIdx, selSrc]
              rw [bcIdx_congr (d' := D) (p' := p + 1) (fun i _ => hlk i), h5 idx hi.2, resolve1_zero ht hi.1]
              congr 1
              split
              · rfl
              · rename_i hno
                rcases ha with ⟨ha, hl⟩ | ha
                · have := hi.1
                  rw [hl] at this
                  obtain rfl : j = 0 := by omega
                  rfl
                · rw [ha] at hno; simp at hno
        rcases hg1 with ⟨i, rfl⟩ | ⟨sl, rfl⟩ | ⟨l, rfl⟩
        · have hsi : (Key.int i).isScalar = true := rfl
          simp only [hsi, if_true, Key.asks, Option.toList_none, List.map_nil, List.nil_append, Bool.not_true, Bool.false_eq_true, if_false]
          obtain ⟨σ, h1, h2, h3, h4, h5⟩ := ih (p := p) hf2 hg2 hτ'
          have ht' := ht
          simp only [resolve1] at ht'
          split at ht'
          · cases ht'
            refine ⟨_ :: σ, (resolve_cons_iff hk').mpr ⟨_, _, _, _, rfl, rfl, ht, h1⟩, h2, ?_, ?_, ?_⟩
            · simpa only [selShape] using h3
            · simpa only [selShape] using h4
            · intro idx hi
              simp only [selSrc]
              rw [h5 idx (by simpa only [selShape] using hi)]
          · cases ht'
        · obtain ⟨r, hr, htr⟩ := resolve1_slice ht
          refine hkeep _ htr rfl ?_
          simp only [Key.asks, hr, List.length_map]
          by_cases h : r.length = 1 <;> simp [h]
        · have ht' := ht
          simp only [resolve1] at ht'
          split at ht'
          · cases ht'
            exact hkeep _ rfl rfl (Or.inr (by simp [Key.asks]))
          · cases ht'
      | false =>
        rw [NewKeys] at hg
        swap; exact hk
        rw [keepNew, cutsNew]
        rotate_left
        all_goals first | exact hk | skip
        have hsc : (k.isScalar = true ∧ ∃ i, t = .at i) ∨ (k.isScalar = false ∧ ∃ l, t = .pick l) := by
          cases k with
          | int i =>
            left; refine ⟨rfl, ?_⟩
            simp only [resolve1] at ht
            split at ht
            · cases ht; exact ⟨_, rfl⟩
            · cases ht
          | slice sl => right; obtain ⟨r, _, rfl⟩ := resolve1_slice ht; exact ⟨rfl, _, rfl⟩
          | tuple l | list l | iarr l | barr l =>
            right; refine ⟨rfl, ?_⟩
            simp only [resolve1] at ht
            split at ht
            · cases ht; exact ⟨_, rfl⟩
            · cases ht
          | newaxis => exact absurd rfl hk
          | ellipsis => simp [resolve1] at ht
          | bad => simp [resolve1] at ht
        rcases hsc with ⟨hs, i, rfl⟩ | ⟨hs, l, rfl⟩
        · simp only [hs, Bool.not_true, Bool.false_eq_true, if_false]
          obtain ⟨σ, h1, h2, h3, h4, h5⟩ := ih (p := p) hf2 hg hτ'
          refine ⟨_ :: σ, (resolve_cons_iff hk').mpr ⟨_, _, _, _, rfl, rfl, ht, h1⟩, h2, ?_, ?_, ?_⟩
          · simpa only [selShape] using h3
          · simpa only [selShape] using h4
          · intro idx hi
            simp only [selSrc]
            rw [h5 idx (by simpa only [selShape] using hi)]
        · simp only [hs, Bool.not_false, if_true]
          obtain ⟨σ, h1, h2, h3, h4, h5⟩ := ih (p := p + 1) hf2 hg hτ'
          have hn := hnone (fun q hq => (h3 q hq).1)
          refine ⟨_ :: σ, (resolve_cons_iff hk').mpr ⟨_, _, _, _, rfl, rfl, ht, h1⟩, h2, ?_, ?_, ?_⟩
          · intro q hq
            have := h3 q hq
            refine ⟨by omega, ?_⟩
            rw [show q.1 - p = (q.1 - (p + 1)) + 1 by omega]
            simpa [selShape] using this.2
          · simp only [selShape, bcShape, hn, Option.getD_none, h4]
          · intro idx hi
            cases idx with
            | nil => exact hi.elim
            | cons j idx =>
              simp only [bcIdx, selSrc, hn]
              rw [h5 idx hi.2]; simp

theorem newDims_ones {na s : List Nat} (h : na.length = s.length + 1) : List.Forall₂ (fun f n => f = true → n = 1) (newDims na) (naShape na s) := by
  induction s generalizing na with
  | nil =>
    match na, h with
    | [c], _ =>
      simp only [newDims, naShape]
      induction c with
      | zero => exact .nil
      | succ c ih => exact .cons (fun _ => rfl) (ih rfl)
  | cons x s ih =>
    match na, h with
    | c :: n :: ns, h =>
      simp only [newDims, naShape]
      induction c with
      | zero => exact .cons (fun h => by cases h) (ih (by simpa using h))
      | succ c ihc => exact .cons (fun _ => rfl) (ihc (by simpa using h))

theorem cutsNew_increasing (f : Key → Bool) (hf : ∀ k : Key, k.isScalar = false → f k = true) : ∀ {fk : List Key} {p : Nat} {fs : List Bool},
    ((cutsNew f p fs fk).map Prod.fst).Pairwise (· < ·) ∧ ∀ q ∈ cutsNew f p fs fk, p ≤ q.1 := by
  intro fk
  induction fk with
  | nil => intro p fs; cases fs <;> simp [cutsNew]
  | cons k fk ih =>
    intro p fs
    by_cases hk : k = .newaxis
    · subst hk
      have hcut : cutsNew f p fs (.newaxis :: fk) = cutsNew f (p + 1) fs fk := by
        rcases fs with _ | ⟨_ | _, fs⟩ <;> simp only [cutsNew]
      rw [hcut]
      obtain ⟨h1, h2⟩ := ih (p := p + 1) (fs := fs)
      exact ⟨h1, fun q hq => by have := h2 q hq; omega⟩
    · rcases fs with _ | ⟨_ | _, fs⟩
      · rw [cutsNew]
        · simp
        · exact hk
      · rw [cutsNew]
        swap; exact hk
        obtain ⟨h1, h2⟩ := ih (p := if f k = true then p + 1 else p) (fs := fs)
        exact ⟨h1, fun q hq => by have := h2 q hq; split at this <;> omega⟩
      · rw [cutsNew]
        swap; exact hk
        obtain ⟨h1, h2⟩ := ih (p := if f k = true then p + 1 else p) (fs := fs)
        cases ha : k.asks with
        | none =>
          simp only [Option.toList_none, List.map_nil, List.nil_append]
          exact ⟨h1, fun q hq => by have := h2 q hq; split at this <;> omega⟩
        | some n =>
          have hs : k.isScalar = false := by cases k <;> simp_all [Key.asks, Key.isScalar]
          rw [hf k hs] at h1 h2 ⊢
          simp only [if_true] at h1 h2 ⊢
          refine ⟨?_, ?_⟩
          · rw [Option.toList_some, List.map_singleton, List.singleton_append, List.map_cons, List.pairwise_cons]
            refine ⟨fun b hb => ?_, h1⟩
            obtain ⟨q, hq, rfl⟩ := List.mem_map.mp hb
            have := h2 q hq
            omega
          · intro q hq
            simp only [Option.toList_some, List.map_singleton, List.singleton_append, List.mem_cons] at hq
            rcases hq with rfl | hq
            · exact Nat.le_refl p
            · have := h2 q hq; omega

theorem keepNew_types {fk : List Key} {fs : List Bool} (hg : NewKeys fs fk) : NewKeys fs (keepNew fs fk) := by
  induction fk generalizing fs with
  | nil => cases fs <;> simp [keepNew, NewKeys]
  | cons k fk ih =>
    by_cases hk : k = .newaxis
    · subst hk
      rcases fs with _ | ⟨_ | _, fs⟩ <;> (simp only [keepNew, NewKeys] at hg ⊢; exact ih hg)
    · rcases fs with _ | ⟨_ | _, fs⟩
      · rw [keepNew]
        · exact hg
        · exact hk
      · rw [keepNew, NewKeys]
        · rw [NewKeys] at hg
          · exact ih hg
          · exact hk
        · exact hk
        · exact hk
      · rw [keepNew, NewKeys]
        · rw [NewKeys] at hg
          · refine ⟨?_, ih hg.2⟩
            split
            · exact hg.1
            · exact Or.inr (Or.inl ⟨_, rfl⟩)
          · exact hk
        · split
          · exact hk
          · simp [Key.full]
        · exact hk

theorem keepNew_noEllipsis {fk : List Key} (hE : ∀ k ∈ fk, k.isEllipsis = false) (fs : List Bool) : ∀ k ∈ keepNew fs fk, k.isEllipsis = false := by
  induction fk generalizing fs with
  | nil => cases fs <;> simp [keepNew]
  | cons k fk ih =>
    have ih' := ih (fun k hk => hE k (List.mem_cons_of_mem _ hk))
    have hk0 := hE k List.mem_cons_self
    by_cases hk : k = .newaxis
    · subst hk
      rcases fs with _ | ⟨_ | _, fs⟩ <;> (simp only [keepNew]; intro x hx; rcases List.mem_cons.mp hx with rfl | hx; · rfl
                                          · exact ih' _ x hx)
    · rcases fs with _ | ⟨_ | _, fs⟩
      · rw [keepNew]
        · exact hE
        · exact hk
      · rw [keepNew]
        · intro x hx
          rcases List.mem_cons.mp hx with rfl | hx
          · exact hk0
          · exact ih' _ x hx
        · exact hk
      · rw [keepNew]
        · intro x hx
          rcases List.mem_cons.mp hx with rfl | hx
          · split
            · exact hk0
            · rfl
          · exact ih' _ x hx
        · exact hk

/-- Indexing a `NewAxesArray`: the slices and tuples on new dimensions become `:`, and the result is broadcast by key position. -/
theorem newAxes_getitem_keep [Inhabited α] {a : Arr α} {s na : List Nat} (hs : a.shape = .ok s) (hna : na.length = s.length + 1) {ks fk : List Key} {τ : List Sel}
    (hfk : expandKeys ks (naShape na s).length = .ok fk) (hg : NewKeys (newDims na) fk) (hτ : resolve fk (naShape na s) = .ok τ) :
    (Arr.newAxes a na).getitem ks = ((Arr.newAxes a na).getitem (keepNew (newDims na) fk)).bind (fun e =>
      if (cutsAtKeys na fk).isEmpty then .ok e else mkBcast e (cutsAtKeys na fk) []) ∧
    ∀ e, (Arr.newAxes a na).getitem (keepNew (newDims na) fk) = .ok e → e.notBcast = true := by
  match na, hna with
  | c :: ns, hna =>
  have hl : ns.length = s.length := by simpa using hna
  obtain ⟨τ', k1, _, _, _, _⟩ := keep_sem (p := 0) (newDims_ones hna) hg hτ
  obtain ⟨hE, hn⟩ := expandKeys_spec hfk
  rw [newDims_eq] at hg k1
  simp only [cutsAtKeys, newDims_eq]
  obtain ⟨c1, c2, c3, c4⟩ := keep_same (fk := fk) (p := 0) (c := c) (ns := ns)
  have hkt : naTypes c ns (keepNew (isNewOf c ns) fk) := newTypes (keepNew_types hg)
  obtain ⟨st, f1, f2, f3, f4, f5⟩ := naFoldT (p := 0) (o := 0) (P := []) (C0 := []) (K0 := []) (D0 := []) hl (newTypes hg) hτ
  obtain ⟨st', f1', f2', f3', f4', f5'⟩ := naFoldT (p := 0) (o := 0) (P := []) (C0 := []) (K0 := []) (D0 := []) hl hkt k1
  simp only [List.nil_append, List.length_nil, Nat.add_zero, List.map_id', addHead_zero, Nat.zero_add] at f1 f2 f3 f4 f5 f1' f2' f3' f4' f5'
  have hE' := keepNew_noEllipsis hE (isNewOf c ns)
  have hn' : nConsuming (keepNew (isNewOf c ns) fk) = (naShape (c :: ns) s).length := nConsuming_resolve k1
  have hfk' := expandKeys_self hE' hn'
  rw [Arr.getitem, Arr.getitem, hs]
  simp only [bind, Except.bind]
  unfold newAxesGetitem
  rw [naShape_length (by simpa using hl)] at hfk hfk'
  rw [fullKeys_of_expandKeys ks fk _ hfk, fullKeys_of_expandKeys _ _ _ hfk']
  simp only [bind, Except.bind]
  rw [← hl, naInsert_true, f1, f1']
  simp only [bind, Except.bind]
  rw [f2, f3, f4, f5, f2', f3', f4', f5', combine_naRaw, combine_naRaw, c1, c2, c3, c4]
  cases a.getitem (containedKeys c ns fk) with
  | error e => exact ⟨rfl, fun e h => by cases h⟩
  | ok b =>
    simp only [bind, Except.bind]
    cases hmk : mkNewAxes b (naOut c ns fk) with
    | error e => exact ⟨rfl, fun e h => by cases h⟩
    | ok r =>
      refine ⟨rfl, fun e h => ?_⟩
      cases h
      unfold mkNewAxes at hmk
      obtain ⟨_, _, hmk⟩ := bind_ok.mp hmk
      simp only at hmk
      split at hmk
      · cases hmk
      · cases hmk; rfl

end Biggus

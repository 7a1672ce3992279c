import Verif.Model.Stacks
import Verif.Proofs.Constructors
/-
`multidim_array_stack`.
-/
namespace Biggus

variable {α V : Type} [Inhabited α] [Inhabited V] {m : Mode α V} {limit : Nat}

theorem yields_stackList {l : List (Arr α)} {y : Nat → NDA V} {s : List Nat} (h0 : l ≠ [])
    (h : ∀ i, i < l.length → (l.getD i default).Yields m limit (y i) ∧ (y i).shape = s) :
    ∃ b, stackList l = .ok b ∧ b.Yields m limit (NDA.stacked [l.length] (fun i => y (i.headD 0))) := by
  have hp : [l.length].prod ≠ 0 := by simpa using h0
  have hi : ∀ i, InB [l.length] i → i.headD 0 < l.length := by
    intro i hi
    match i, hi with
    | [i], hi => exact hi.1
  have hy : ∀ i, InB [l.length] i → (l.getD (i.headD 0) default).Yields m limit (y (i.headD 0)) ∧ (y (i.headD 0)).shape = s :=
    fun i h' => h _ (hi i h')
  refine ⟨_, mkStack_iff.mpr ⟨hp, ⟨s, fun i h' => by rw [(hy i h').1.1, (hy i h').2]⟩, rfl⟩, yields_stack hp hy⟩

theorem stacked_cons {d : Nat} {t s : List Nat} {f : Nat → List Nat → NDA V} (hd : d ≠ 0) (ht : t.prod ≠ 0)
    (hs : ∀ i j, i < d → InB t j → (f i j).shape = s) :
    NDA.stacked [d] (fun i => NDA.stacked t (f (i.headD 0))) ≈ₐ NDA.stacked (d :: t) (fun i => f (i.headD 0) i.tail) := by
  have hz := inB_zeros t ht
  have h1 : (NDA.stacked [d] (fun i => NDA.stacked t (f (i.headD 0)))).shape = d :: (t ++ s) := by
    simp only [NDA.stacked, List.map_cons, List.map_nil, List.headD_cons]
    rw [hs 0 _ (Nat.pos_of_ne_zero hd) hz]; rfl
  refine ⟨?_, fun idx hi => ?_⟩
  · rw [h1]
    simp only [NDA.stacked, List.map_cons, List.headD_cons, List.tail_cons]
    rw [hs 0 _ (Nat.pos_of_ne_zero hd) hz]; rfl
  · rw [h1] at hi
    match idx, hi with
    | i :: idx, hi =>
      simp only [NDA.stacked, List.length_cons, List.length_nil, List.take_succ_cons, List.drop_succ_cons, List.headD_cons,
        List.take_zero, List.drop_zero, List.tail_cons]

/-- What is known of the list after the dimensions `t` have been formed and `P` stacks are left. -/
def MdInv (m : Mode α V) (limit : Nat) (s : List Nat) (P : Nat) (t : List Nat) (pos : Nat → List Nat → NDA V) (l : List (Arr α)) : Prop :=
  l.length = P ∧ ∀ k, k < P → (l.getD k default).Yields m limit (NDA.stacked t (pos k)) ∧ ∀ j, InB t j → (pos k j).shape = s

/-- Cutting the list into `P'` pieces of `d` arrays each. -/
theorem md_pieces {s t : List Nat} {P' d : Nat} {pos : Nat → List Nat → NDA V} {l : List (Arr α)} {gs : List (List (Arr α))}
    {at' : Nat → Nat → Nat} (hd : d ≠ 0) (ht : t.prod ≠ 0) (h : MdInv m limit s (P' * d) t pos l) (hg : gs.length = P')
    (hp : ∀ k, k < P' → (gs.getD k []).length = d ∧ ∀ i, i < d → at' k i < P' * d ∧
      (gs.getD k []).getD i default = l.getD (at' k i) default) :
    ∃ l', gs.mapM stackList = .ok l' ∧ MdInv m limit s P' (d :: t) (fun k j => pos (at' k (j.headD 0)) j.tail) l' := by
  obtain ⟨h1, h2⟩ := h
  have hz := inB_zeros t ht
  have hst : ∀ k, k < P' → ∃ b, stackList (gs.getD k []) = .ok b ∧
      b.Yields m limit (NDA.stacked (d :: t) (fun j => pos (at' k (j.headD 0)) j.tail)) := by
    intro k hk
    obtain ⟨q1, q2⟩ := hp k hk
    obtain ⟨b, hb, hy⟩ := yields_stackList (m := m) (limit := limit) (l := gs.getD k []) (s := t ++ s)
      (y := fun i => NDA.stacked t (pos (at' k i))) (by intro h; rw [h] at q1; exact hd q1.symm) (by
        intro i hi
        rw [q1] at hi
        obtain ⟨q3, q4⟩ := q2 i hi
        rw [q4]
        refine ⟨(h2 _ q3).1, ?_⟩
        simp only [NDA.stacked]
        rw [(h2 _ q3).2 _ hz])
    refine ⟨b, hb, ?_⟩
    rw [q1] at hy
    exact hy.congr (stacked_cons (f := fun i => pos (at' k i)) hd ht (fun i j hi hj => (h2 _ (q2 i hi).1).2 j hj))
  have hex : ∃ l', gs.mapM stackList = .ok l' := by
    rcases mapM_error' stackList .index gs (by
      intro x hx e' he
      obtain ⟨k, hk, rfl⟩ := List.getElem_of_mem hx
      obtain ⟨b, hb, _⟩ := hst k (by rw [← hg]; exact hk)
      rw [List.getD_eq_getElem _ _ hk] at hb
      rw [hb] at he; cases he) with h | h
    · exact h
    · exfalso
      have := (mapM_iff stackList gs (gs.map (fun g => okOr (stackList g) default))).mpr (by
        rw [List.forall₂_map_right_iff, List.forall₂_same]
        intro x hx
        obtain ⟨k, hk, rfl⟩ := List.getElem_of_mem hx
        obtain ⟨b, hb, _⟩ := hst k (by rw [← hg]; exact hk)
        rw [List.getD_eq_getElem _ _ hk] at hb
        rw [hb]; rfl)
      rw [h] at this; cases this
  obtain ⟨l', hl'⟩ := hex
  have hf := (mapM_iff _ _ _).mp hl'
  have hlen : l'.length = P' := by rw [← hf.length_eq, hg]
  refine ⟨l', hl', hlen, fun k hk => ?_⟩
  obtain ⟨b, hb, hy⟩ := hst k hk
  have hk1 : k < gs.length := by omega
  have hk2 : k < l'.length := by omega
  have := (List.forall₂_iff_get.mp hf).2 k hk1 hk2
  simp only [List.get_eq_getElem] at this
  rw [List.getD_eq_getElem _ _ hk1, this] at hb
  rw [List.getD_eq_getElem _ _ hk2]
  cases hb
  refine ⟨hy, fun j hj => ?_⟩
  match j, hj with
  | i :: j, hj =>
    simp only [List.headD_cons, List.tail_cons]
    exact (h2 _ ((hp k hk).2 i hj.1).1).2 j hj.2

theorem mdStep_c {s t : List Nat} {P' d : Nat} {pos : Nat → List Nat → NDA V} {l : List (Arr α)} (hd : d ≠ 0) (ht : t.prod ≠ 0)
    (h : MdInv m limit s (P' * d) t pos l) :
    ∃ l', mdStep .c d l = .ok l' ∧ MdInv m limit s P' (d :: t) (fun k j => pos (k * d + j.headD 0) j.tail) l' := by
  unfold mdStep groupsOf
  simp only [hd, if_false, bind, Except.bind]
  have hl : l.length = P' * d := h.1
  have hn : (l.length + d - 1) / d = P' := by
    rw [hl]
    have : P' * d + d - 1 = (d - 1) + P' * d := by omega
    rw [this, Nat.add_mul_div_right _ _ (Nat.pos_of_ne_zero hd), Nat.div_eq_of_lt (by omega)]; omega
  rw [hn]
  refine md_pieces (at' := fun k i => k * d + i) hd ht h (by simp) ?_
  intro k hk
  have hkd : k * d + d ≤ P' * d := by
    calc k * d + d = (k + 1) * d := by ring
      _ ≤ P' * d := Nat.mul_le_mul_right _ hk
  have e : ((List.range P').map (fun i => (l.drop (i * d)).take d)).getD k [] = (l.drop (k * d)).take d := by
    rw [List.getD_eq_getElem _ _ (by simpa using hk)]; simp
  rw [e]
  refine ⟨by simp; omega, fun i hi => ⟨by omega, ?_⟩⟩
  rw [List.getD_eq_getElem?_getD, List.getElem?_take, if_pos hi, List.getElem?_drop, ← List.getD_eq_getElem?_getD]

theorem mdStep_f {s t : List Nat} {P' d : Nat} {pos : Nat → List Nat → NDA V} {l : List (Arr α)} (hd : d ≠ 0) (hP : P' ≠ 0)
    (ht : t.prod ≠ 0) (h : MdInv m limit s (P' * d) t pos l) :
    ∃ l', mdStep .f d l = .ok l' ∧ MdInv m limit s P' (d :: t) (fun k j => pos (k + j.headD 0 * P') j.tail) l' := by
  have hl : l.length = P' * d := h.1
  have hdiv : l.length / d = P' := by rw [hl, Nat.mul_div_cancel _ (Nat.pos_of_ne_zero hd)]
  have hlt : ∀ k i, k < P' → i < d → k + i * P' < P' * d := by
    intro k i hk hi
    calc k + i * P' < P' + i * P' := by omega
      _ = (i + 1) * P' := by ring
      _ ≤ d * P' := Nat.mul_le_mul_right _ hi
      _ = P' * d := Nat.mul_comm _ _
  unfold mdStep
  simp only [hd, if_false]
  by_cases hfull : d = l.length
  · have hP1 : P' = 1 := by
      rw [hl] at hfull
      have : P' * d = 1 * d := by rw [one_mul]; exact hfull.symm
      exact Nat.eq_of_mul_eq_mul_right (Nat.pos_of_ne_zero hd) this
    subst hP1
    rw [if_pos hfull]
    obtain ⟨l', h1, h2⟩ := md_pieces (gs := [l]) (at' := fun k i => k + i * 1) hd ht h rfl (by
      intro k hk
      have : k = 0 := by omega
      subst this
      refine ⟨hfull.symm, fun i hi => ⟨hlt 0 i hk hi, by simp⟩⟩)
    refine ⟨l', ?_, h2⟩
    rw [← h1, List.mapM_cons, List.mapM_nil]
    rfl
  · rw [if_neg hfull, hdiv]
    have : (List.range P').mapM (fun i => stackList (strided l i P')) =
        ((List.range P').map (fun i => strided l i P')).mapM stackList := by
      rw [List.mapM_map]; rfl
    rw [this]
    refine md_pieces (at' := fun k i => k + i * P') hd ht h (by simp) ?_
    intro k hk
    have e : ((List.range P').map (fun i => strided l i P')).getD k [] = strided l k P' := by
      rw [List.getD_eq_getElem _ _ (by simpa using hk)]; simp
    rw [e]
    have hn : (l.length - k + P' - 1) / P' = d := by
      rw [hl]
      obtain ⟨d', rfl⟩ : ∃ d', d = d' + 1 := ⟨d - 1, by omega⟩
      have : P' * (d' + 1) - k + P' - 1 = (P' - 1 - k) + P' * (d' + 1) := by
        rw [Nat.mul_add]; omega
      rw [this, Nat.add_mul_div_left _ _ (Nat.pos_of_ne_zero hP), Nat.div_eq_of_lt (by omega)]; omega
    refine ⟨by simp [strided, hn], fun i hi => ⟨hlt k i hk hi, ?_⟩⟩
    unfold strided
    rw [hn, List.getD_eq_getElem _ _ (by simpa using hi)]
    simp

theorem flatIndex_cons (n : Nat) (ns : List Nat) (i : Nat) (is : List Nat) :
    flatIndex (n :: ns) (i :: is) = i * ns.prod + flatIndex ns is := rfl

/-- The loop, in C order. -/
theorem md_loop_c {s : List Nat} {x : Nat → NDA V} : ∀ (q t : List Nat) (l : List (Arr α)), q.prod ≠ 0 → t.prod ≠ 0 →
    MdInv m limit s q.prod t (fun k j => x (k * t.prod + flatIndex t j)) l →
    ∃ l', q.foldlM (fun l d => mdStep .c d l) l = .ok l' ∧
      MdInv m limit s 1 (q.reverse ++ t) (fun k j => x (k * (q.reverse ++ t).prod + flatIndex (q.reverse ++ t) j)) l'
  | [], t, l, _, _, h => ⟨l, rfl, h⟩
  | d :: q, t, l, hq, ht, h => by
    simp only [List.prod_cons, ne_eq, Nat.mul_eq_zero, not_or] at hq
    rw [List.prod_cons, Nat.mul_comm] at h
    obtain ⟨l', h1, h2⟩ := mdStep_c hq.1 ht h
    have h3 : MdInv m limit s q.prod (d :: t) (fun k j => x (k * (d :: t).prod + flatIndex (d :: t) j)) l' := by
      refine ⟨h2.1, fun k hk => ?_⟩
      obtain ⟨e1, e2⟩ := h2.2 k hk
      have he : ∀ j, InB (d :: t) j → (k * d + j.headD 0) * t.prod + flatIndex t j.tail = k * (d :: t).prod + flatIndex (d :: t) j := by
        intro j hj
        match j, hj with
        | i :: j, hj =>
          rw [flatIndex_cons, List.prod_cons]
          simp only [List.headD_cons, List.tail_cons]; ring
      refine ⟨e1.congr ⟨?_, fun idx hi => ?_⟩, fun j hj => ?_⟩
      · simp only [NDA.stacked]
        rw [he _ (inB_zeros _ (by simp [hq.1]; simpa using ht))]
      · simp only [NDA.stacked] at hi ⊢
        rw [he _ (inB_split (s := d :: t) hi).1]
      · have := e2 j hj
        simp only at this ⊢
        rw [← he j hj]; exact this
    obtain ⟨l'', g1, g2⟩ := md_loop_c q (d :: t) l' hq.2 (by simp [hq.1]; simpa using ht) h3
    refine ⟨l'', ?_, by simpa using g2⟩
    rw [List.foldlM_cons, h1]; exact g1

/-- The loop, in Fortran order. -/
theorem md_loop_f {s : List Nat} {x : Nat → NDA V} : ∀ (q t : List Nat) (l : List (Arr α)), q.prod ≠ 0 → t.prod ≠ 0 →
    MdInv m limit s q.prod t (fun k j => x (k + q.prod * colIndex t j)) l →
    ∃ l', q.foldlM (fun l d => mdStep .f d l) l = .ok l' ∧
      MdInv m limit s 1 (q.reverse ++ t) (fun k j => x (k + 1 * colIndex (q.reverse ++ t) j)) l'
  | [], t, l, _, _, h => ⟨l, rfl, h⟩
  | d :: q, t, l, hq, ht, h => by
    simp only [List.prod_cons, ne_eq, Nat.mul_eq_zero, not_or] at hq
    rw [List.prod_cons, Nat.mul_comm] at h
    obtain ⟨l', h1, h2⟩ := mdStep_f hq.1 hq.2 ht h
    have h3 : MdInv m limit s q.prod (d :: t) (fun k j => x (k + q.prod * colIndex (d :: t) j)) l' := by
      refine ⟨h2.1, fun k hk => ?_⟩
      obtain ⟨e1, e2⟩ := h2.2 k hk
      have he : ∀ j, InB (d :: t) j → k + j.headD 0 * q.prod + q.prod * d * colIndex t j.tail = k + q.prod * colIndex (d :: t) j := by
        intro j hj
        match j, hj with
        | i :: j, hj =>
          simp only [colIndex, List.headD_cons, List.tail_cons]; ring
      refine ⟨e1.congr ⟨?_, fun idx hi => ?_⟩, fun j hj => ?_⟩
      · simp only [NDA.stacked]
        rw [he _ (inB_zeros _ (by simp [hq.1]; simpa using ht))]
      · simp only [NDA.stacked] at hi ⊢
        rw [he _ (inB_split (s := d :: t) hi).1]
      · have := e2 j hj
        simp only at this ⊢
        rw [← he j hj]; exact this
    obtain ⟨l'', g1, g2⟩ := md_loop_f q (d :: t) l' hq.2 (by simp [hq.1]; simpa using ht) h3
    refine ⟨l'', ?_, by simpa using g2⟩
    rw [List.foldlM_cons, h1]; exact g1

theorem stacked_nil (x : NDA V) : NDA.stacked [] (fun _ => x) ≈ₐ x := ⟨rfl, fun _ _ => rfl⟩

end Biggus

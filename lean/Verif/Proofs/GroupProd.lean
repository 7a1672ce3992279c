import Verif.Proofs.GroupKeysLoop
import Verif.Proofs.Chunks
/-
`group_keys` when all inputs are cut in the same way: the groups are the parts, in lexicographic order.
-/
namespace Biggus

/-- Intervals that follow each other from `p` to `n`. -/
def Contig (n : Nat) : Nat → List (Nat × Nat) → Prop
  | p, [] => p = n
  | p, x :: I => x.1 = p ∧ p < x.2 ∧ x.2 ≤ n ∧ Contig n x.2 I

theorem Contig.mem {n : Nat} : ∀ {I : List (Nat × Nat)} {p : Nat}, Contig n p I → ∀ x ∈ I, p ≤ x.1 ∧ x.1 < x.2 ∧ x.2 ≤ n
  | [], _, _, _, hx => by cases hx
  | y :: I, p, ⟨h1, h2, h3, h4⟩, x, hx => by
    rcases List.mem_cons.mp hx with rfl | hx
    · omega
    · have := h4.mem x hx
      omega

/-- The slice as a tuple. -/
def tup (s : PySlice) : SliceTuple := (s.start, s.stop, s.step)

@[simp] theorem asSlice_tup (s : PySlice) : asSlice (tup s) = s := rfl

theorem tup_nslice {n a e : Nat} : tup (nslice n (a, e)) = groupTuple n a e := by
  have := asSlice_tuple (n := n) (a := a) (e := e)
  rw [← this]
  rfl

/-- The parts of one dimension, normalised. -/
structure DimSpec (n : Nat) (N : List PySlice) : Prop where
  zero : n = 0 → N = [PySlice.full]
  pos : 0 < n → ∃ I, Contig n 0 I ∧ N = I.map (nslice n)

/-- A key of one dimension. -/
structure KeyFine (n : Nat) (k : PySlice) : Prop where
  zero : n = 0 → k = PySlice.full
  pos : 0 < n → Proper n k

/-- The groups from `p` on when every input consists of the intervals `pre ++ I`. -/
theorem groups_prod {n : Nat} {Ks : List (List (Nat × Nat))} (hne : Ks ≠ []) (J : List (Nat × Nat)) (hK : ∀ K ∈ Ks, ∀ x, x ∈ K ↔ x ∈ J) :
    ∀ (I : List (Nat × Nat)) (p : Nat) (g : List (SliceTuple × List (List PySlice))), Contig n p I → (∀ x ∈ I, x ∈ J) →
    (∀ x ∈ J, x.2 ≤ p ∨ x ∈ I) → GroupsFrom n Ks p g →
    g = I.map (fun x => (groupTuple n x.1 x.2, Ks.map (fun K => (K.filter (fun y => decide (x.1 ≤ y.1 ∧ y.2 ≤ x.2))).map (nslice n))))
  | [], p, g, hI, _, _, hg => by
    have hp : p = n := hI
    match g, hg with
    | [], _ => rfl
    | y :: g, ⟨e, h1, h2, _⟩ => omega
  | x :: I, p, g, ⟨i1, i2, i3, i4⟩, hin, hout, hg => by
    match g, hg with
    | [], hg =>
      have : p = n := hg
      omega
    | y :: g, ⟨e, h1, h2, h3, h4, h5, h6, h7⟩ =>
      have hex : e = x.2 := by
        obtain ⟨K, Ks', rfl⟩ := List.exists_cons_of_ne_nil hne
        obtain ⟨z, hz, rfl⟩ := h5 K List.mem_cons_self
        have hzJ := (hK K List.mem_cons_self z).mp hz
        have hge : x.2 ≤ z.2 := by
          rcases hout z hzJ with h | h
          · omega
          · rcases List.mem_cons.mp h with rfl | h
            · exact le_refl _
            · have := i4.mem z h
              omega
        by_contra hne'
        refine h6 x.2 (by omega) (by omega) ?_
        intro K' hK'
        exact ⟨x, (hK K' hK' x).mpr (hin x List.mem_cons_self), rfl⟩
      subst hex
      rw [List.map_cons]
      have hx1 : p = x.1 := i1.symm
      subst hx1
      congr 1
      · exact Prod.ext h3 h4
      · exact groups_prod hne J hK I x.2 g i4 (fun z hz => hin z (List.mem_cons_of_mem _ hz)) (by
          intro z hz
          rcases hout z hz with h | h
          · left; omega
          · rcases List.mem_cons.mp h with rfl | h
            · exact Or.inl (le_refl _)
            · exact Or.inr h) h7

theorem nslice_proper_iv {n : Nat} {k : PySlice} (h : Proper n k) {x : Nat × Nat} (hx : normalizeSlice k n = nslice n x) : iv n k = x := by
  rw [(proper_iv h).2.2.2] at hx
  exact nslice_inj hx

theorem sortKeys_full (l : List PySlice) (h : ∀ k ∈ l, k = PySlice.full) : sortKeys 0 l = l := by
  unfold sortKeys
  have h1 : l = List.replicate l.length PySlice.full := List.eq_replicate_iff.mpr ⟨rfl, h⟩
  have hp := List.perm_insertionSort (sliceLe 0) l
  have h2 : l.insertionSort (sliceLe 0) = List.replicate l.length PySlice.full := by
    rw [List.eq_replicate_iff]
    exact ⟨hp.length_eq, fun k hk => h k (hp.mem_iff.mp hk)⟩
  rw [h2, ← h1]

theorem skipRepeats_full : ∀ (l : List PySlice) (i : Nat), (∀ k ∈ l, k = PySlice.full) → skipRepeats 0 0 i l = i + l.length
  | [], i, _ => rfl
  | k :: l, i, h => by
    have hk := h k List.mem_cons_self
    subst hk
    unfold skipRepeats
    have : ¬ (pyOr PySlice.full.stop (0 : Nat) ≠ 0) := by simp [pyOr, PySlice.full]
    rw [if_neg this, skipRepeats_full l (i + 1) (fun k hk => h k (List.mem_cons_of_mem _ hk)), List.length_cons]
    omega

theorem allEqual_zero {l : List Int} (h : ∀ x ∈ l, x = 0) : allEqual l = true := by
  unfold allEqual
  rw [List.all_eq_true]
  intro x hx
  have hh : l.headD 0 = 0 := by
    cases l with
    | nil => rfl
    | cons y l => exact h y List.mem_cons_self
  rw [hh, h x hx]
  rfl

/-- A dimension of length 0. -/
theorem dimensionGroup_zero {inputs : List (List PySlice)} (hne : inputs ≠ []) (h : ∀ l ∈ inputs, l ≠ [] ∧ ∀ k ∈ l, k = PySlice.full) :
    dimensionGroup 0 inputs = .ok [(tup PySlice.full, inputs)] := by
  have hn : normalizeSlice PySlice.full 0 = PySlice.full := by decide
  have hkeys : inputs.map (fun keys => sortKeys 0 (keys.map (fun k => normalizeSlice k 0))) = inputs := by
    conv_rhs => rw [← List.map_id inputs]
    apply List.map_congr_left
    intro l hl
    have h1 : l.map (fun k => normalizeSlice k 0) = l := by
      conv_rhs => rw [← List.map_id l]
      apply List.map_congr_left
      intro k hk
      rw [(h l hl).2 k hk, hn]
      rfl
    rw [h1, sortKeys_full l (h l hl).2]
    rfl
  unfold dimensionGroup
  simp only [hkeys]
  have hk : keysAt inputs (inputs.map (fun _ => 0)) = .ok (inputs.map (fun _ => PySlice.full)) := by
    unfold keysAt
    have hz : inputs.zip (inputs.map (fun _ => 0)) = inputs.map (fun l => (l, 0)) := by
      clear hne h hkeys
      induction inputs with
      | nil => rfl
      | cons l inputs ih => simp only [List.map_cons, List.zip_cons_cons, ih]
    rw [hz, List.mapM_map]
    apply mapM_ok
    intro l hl
    obtain ⟨k, l', rfl⟩ := List.exists_cons_of_ne_nil (h l hl).1
    have := (h _ hl).2 k List.mem_cons_self
    simp [this]
  unfold grpLoop
  have hne' : ¬ (inputs.map (fun _ => 0) = inputs.map List.length) := by
    intro he
    obtain ⟨l, inputs', rfl⟩ := List.exists_cons_of_ne_nil hne
    rw [List.map_cons, List.map_cons, List.cons.injEq] at he
    exact (h l List.mem_cons_self).1 (List.eq_nil_of_length_eq_zero he.1.symm)
  rw [if_neg hne']
  have hbody : grpBody 0 inputs ⟨inputs.map (fun _ => 0), inputs.map (fun _ => 0), []⟩ =
      .ok ⟨inputs.map List.length, inputs.map List.length, [(tup PySlice.full, inputs)]⟩ := by
    unfold grpBody
    simp only [hk, bind, Except.bind]
    rw [if_neg, if_pos]
    · unfold closeGroup
      have hadj : ((inputs.map (fun _ => 0)).zip inputs).map (fun p => skipRepeats 0 0 p.1 (p.2.drop (p.1 + 1))) = inputs.map (fun l => l.length - 1) := by
        have hz : (inputs.map (fun _ => 0)).zip inputs = inputs.map (fun l => (0, l)) := by
          clear hne h hkeys hk hne'
          induction inputs with
          | nil => rfl
          | cons l inputs ih => simp only [List.map_cons, List.zip_cons_cons, ih]
        rw [hz, List.map_map]
        apply List.map_congr_left
        intro l hl
        simp only [Function.comp]
        rw [skipRepeats_full _ _ (fun k hk => (h l hl).2 k (List.mem_of_mem_drop hk))]
        simp
      have hst : (((inputs.map (fun _ => PySlice.full)).map (fun k => pyOr k.stop ((0 : Nat) : Int))).headD 0) = 0 := by
        cases inputs <;> simp [pyOr, PySlice.full]
      have hst' : (((inputs.map (fun _ => PySlice.full)).map (fun k => pyOr k.start 0)).headD 0) = 0 := by
        cases inputs <;> simp [pyOr, PySlice.full]
      rw [hst, hst']
      simp only [hadj]
      have hcur : (inputs.map (fun l => l.length - 1)).map (· + 1) = inputs.map List.length := by
        rw [List.map_map]
        apply List.map_congr_left
        intro l hl
        have := List.length_pos_of_ne_nil (h l hl).1
        simp only [Function.comp]
        omega
      rw [hcur]
      have hent : (inputs.zip ((inputs.map (fun _ => 0)).zip (inputs.map (fun l => l.length - 1)))).map (fun p => (p.1.take (p.2.2 + 1)).drop p.2.1) = inputs := by
        have hz : inputs.zip ((inputs.map (fun _ => 0)).zip (inputs.map (fun l => l.length - 1))) = inputs.map (fun l => (l, 0, l.length - 1)) := by
          clear hne h hkeys hk hne' hadj hst hst' hcur
          induction inputs with
          | nil => rfl
          | cons l inputs ih => simp only [List.map_cons, List.zip_cons_cons, ih]
        rw [hz, List.map_map]
        conv_rhs => rw [← List.map_id inputs]
        apply List.map_congr_left
        intro l hl
        have := List.length_pos_of_ne_nil (h l hl).1
        simp only [Function.comp, List.drop_zero]
        rw [List.take_of_length_le (by omega)]
        rfl
      rw [hent]
      rfl
    · apply allEqual_zero
      intro x hx
      rw [List.map_map] at hx
      obtain ⟨_, _, rfl⟩ := List.mem_map.mp hx
      simp [pyOr, PySlice.full]
    · rw [not_not]
      apply allEqual_zero
      intro x hx
      rw [List.map_map] at hx
      obtain ⟨_, _, rfl⟩ := List.mem_map.mp hx
      simp [pyOr, PySlice.full]
  rw [hbody]
  simp only [bind, Except.bind]
  unfold grpLoop
  rw [if_pos rfl]

/-- One dimension: the groups are the parts. -/
theorem dimensionGroup_prod {n : Nat} {N : List PySlice} {inputs : List (List PySlice)} (hN : DimSpec n N) (hne : inputs ≠ [])
    (hk : ∀ l ∈ inputs, ∀ k ∈ l, KeyFine n k ∧ normalizeSlice k n ∈ N) (hall : ∀ l ∈ inputs, ∀ s ∈ N, ∃ k ∈ l, normalizeSlice k n = s)
    (hfew : N.length ≤ 9999) :
    ∃ S : PySlice → List PySlice → List PySlice, dimensionGroup n inputs = .ok (N.map (fun s => (tup s, inputs.map (S s)))) ∧
      ∀ s ∈ N, ∀ l ∈ inputs, ∀ s', s' ∈ S s l ↔ s' = s := by
  rcases Nat.eq_zero_or_pos n with rfl | hn
  · have hN' := hN.zero rfl
    subst hN'
    have hf : ∀ l ∈ inputs, l ≠ [] ∧ ∀ k ∈ l, k = PySlice.full := by
      intro l hl
      refine ⟨?_, fun k hk' => (hk l hl k hk').1.zero rfl⟩
      obtain ⟨k, hk', _⟩ := hall l hl _ List.mem_cons_self
      exact List.ne_nil_of_mem hk'
    refine ⟨fun _ l => l, ?_, ?_⟩
    · rw [dimensionGroup_zero hne hf]
      simp
    · intro s hs l hl s'
      simp only [List.mem_singleton] at hs
      subst hs
      constructor
      · exact (hf l hl).2 s'
      · rintro rfl
        obtain ⟨k, l', rfl⟩ := List.exists_cons_of_ne_nil (hf l hl).1
        have := (hf _ hl).2 k List.mem_cons_self
        simp [this]
  · obtain ⟨I, hI, rfl⟩ := hN.pos hn
    have hiv : ∀ l ∈ inputs, ∀ k ∈ l, iv n k ∈ I ∧ Proper n k := by
      intro l hl k hk'
      obtain ⟨h1, h2⟩ := hk l hl k hk'
      obtain ⟨x, hx, he⟩ := List.mem_map.mp h2
      rw [nslice_proper_iv (h1.pos hn) he.symm]
      exact ⟨hx, h1.pos hn⟩
    have hhit : ∀ l ∈ inputs, ∀ x ∈ I, ∃ k ∈ l, iv n k = x := by
      intro l hl x hx
      obtain ⟨k, hk', he⟩ := hall l hl _ (List.mem_map_of_mem hx)
      exact ⟨k, hk', nslice_proper_iv (hiv l hl k hk').2 he⟩
    have hcov : ∀ (I : List (Nat × Nat)) (p : Nat), Contig n p I → ∀ q, p ≤ q → q < n → ∃ x ∈ I, x.1 ≤ q ∧ q < x.2 := by
      intro I
      induction I with
      | nil => intro p hp q h1 h2; have : p = n := hp; omega
      | cons x I ih =>
        rintro p ⟨i1, i2, i3, i4⟩ q h1 h2
        by_cases hq : q < x.2
        · exact ⟨x, List.mem_cons_self, by omega⟩
        · obtain ⟨y, hy, hyq⟩ := ih x.2 i4 q (by omega) h2
          exact ⟨y, List.mem_cons_of_mem _ hy, hyq⟩
    have hmeet : ∀ (I : List (Nat × Nat)) (p : Nat), Contig n p I → ∀ x ∈ I, ∀ y ∈ I, ∀ q, x.1 ≤ q → q < x.2 → y.1 ≤ q → q < y.2 → x = y := by
      intro I
      induction I with
      | nil => intro p _ x hx; cases hx
      | cons z I ih =>
        rintro p ⟨i1, i2, i3, i4⟩ x hx y hy q a b c d
        rcases List.mem_cons.mp hx with hx1 | hx1 <;> rcases List.mem_cons.mp hy with hy1 | hy1
        · rw [hx1, hy1]
        · have := i4.mem y hy1; rw [hx1] at a b; omega
        · have := i4.mem x hx1; rw [hy1] at c d; omega
        · exact ih _ i4 x hx1 y hy1 q a b c d
    have hpart : ∀ l ∈ inputs, Partition n l := by
      intro l hl
      refine ⟨fun k hk' => (hiv l hl k hk').2, ?_, ?_⟩
      · intro q hq
        obtain ⟨x, hx, hxq⟩ := hcov I 0 hI q (by omega) hq
        obtain ⟨k, hk', he⟩ := hhit l hl x hx
        refine ⟨k, hk', ?_⟩
        rw [(proper_iv (hiv l hl k hk').2).2.2.1, mem_posl, he]
        omega
      · intro k hk' k' hk'' q hq hq'
        have a := proper_iv (hiv l hl k hk').2
        have b := proper_iv (hiv l hl k' hk'').2
        rw [a.2.2.1, mem_posl] at hq
        rw [b.2.2.1, mem_posl] at hq'
        rw [a.2.2.1, b.2.2.1]
        have := hmeet I 0 hI _ (hiv l hl k hk').1 _ (hiv l hl k' hk'').1 q.toNat (by omega) (by omega) (by omega) (by omega)
        rw [this]
    rcases dimensionGroup_ok hn hne hpart with ⟨g, hg1, hg2, _⟩ | ⟨_, _, hs⟩
    · have hg := groups_prod (by simpa using hne) I (Ks := inputs.map (ivs n)) (by
        intro K hK x
        obtain ⟨l, hl, rfl⟩ := List.mem_map.mp hK
        rw [mem_ivs]
        constructor
        · rintro ⟨k, hk', rfl⟩
          exact (hiv l hl k hk').1
        · exact hhit l hl x) I 0 g hI (fun _ h => h) (fun _ h => Or.inr h) hg2
      refine ⟨fun s l => ((ivs n l).filter (fun y => decide ((iv n s).1 ≤ y.1 ∧ y.2 ≤ (iv n s).2))).map (nslice n), ?_, ?_⟩
      · rw [hg1, hg, List.map_map]
        congr 1
        apply List.map_congr_left
        intro x hx
        have hm := hI.mem x hx
        have hx' : iv n (nslice n x) = x := iv_of hm.2.1 (sel_nslice hm.2.1 hm.2.2)
        simp only [Function.comp, hx', List.map_map]
        refine Prod.ext ?_ rfl
        exact tup_nslice.symm
      · intro s hs l hl s'
        obtain ⟨x, hx, rfl⟩ := List.mem_map.mp hs
        have hm := hI.mem x hx
        have hx' : iv n (nslice n x) = x := iv_of hm.2.1 (sel_nslice hm.2.1 hm.2.2)
        simp only [hx', List.mem_map, List.mem_filter, decide_eq_true_eq]
        constructor
        · rintro ⟨y, ⟨hy, h1, h2⟩, rfl⟩
          obtain ⟨k, hk', rfl⟩ := mem_ivs.mp hy
          have hky := hiv l hl k hk'
          have hm' := hI.mem _ hky.1
          rw [hmeet I 0 hI x hx _ hky.1 (iv n k).1 (by omega) (by omega) (by omega) (by omega)]
        · rintro rfl
          refine ⟨x, ⟨?_, le_refl _, le_refl _⟩, rfl⟩
          rw [mem_ivs]
          exact hhit l hl x hx
    · have := hs (I.map Prod.snd) (by
        rintro l hl l' hl' q ⟨x, hx, rfl⟩
        obtain ⟨k, hk', rfl⟩ := mem_ivs.mp hx
        exact ⟨_, mem_ivs.mpr (hhit l' hl' _ (hiv l hl k hk').1), rfl⟩) (by
        rintro l hl q ⟨x, hx, rfl⟩
        obtain ⟨k, hk', rfl⟩ := mem_ivs.mp hx
        exact List.mem_map_of_mem (hiv l hl k hk').1)
      simp only [List.length_map] at this hfew
      omega

end Biggus

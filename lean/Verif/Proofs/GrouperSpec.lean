import Verif.Proofs.GrouperDim
/-
Key grouping of one dimension: the result meets the specification.
-/
namespace Biggus

theorem asSlice_tuple {n a e : Nat} : asSlice (groupTuple n a e) = nslice n (a, e) := by
  unfold asSlice groupTuple nslice
  congr 1
  · by_cases h : a = 0 <;> simp [h]
  · by_cases h : e = n <;> simp [h]

theorem sel_tuple {n a e : Nat} (h : a < e) (he : e ≤ n) : sel n (asSlice (groupTuple n a e)) = posl a e := by
  rw [asSlice_tuple, sel_nslice h he]

/-- No interval straddles `p`. -/
def NoCross (K : List (Nat × Nat)) (p : Nat) : Prop := ∀ x ∈ K, x.2 ≤ p ∨ p ≤ x.1

theorem Partition.noCross {n : Nat} {keys : List PySlice} (h : Partition n keys) {e : Nat} (he : Stops (ivs n keys) e) : NoCross (ivs n keys) e := by
  obtain ⟨y, hy, rfl⟩ := he
  intro x hx
  by_contra hcon
  have l1 := h.lt hx
  have l2 := h.lt hy
  have : x = y := h.meet hx hy (q := y.2 - 1) (by omega) (by omega)
  rw [this] at hcon
  omega

/-- What holds of every group. -/
structure IsGroup (n : Nat) (Ks : List (List (Nat × Nat))) (g : SliceTuple × List (List PySlice)) (a e : Nat) : Prop where
  lt : a < e
  le : e ≤ n
  key : g.1 = groupTuple n a e
  entry : g.2 = Ks.map (fun K => (K.filter (fun x => decide (a ≤ x.1 ∧ x.2 ≤ e))).map (nslice n))
  stops : ∀ K ∈ Ks, Stops K e
  start : a = 0 ∨ ∀ K ∈ Ks, Stops K a
  none : ∀ q, a < q → q < e → ¬ ∀ K ∈ Ks, Stops K q

theorem GroupsFrom.mem {n : Nat} {Ks : List (List (Nat × Nat))} : ∀ {g : List (SliceTuple × List (List PySlice))} {p : Nat},
    GroupsFrom n Ks p g → (p = 0 ∨ ∀ K ∈ Ks, Stops K p) → ∀ x ∈ g, ∃ a e, p ≤ a ∧ IsGroup n Ks x a e
  | [], _, _, _, _, hx => by cases hx
  | y :: g, p, ⟨e, h1, h2, h3, h4, h5, h6, h7⟩, hp, x, hx => by
    rcases List.mem_cons.mp hx with rfl | hx
    · exact ⟨p, e, le_refl _, h1, h2, h3, h4, h5, hp, h6⟩
    · obtain ⟨a, e', h, hI⟩ := GroupsFrom.mem h7 (Or.inr h5) x hx
      exact ⟨a, e', by omega, hI⟩

theorem GroupsFrom.tile {n : Nat} {Ks : List (List (Nat × Nat))} : ∀ {g : List (SliceTuple × List (List PySlice))} {p : Nat},
    GroupsFrom n Ks p g → p ≤ n ∧ g.flatMap (fun x => sel n (asSlice x.1)) = posl p n
  | [], p, h => by
    have : p = n := h
    subst this
    exact ⟨le_refl _, by simp [posl]⟩
  | y :: g, p, ⟨e, h1, h2, h3, h4, h5, h6, h7⟩ => by
    obtain ⟨i1, i2⟩ := GroupsFrom.tile h7
    refine ⟨by omega, ?_⟩
    rw [List.flatMap_cons, i2, h3, sel_tuple h1 h2, posl_append (by omega) h2]

theorem perm_split {α : Type} (l : List α) (p q r : α → Bool) (h : ∀ x ∈ l, p x = (q x || r x)) (h' : ∀ x ∈ l, ¬ (q x = true ∧ r x = true)) :
    (l.filter q ++ l.filter r).Perm (l.filter p) := by
  induction l with
  | nil => simp
  | cons x l ih =>
    have ih := ih (fun y hy => h y (List.mem_cons_of_mem _ hy)) (fun y hy => h' y (List.mem_cons_of_mem _ hy))
    have hx := h x List.mem_cons_self
    have hx' := h' x List.mem_cons_self
    by_cases hq : q x = true
    · have hr : r x = false := by
        cases hr : r x
        · rfl
        · exact absurd ⟨hq, hr⟩ hx'
      rw [List.filter_cons_of_pos hq, List.filter_cons_of_neg (by simp [hr]), List.filter_cons_of_pos (by simp [hx, hq])]
      exact ih.cons x
    · have hq : q x = false := by simpa using hq
      by_cases hr : r x = true
      · rw [List.filter_cons_of_neg (by simp [hq]), List.filter_cons_of_pos hr, List.filter_cons_of_pos (by simp [hx, hr])]
        exact List.perm_middle.trans (ih.cons x)
      · have hr : r x = false := by simpa using hr
        rw [List.filter_cons_of_neg (by simp [hq]), List.filter_cons_of_neg (by simp [hr]), List.filter_cons_of_neg (by simp [hx, hq, hr])]
        exact ih

theorem GroupsFrom.all {n : Nat} {inputs : List (List PySlice)} (h : ∀ keys ∈ inputs, Partition n keys) {j : Nat} (hj : j < inputs.length) :
    ∀ {g : List (SliceTuple × List (List PySlice))} {p : Nat}, GroupsFrom n (inputs.map (ivs n)) p g →
    (g.flatMap (fun x => x.2.getD j [])).Perm (((ivs n inputs[j]).filter (fun x => decide (p ≤ x.1))).map (nslice n))
  | [], p, hp => by
    have : p = n := hp
    subst this
    have hnil : (ivs p inputs[j]).filter (fun x => decide (p ≤ x.1)) = [] := by
      rw [List.filter_eq_nil_iff]
      intro x hx
      have := (h _ (List.getElem_mem hj)).lt hx
      simp only [decide_eq_true_eq]
      omega
    rw [hnil]; simp
  | y :: g, p, ⟨e, h1, h2, h3, h4, h5, h6, h7⟩ => by
    have ih := GroupsFrom.all h hj h7
    rw [List.flatMap_cons]
    have hy : y.2.getD j [] = ((ivs n inputs[j]).filter (fun x => decide (p ≤ x.1 ∧ x.2 ≤ e))).map (nslice n) := by
      rw [h4]
      simp [List.getD_eq_getElem?_getD, hj]
    rw [hy]
    refine (List.Perm.append_left _ ih).trans ?_
    rw [← List.map_append]
    apply List.Perm.map
    have hP := h _ (List.getElem_mem hj)
    have hnc := hP.noCross (h5 (ivs n inputs[j]) (List.mem_map_of_mem (List.getElem_mem hj)))
    apply perm_split
    · intro x hx
      have := hnc x hx
      have := hP.lt hx
      rw [Bool.eq_iff_iff]
      simp only [Bool.or_eq_true, decide_eq_true_eq]
      omega
    · intro x hx
      have := hP.lt hx
      simp only [decide_eq_true_eq]
      omega

theorem sub_iff {n : Nat} {k : PySlice} (h : Proper n k) {a e : Nat} :
    (∀ q ∈ sel n k, q ∈ posl a e) ↔ a ≤ (iv n k).1 ∧ (iv n k).2 ≤ e := by
  obtain ⟨h1, h2, h3, h4⟩ := proper_iv h
  rw [h3]
  constructor
  · intro hall
    have a1 := hall (iv n k).1 (by rw [mem_posl]; omega)
    have a2 := hall ((iv n k).2 - 1 : Nat) (by rw [mem_posl]; omega)
    rw [mem_posl] at a1 a2
    omega
  · rintro ⟨a1, a2⟩ q hq
    rw [mem_posl] at hq ⊢
    omega

theorem sel_entry {n : Nat} {keys : List PySlice} (h : Partition n keys) (P : Nat × Nat → Bool) :
    (((ivs n keys).filter P).map (nslice n)).map (sel n) = ((ivs n keys).filter P).map (fun x => posl x.1 x.2) := by
  rw [List.map_map]
  apply List.map_congr_left
  intro x hx
  have := h.lt (List.mem_filter.mp hx).1
  exact sel_nslice this.1 this.2

theorem entry_perm {n : Nat} {keys : List PySlice} (h : Partition n keys) (P : Nat × Nat → Bool) (Q : PySlice → Bool) (hPQ : ∀ k ∈ keys, Q k = P (iv n k)) :
    ((((ivs n keys).filter P).map (nslice n)).map (sel n)).Perm ((keys.filter Q).map (sel n)) := by
  rw [sel_entry h]
  have h1 : (keys.filter Q).map (sel n) = ((keys.map (iv n)).filter P).map (fun x => posl x.1 x.2) := by
    rw [List.filter_map, List.map_map]
    rw [List.filter_congr hPQ]
    apply List.map_congr_left
    intro k hk
    exact (proper_iv (h.proper k (List.mem_filter.mp hk).1)).2.2.1
  rw [h1]
  exact ((ivs_perm n keys).filter P).map _

theorem stops_of_last {n : Nat} {keys : List PySlice} (h : Partition n keys) {k : PySlice} (hk : k ∈ keys) {q : Int}
    (hq : (sel n k).getLast? = some q) : Stops (ivs n keys) (q + 1).toNat := by
  obtain ⟨h1, h2, h3, h4⟩ := proper_iv (h.proper k hk)
  rw [h3, posl_last h1] at hq
  have : q = ((iv n k).2 : Int) - 1 := by simpa using hq.symm
  subst this
  exact ⟨iv n k, mem_ivs.mpr ⟨k, hk, rfl⟩, by omega⟩

/-- The groups of one dimension meet the specification. -/
theorem grouping_of_groups {n : Nat} {inputs : List (List PySlice)} (h : ∀ keys ∈ inputs, Partition n keys)
    {g : List (SliceTuple × List (List PySlice))} (hg : GroupsFrom n (inputs.map (ivs n)) 0 g) : Grouping n inputs g := by
  have hmem := hg.mem (Or.inl rfl)
  constructor
  · rw [hg.tile.2]
    unfold posl
    rw [List.range_eq_range']
    rfl
  · intro x hx
    obtain ⟨a, e, _, hI⟩ := hmem x hx
    rw [hI.key, sel_tuple hI.lt hI.le]
    exact posl_ne hI.lt
  · intro x hx
    obtain ⟨a, e, _, hI⟩ := hmem x hx
    rw [hI.entry, List.map_map, List.forall₂_map_right_iff, List.forall₂_same]
    intro keys hk
    apply entry_perm (h keys hk)
    intro k hk'
    rw [hI.key, sel_tuple hI.lt hI.le]
    rw [Bool.eq_iff_iff]
    simp only [decide_eq_true_eq]
    exact sub_iff ((h keys hk).proper k hk')
  · intro x hx entry hentry q hq
    obtain ⟨a, e, _, hI⟩ := hmem x hx
    rw [hI.key, sel_tuple hI.lt hI.le, mem_posl] at hq
    rw [hI.entry, List.map_map] at hentry
    obtain ⟨keys, hk, rfl⟩ := List.mem_map.mp hentry
    obtain ⟨y, hy, hyq⟩ := (h keys hk).at (q := q.toNat) (by have := hI.le; omega)
    have l := (h keys hk).lt hy
    have c1 := (h keys hk).noCross (hI.stops (ivs n keys) (List.mem_map_of_mem hk)) y hy
    have c2 : y.2 ≤ a ∨ a ≤ y.1 := by
      rcases hI.start with rfl | hs
      · right; omega
      · exact (h keys hk).noCross (hs (ivs n keys) (List.mem_map_of_mem hk)) y hy
    refine ⟨nslice n y, ?_, ?_⟩
    · apply List.mem_map_of_mem
      rw [List.mem_filter]
      refine ⟨hy, ?_⟩
      simp only [decide_eq_true_eq]
      omega
    · have := sel_nslice l.1 l.2
      rw [show y = (y.1, y.2) from rfl, this, mem_posl]
      omega
  · intro j hj
    have hp := (hg.all h hj).map (sel n)
    have e1 : (g.flatMap (fun x => (x.2.getD j []).map (sel n))) = (g.flatMap (fun x => x.2.getD j [])).map (sel n) := by
      rw [List.map_flatMap]
    rw [e1]
    refine hp.trans ?_
    have hP := h _ (List.getElem_mem hj)
    have : inputs.getD j [] = inputs[j] := List.getD_eq_getElem _ _ hj
    rw [this]
    have := entry_perm hP (fun x => decide (0 ≤ x.1)) (fun _ => true) (by intro k _; simp)
    rwa [List.filter_true] at this
  · intro x hx q hq hall
    obtain ⟨a, e, _, hI⟩ := hmem x hx
    rw [hI.key, sel_tuple hI.lt hI.le] at hq ⊢
    rw [mem_posl] at hq
    rw [posl_last hI.lt]
    by_contra hne
    have hlt : (q + 1).toNat < e := by
      by_contra hcon
      apply hne
      congr 1
      omega
    refine hI.none (q + 1).toNat (by omega) hlt ?_
    intro K hK
    obtain ⟨keys, hk, rfl⟩ := List.mem_map.mp hK
    obtain ⟨k, hk', hlast⟩ := hall keys hk
    exact stops_of_last (h keys hk) hk' hlast

end Biggus

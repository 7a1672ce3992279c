import Verif.Props.Containers3
import Verif.Spec.Tiles
/-
C14, exactly: what a mosaic indexed with any slice or with a negative integer along its axis gives.
-/
namespace Biggus
open Spec

variable {α V : Type}

/-! ### Lists in buckets -/

theorem filter_split {β : Type} (f : β → Nat) (n : Nat) : ∀ l : List β, l.Pairwise (fun a b => f a ≤ f b) → (∀ x ∈ l, f x < n + 1) →
    l.filter (fun x => decide (f x < n)) ++ l.filter (fun x => decide (f x = n)) = l
  | [], _, _ => rfl
  | g :: l, hs, hl => by
    obtain ⟨h1, h2⟩ := List.pairwise_cons.mp hs
    have ih := filter_split f n l h2 (fun x hx => hl x (List.mem_cons_of_mem _ hx))
    have hg := hl g List.mem_cons_self
    by_cases hgn : f g < n
    · rw [List.filter_cons_of_pos (by simpa using hgn), List.filter_cons_of_neg (by simp; omega), List.cons_append, ih]
    · have hall : l.filter (fun x => decide (f x < n)) = [] := by
        rw [List.filter_eq_nil_iff]
        intro x hx
        have := h1 x hx
        simp; omega
      rw [hall, List.nil_append] at ih
      rw [List.filter_cons_of_neg (by simpa using hgn), hall, List.nil_append, List.filter_cons_of_pos (by simp; omega), ih]

theorem bucket_sorted {β : Type} (f : β → Nat) (n : Nat) : ∀ l : List β, l.Pairwise (fun a b => f a ≤ f b) → (∀ x ∈ l, f x < n) →
    (List.range n).flatMap (fun t => l.filter (fun x => decide (f x = t))) = l := by
  induction n with
  | zero =>
    intro l _ hl
    have : l = [] := List.eq_nil_iff_forall_not_mem.mpr (fun x hx => absurd (hl x hx) (by omega))
    simp [this]
  | succ n ih =>
    intro l hs hl
    have h1 := ih (l.filter (fun x => decide (f x < n))) (hs.filter _) (fun x hx => by simpa using (List.mem_filter.mp hx).2)
    rw [List.range_succ, List.flatMap_append, List.flatMap_singleton]
    rw [show (List.range n).flatMap (fun t => l.filter (fun x => decide (f x = t))) = l.filter (fun x => decide (f x < n)) from ?_]
    · exact filter_split f n l hs hl
    · rw [← h1]
      refine List.flatMap_congr (fun t ht => ?_)
      have htn : t < n := by simpa using ht
      rw [List.filter_filter]
      refine List.filter_congr (fun x _ => ?_)
      by_cases hx : f x = t
      · simp [hx, htn]
      · simp [hx]

/-! ### Tiles and positions -/

theorem take_sum_mono (lens : List Nat) {a b : Nat} (h : a ≤ b) : (lens.take a).sum ≤ (lens.take b).sum := by
  obtain ⟨c, rfl⟩ := Nat.exists_eq_add_of_le h
  rw [List.take_add, List.sum_append]
  omega

theorem tileIndex_iff {lens : List Nat} {i : Int} (h0 : 0 ≤ i) (h : i < lens.sum) {t : Nat} (ht : t < lens.length) :
    tileIndex lens i = t ↔ ((lens.take t).sum : Int) ≤ i ∧ i < ((lens.take (t + 1)).sum : Int) := by
  have hs : ∀ t n, lens[t]? = some n → (lens.take (t + 1)).sum = (lens.take t).sum + n := by
    intro t n hn
    rw [List.take_add_one, hn, List.sum_append]; simp
  obtain ⟨n, h1, h2, _, h4, h5⟩ := tileIndex_ok lens i h0 h
  have h6 := hs _ _ h2
  constructor
  · rintro rfl
    rw [h6]
    push_cast
    omega
  · rintro ⟨a1, a2⟩
    rcases Nat.lt_trichotomy (tileIndex lens i) t with hlt | heq | hgt
    · have := take_sum_mono lens (show tileIndex lens i + 1 ≤ t by omega)
      omega
    · exact heq
    · have := take_sum_mono lens (show t + 1 ≤ tileIndex lens i by omega)
      omega

theorem tileIndex_mono {lens : List Nat} {i j : Int} (h0 : 0 ≤ i) (hj : j < lens.sum) (hij : i ≤ j) : tileIndex lens i ≤ tileIndex lens j := by
  obtain ⟨_, h1, _⟩ := tileIndex_ok lens i h0 (by omega)
  obtain ⟨_, h2, _⟩ := tileIndex_ok lens j (by omega) hj
  obtain ⟨a1, a2⟩ := (tileIndex_iff h0 (by omega) h1).mp rfl
  obtain ⟨b1, b2⟩ := (tileIndex_iff (by omega) hj h2).mp rfl
  by_contra hc
  have := take_sum_mono lens (show tileIndex lens j + 1 ≤ tileIndex lens i by omega)
  omega

theorem byTile_eq {lens : List Nat} {r : List Int} (h : ∀ i ∈ r, 0 ≤ i ∧ i < (lens.sum : Int)) :
    byTile lens r = (List.range lens.length).flatMap (fun t => r.filter (fun p => decide (tileIndex lens p = t))) := by
  unfold byTile
  refine List.flatMap_congr (fun t ht => List.filter_congr (fun p hp => ?_))
  rw [decide_eq_decide]
  exact (tileIndex_iff (h p hp).1 (h p hp).2 (by simpa using ht)).symm

/-- Increasing positions are not rearranged. -/
theorem byTile_increasing {lens : List Nat} {r : List Int} (h : ∀ i ∈ r, 0 ≤ i ∧ i < (lens.sum : Int)) (hs : r.Pairwise (· ≤ ·)) : byTile lens r = r := by
  rw [byTile_eq h]
  refine bucket_sorted _ _ r ?_ ?_
  · refine List.Pairwise.imp_of_mem (fun {a b} ha hb hab => ?_) hs
    exact tileIndex_mono (h a ha).1 (h b hb).2 hab
  · intro i hi
    obtain ⟨_, h1, _⟩ := tileIndex_ok lens i (h i hi).1 (h i hi).2
    exact h1

/-! ### Groups -/

theorem groupTiles_chain (lens : List Nat) (is : List Int) : (groupTiles lens is).IsChain (fun a b => a.1 ≠ b.1) := by
  induction is with
  | nil => exact .nil
  | cons i is ih =>
    rw [groupTiles]
    cases hg : groupTiles lens is with
    | nil => exact .singleton _
    | cons x rest =>
      obtain ⟨t', g⟩ := x
      rw [hg] at ih
      simp only
      split
      · rename_i ht
        cases rest with
        | nil => exact .singleton _
        | cons y rest =>
          rw [List.isChain_cons_cons] at ih ⊢
          exact ⟨by simpa [ht] using ih.1, ih.2⟩
      · rename_i ht
        exact List.isChain_cons_cons.mpr ⟨ht, ih⟩

/-- The maximal runs are determined by being runs, non-empty, with different neighbours. -/
theorem groupTiles_unique (lens : List Nat) : ∀ gs : List (Nat × List Int), gs.IsChain (fun a b => a.1 ≠ b.1) →
    (∀ g ∈ gs, g.2 ≠ [] ∧ ∀ i ∈ g.2, tileIndex lens i = g.1) → groupTiles lens (gs.map Prod.snd).flatten = gs
  | [], _, _ => rfl
  | (t, g) :: gs, hc, hg => by
    have hc' : gs.IsChain (fun a b => a.1 ≠ b.1) := by
      cases gs with
      | nil => exact .nil
      | cons y gs => exact (List.isChain_cons_cons.mp hc).2
    have ih := groupTiles_unique lens gs hc' (fun x hx => hg x (List.mem_cons_of_mem _ hx))
    have h1 := hg (t, g) List.mem_cons_self
    rw [List.map_cons, List.flatten_cons]
    suffices h : ∀ g : List Int, g ≠ [] → (∀ i ∈ g, tileIndex lens i = t) → groupTiles lens (g ++ (gs.map Prod.snd).flatten) = (t, g) :: gs from
      h g h1.1 h1.2
    intro g
    induction g with
    | nil => intro h; exact absurd rfl h
    | cons i g ihg =>
      intro _ hi
      rw [List.cons_append, groupTiles]
      have hti := hi i List.mem_cons_self
      by_cases hgn : g = []
      · subst hgn
        rw [List.nil_append, ih]
        cases gs with
        | nil => simp [hti]
        | cons y gs =>
          obtain ⟨t', g'⟩ := y
          have hne : t ≠ t' := (List.isChain_cons_cons.mp hc).1
          simp only [hti, if_neg hne]
      · rw [ihg hgn (fun j hj => hi j (List.mem_cons_of_mem _ hj))]
        simp only [hti, if_true]

theorem short_of_pairwise {gs : List (Nat × List Int)} {t : Nat} (h1 : gs.Pairwise (fun a b => b.1 < a.1)) (h2 : ∀ g ∈ gs, g.1 = t) : gs.reverse = gs := by
  match gs, h1, h2 with
  | [], _, _ => rfl
  | [a], _, _ => rfl
  | a :: b :: l, h1, h2 =>
    have := (List.pairwise_cons.mp h1).1 b List.mem_cons_self
    rw [h2 a List.mem_cons_self, h2 b (by simp)] at this
    omega

theorem groups_unique_tile {gs : List (Nat × List Int)} (hs : gs.Pairwise (fun a b => b.1 < a.1)) (t : Nat) :
    gs.filter (fun g => decide (g.1 = t)) = gs.reverse.filter (fun g => decide (g.1 = t)) := by
  rw [List.filter_reverse]
  exact (short_of_pairwise (hs.filter _) (fun g hg => by simpa using (List.mem_filter.mp hg).2)).symm

theorem groups_filter {lens : List Nat} (gs : List (Nat × List Int)) (h : ∀ g ∈ gs, ∀ i ∈ g.2, tileIndex lens i = g.1) (t : Nat) :
    (gs.map Prod.snd).flatten.filter (fun p => decide (tileIndex lens p = t)) = ((gs.filter (fun g => decide (g.1 = t))).map Prod.snd).flatten := by
  induction gs with
  | nil => rfl
  | cons g gs ih =>
    rw [List.map_cons, List.flatten_cons, List.filter_append, ih (fun x hx => h x (List.mem_cons_of_mem _ hx))]
    have hg := h g List.mem_cons_self
    by_cases ht : g.1 = t
    · rw [List.filter_cons_of_pos (by simpa using ht), List.map_cons, List.flatten_cons]
      congr 1
      exact List.filter_eq_self.mpr (fun i hi => by simpa using (hg i hi).trans ht)
    · rw [List.filter_cons_of_neg (by simpa using ht)]
      rw [List.filter_eq_nil_iff.mpr (fun i hi => by simpa [hg i hi] using ht), List.nil_append]

/-- Decreasing positions: the groups of the rearranged positions are the groups of the positions, the other way round. -/
theorem groupTiles_byTile {lens : List Nat} {r : List Int} (h : ∀ i ∈ r, 0 ≤ i ∧ i < (lens.sum : Int)) (hs : r.Pairwise (· > ·)) :
    groupTiles lens (byTile lens r) = (groupTiles lens r).reverse := by
  obtain ⟨h1, h2⟩ := groupTiles_ok lens r
  have hchain := groupTiles_chain lens r
  set gs := groupTiles lens r with hgs
  have hmem : ∀ g ∈ gs, ∀ i ∈ g.2, i ∈ r := by
    intro g hg i hi
    rw [← h1, List.mem_flatten]
    exact ⟨g.2, List.mem_map_of_mem hg, hi⟩
  -- tiles decrease
  have hge : gs.Pairwise (fun a b => b.1 ≤ a.1) := by
    have hp : (gs.map Prod.snd).Pairwise (fun l l' => ∀ x ∈ l, ∀ y ∈ l', x > y) := by
      rw [← h1] at hs
      exact (List.pairwise_flatten.mp hs).2
    rw [List.pairwise_map] at hp
    refine List.Pairwise.imp_of_mem (fun {a b} ha hb hab => ?_) hp
    obtain ⟨i, hi⟩ := List.exists_mem_of_ne_nil _ (h2 a ha).1
    obtain ⟨j, hj⟩ := List.exists_mem_of_ne_nil _ (h2 b hb).1
    rw [← (h2 a ha).2 i hi, ← (h2 b hb).2 j hj]
    exact tileIndex_mono (h j (hmem b hb j hj)).1 (h i (hmem a ha i hi)).2 (by have := hab i hi j hj; omega)
  have hgt : gs.Pairwise (fun a b => b.1 < a.1) := by
    have : Trans (fun (a b : Nat × List Int) => b.1 < a.1) (fun (a b : Nat × List Int) => b.1 < a.1) (fun (a b : Nat × List Int) => b.1 < a.1) := ⟨fun hab hbc => Nat.lt_trans hbc hab⟩
    rw [← List.isChain_iff_pairwise]
    have hc2 : gs.IsChain (fun a b => b.1 ≤ a.1) := hge.isChain
    clear_value gs
    clear h1 hmem h2 hge hgs
    induction gs with
    | nil => exact .nil
    | cons a gs ih =>
      cases gs with
      | nil => exact .singleton _
      | cons b gs =>
        rw [List.isChain_cons_cons] at hchain hc2 ⊢
        exact ⟨by have := hchain.1; have := hc2.1; omega, ih hchain.2 hc2.2⟩
  have hbt : byTile lens r = (gs.reverse.map Prod.snd).flatten := by
    rw [byTile_eq h]
    conv_lhs => rw [← h1]
    have hrev : gs.reverse.Pairwise (fun a b => a.1 ≤ b.1) := by
      rw [List.pairwise_reverse]
      exact hge
    have hb := bucket_sorted (fun g : Nat × List Int => g.1) lens.length gs.reverse hrev (fun g hg => by
      have hg' := List.mem_reverse.mp hg
      obtain ⟨i, hi⟩ := List.exists_mem_of_ne_nil _ (h2 g hg').1
      obtain ⟨_, h3, _⟩ := tileIndex_ok lens i (h i (hmem g hg' i hi)).1 (h i (hmem g hg' i hi)).2
      rw [(h2 g hg').2 i hi] at h3
      exact h3)
    rw [show (gs.reverse.map Prod.snd).flatten = gs.reverse.flatMap Prod.snd from (List.flatMap_def ..).symm]
    conv_rhs => rw [← hb, List.flatMap_assoc]
    refine List.flatMap_congr (fun t _ => ?_)
    rw [groups_filter gs (fun g hg => (h2 g hg).2) t, groups_unique_tile hgt, List.flatMap_def]
  rw [hbt]
  refine groupTiles_unique lens _ ?_ (fun g hg => h2 g (List.mem_reverse.mp hg))
  refine List.Pairwise.isChain ?_
  rw [List.pairwise_reverse]
  exact hgt.imp (fun h => Nat.ne_of_lt h)

theorem byTile_perm {lens : List Nat} {r : List Int} (h : ∀ i ∈ r, 0 ≤ i ∧ i < (lens.sum : Int)) : ∀ i, i ∈ byTile lens r ↔ i ∈ r := by
  intro i
  rw [byTile_eq h, List.mem_flatMap]
  constructor
  · rintro ⟨t, _, hi⟩
    exact (List.mem_filter.mp hi).1
  · intro hi
    obtain ⟨_, h3, _⟩ := tileIndex_ok lens i (h i hi).1 (h i hi).2
    exact ⟨_, List.mem_range.mpr h3, List.mem_filter.mpr ⟨hi, by simp⟩⟩

theorem byTile_nodup {lens : List Nat} {r : List Int} (h : ∀ i ∈ r, 0 ≤ i ∧ i < (lens.sum : Int)) (hr : r.Nodup) : (byTile lens r).Nodup := by
  rw [byTile_eq h, List.flatMap_def, List.nodup_flatten]
  constructor
  · intro l hl
    obtain ⟨t, _, rfl⟩ := List.mem_map.mp hl
    exact hr.filter _
  · rw [List.pairwise_map]
    refine List.nodup_range.imp (fun {a b} hab => ?_)
    intro i hi hj
    have h1 := (List.mem_filter.mp hi).2
    have h2 := (List.mem_filter.mp hj).2
    simp only [decide_eq_true_eq] at h1 h2
    exact hab (h1.symm.trans h2)

theorem range_sorted {s : PySlice} {n : Nat} {r : List Int} (h : s.range n = .ok r) :
    (s.negStep = false → r.Pairwise (· ≤ ·)) ∧ (s.negStep = true → r.Pairwise (· > ·)) := by
  obtain ⟨a, b, c, hi, rfl⟩ := range_ok_iff.mp h
  have hc : s.step.getD 1 = c ∧ c ≠ 0 := by
    unfold PySlice.indices at hi
    simp only at hi
    split at hi
    · cases hi
    · rename_i h0
      cases hi
      exact ⟨rfl, h0⟩
  have hneg : s.negStep = decide (c < 0) := by
    unfold PySlice.negStep
    rw [← hc.1]
    cases s.step <;> simp
  unfold pyRange
  constructor
  · intro hs
    rw [hneg, decide_eq_false_iff_not] at hs
    rw [List.pairwise_map]
    refine List.pairwise_lt_range.imp (fun {x y} hxy => ?_)
    have : (x : Int) * c ≤ y * c := mul_le_mul_of_nonneg_right (by omega) (by omega)
    omega
  · intro hs
    rw [hneg, decide_eq_true_eq] at hs
    rw [List.pairwise_map]
    refine List.pairwise_lt_range.imp (fun {x y} hxy => ?_)
    have : (y : Int) * c < x * c := mul_lt_mul_of_neg_right (by omega) hs
    omega

/-! ### Slices -/

theorem mapM_reverse {β γ : Type} {l : List β} {f : β → Res γ} {bs : List γ} (h : l.reverse.mapM f = .ok bs) : l.mapM f = .ok bs.reverse := by
  induction l generalizing bs with
  | nil => simp [List.mapM_nil] at h; cases h; rfl
  | cons x l ih =>
    rw [List.reverse_cons, List.mapM_append] at h
    obtain ⟨b1, h1, h2⟩ := bind_ok.mp h
    obtain ⟨b2, h3, h4⟩ := bind_ok.mp h2
    cases h4
    rw [List.mapM_cons] at h3
    obtain ⟨y, h5, h6⟩ := bind_ok.mp h3
    simp [List.mapM_nil] at h6
    cases h6
    rw [List.mapM_cons, h5, ih h1]
    simp [bind, Except.bind, pure, Except.pure]

theorem trimKeys_middle (kp kr : List Key) {k : Key} (hk : k ≠ Key.full) : trimKeys (kp ++ k :: kr) = kp ++ k :: trimKeys kr := by
  unfold trimKeys
  rw [List.reverse_append, List.reverse_cons, List.append_assoc]
  have : ∀ l : List Key, (l ++ ([k] ++ kp.reverse)).dropWhile (· = Key.full) = l.dropWhile (· = Key.full) ++ ([k] ++ kp.reverse) := by
    intro l
    induction l with
    | nil => simp [hk]
    | cons x l ih =>
      by_cases hx : x = Key.full
      · simpa [hx] using ih
      · simp [hx]
  rw [this]
  simp

/-- Indexing a mosaic with one key for each dimension, none of them `newaxis`, `...`, and the one on the axis not `:`. -/
theorem mosaic_getitem [Inhabited α] {n : Nat} {tiles : Nat → Arr α} {axis : Nat} {lens : List Nat} {s : List Nat}
    (hs : (Arr.mosaic n tiles axis).shape = .ok s) (hlens : ∀ i, i < n → ∃ s, (tiles i).shape = .ok s ∧ s.getD axis 0 = lens.getD i 0) (hn : lens.length = n)
    {kp kr : List Key} {k : Key} (hkp : kp.length = axis) (he : Exact (kp ++ k :: kr)) (hl : (kp ++ k :: kr).length = s.length) (hk : k ≠ Key.full) :
    (Arr.mosaic n tiles axis).getitem (kp ++ k :: kr) = mosaicAxis (fun i ks => (tiles i).getitem ks) lens axis (kp ++ k :: trimKeys kr) := by
  have hfk : fullKeys (kp ++ k :: kr) s.length = .ok (kp ++ k :: kr) := by
    rw [fullKeys_eq_expandKeys, expand_exact he hl]
    rw [List.filter_eq_nil_iff.mpr (fun x hx => by simp [(he x hx).2])]
    simp
  have hnew : (kp ++ k :: kr).any Key.isNewaxis = false := by
    rw [List.any_eq_false]
    intro x hx
    simp [(he x hx).1]
  have hmap : (List.range n).mapM (fun i => do let s ← (tiles i).shape; return s.getD axis 0) = .ok lens := by
    have : lens = (List.range n).map (fun i => lens.getD i 0) := by
      apply List.ext_getElem
      · simp [hn]
      · intro i h1 h2
        simp [List.getElem?_eq_getElem h1]
    rw [this]
    refine mapM_ok _ _ _ (fun i hi => ?_)
    obtain ⟨s, h1, h2⟩ := hlens i (by simpa using hi)
    rw [h1]
    show Except.ok _ = _
    rw [h2]
  rw [Arr.getitem]
  unfold arrayGetitem
  rw [hs]
  simp only [bind, Except.bind, hfk, hnew, Bool.false_eq_true, if_false]
  unfold mosaicFull
  rw [trimKeys_middle _ _ hk]
  simp only
  rw [if_neg (by simp; omega)]
  simp only [bind, Except.bind, pure, Except.pure] at hmap ⊢
  rw [hmap]

theorem byTile_eq_iff {lens : List Nat} {s : PySlice} {r : List Int} (h0 : lens ≠ []) (hr : s.range lens.sum = .ok r) :
    byTile lens r = r ↔ s.negStep = false ∨ ∃ t, t < lens.length ∧ ∀ p ∈ r, ((lens.take t).sum : Int) ≤ p ∧ p < ((lens.take (t + 1)).sum : Int) := by
  have h := range_mem hr
  obtain ⟨hinc, hdec⟩ := range_sorted hr
  have hlt : ∀ i ∈ r, tileIndex lens i < lens.length := fun i hi => by
    obtain ⟨_, h1, _⟩ := tileIndex_ok lens i (h i hi).1 (h i hi).2
    exact h1
  constructor
  · intro he
    cases hn : s.negStep with
    | false => exact Or.inl rfl
    | true =>
      right
      cases hr0 : r with
      | nil => exact ⟨0, List.length_pos_iff.mpr h0, by simp⟩
      | cons i r' =>
        have hup : r.Pairwise (fun a b => tileIndex lens a ≤ tileIndex lens b) := by
          rw [← he, byTile_eq h, List.flatMap_def, List.pairwise_flatten]
          constructor
          · intro l hl
            obtain ⟨t, _, rfl⟩ := List.mem_map.mp hl
            refine List.pairwise_of_forall_mem_list (fun a ha b hb => ?_)
            have h1 := (List.mem_filter.mp ha).2
            have h2 := (List.mem_filter.mp hb).2
            simp only [decide_eq_true_eq] at h1 h2
            omega
          · rw [List.pairwise_map]
            refine List.pairwise_lt_range.imp (fun {a b} hab x hx y hy => ?_)
            have h1 := (List.mem_filter.mp hx).2
            have h2 := (List.mem_filter.mp hy).2
            simp only [decide_eq_true_eq] at h1 h2
            omega
        have hd := hdec hn
        have hi : i ∈ r := by rw [hr0]; exact List.mem_cons_self
        refine ⟨tileIndex lens i, hlt i hi, ?_⟩
        rw [← hr0]
        intro p hp
        refine (tileIndex_iff (h p hp).1 (h p hp).2 (hlt i hi)).mp ?_
        rw [hr0] at hp hup hd
        rcases List.mem_cons.mp hp with rfl | hp'
        · rfl
        · have h1 := (List.pairwise_cons.mp hup).1 p hp'
          have h2 := (List.pairwise_cons.mp hd).1 p hp'
          have h3 := tileIndex_mono (lens := lens) (h p (by rw [hr0]; exact hp)).1 (h i hi).2 (show p ≤ i by omega)
          omega
  · rintro (hn | ⟨t, ht, hall⟩)
    · exact byTile_increasing h (hinc hn)
    · rw [byTile_eq h]
      refine bucket_sorted _ _ r (List.pairwise_of_forall_mem_list (fun a ha b hb => ?_)) hlt
      rw [(tileIndex_iff (h a ha).1 (h a ha).2 ht).mpr (hall a ha), (tileIndex_iff (h b hb).1 (h b hb).2 ht).mpr (hall b hb)]

theorem resolve1_iarr {r : List Int} {n : Nat} (h : ∀ i ∈ r, 0 ≤ i ∧ i < (n : Int)) : resolve1 (.iarr r) n = .ok (.pick (r.map Int.toNat)) := by
  simp only [resolve1]
  rw [if_pos (List.all_eq_true.mpr (fun i hi => inRange_of_bounds (h i hi).1 (h i hi).2))]
  congr 2
  exact List.map_congr_left (fun i hi => normIdx_nonneg (h i hi).1)

/-- The shape of a mosaic along its axis. -/
theorem mosaic_shape [Inhabited α] {tiles : List (Arr α)} {axis : Nat} {lens s : List Nat} (h0 : tiles ≠ [])
    (hsh : ∃ s : List Nat, axis < s.length ∧ ∀ t ∈ tiles, ∃ k, t.shape = .ok (s.set axis k))
    (hlens : List.Forall₂ (fun (t : Arr α) l => ∃ s, t.shape = .ok s ∧ s.getD axis 0 = l) tiles lens)
    (hs : (Arr.mosaic tiles.length (fun i => tiles.getD i default) axis).shape = .ok s) :
    (∀ i, i < tiles.length → ∃ s, (tiles.getD i default).shape = .ok s ∧ s.getD axis 0 = lens.getD i 0) ∧
    axis < s.length ∧ s.getD axis 0 = lens.sum ∧ s = s.take axis ++ lens.sum :: s.drop (axis + 1) ∧
    ∀ i, i < tiles.length → (tiles.getD i default).shape = .ok (s.take axis ++ lens.getD i 0 :: s.drop (axis + 1)) := by
  have hlen : lens.length = tiles.length := hlens.length_eq.symm
  have hl' : ∀ i, i < tiles.length → ∃ s, (tiles.getD i default).shape = .ok s ∧ s.getD axis 0 = lens.getD i 0 := by
    intro i hi
    have := (List.forall₂_iff_get.mp hlens).2 i hi (by omega)
    rw [List.getD_eq_getElem _ _ hi, List.getD_eq_getElem _ _ (by omega)]
    exact this
  obtain ⟨sh, hax, hsh⟩ := hsh
  have hmap : (List.range tiles.length).mapM (fun i => do let s ← (tiles.getD i default).shape; return s.getD axis 0) = .ok lens := by
    have : lens = (List.range tiles.length).map (fun i => lens.getD i 0) := by
      apply List.ext_getElem
      · simp [hlen]
      · intro i h1 h2
        simp [List.getElem?_eq_getElem h1]
    rw [this]
    refine mapM_ok _ _ _ (fun i hi => ?_)
    obtain ⟨s, h1, h2⟩ := hl' i (by simpa using hi)
    rw [h1]
    show Except.ok _ = _
    rw [h2]
  have hshape : ∀ i, i < tiles.length → (tiles.getD i default).shape = .ok (sh.set axis (lens.getD i 0)) := by
    intro i hi
    obtain ⟨k, hk⟩ := hsh (tiles.getD i default) (by rw [List.getD_eq_getElem _ _ hi]; exact List.getElem_mem hi)
    obtain ⟨s, h1, h2⟩ := hl' i hi
    rw [hk] at h1
    cases h1
    rw [hk, ← h2, List.getD_eq_getElem _ _ (by simpa using hax)]
    simp
  have hpos : 0 < tiles.length := List.length_pos_iff.mpr h0
  rw [Arr.shape] at hs
  simp only [bind, Except.bind, pure, Except.pure] at hs hmap
  rw [hshape 0 hpos] at hs
  simp only at hs
  rw [hmap] at hs
  simp only [List.set_set] at hs
  cases hs
  have htd : ∀ k, sh.set axis k = sh.take axis ++ k :: sh.drop (axis + 1) := fun k => List.set_eq_take_append_cons_drop .. |>.trans (if_pos hax)
  refine ⟨hl', by simpa using hax, ?_, ?_, ?_⟩
  · rw [List.getD_eq_getElem _ _ (by simpa using hax)]; simp
  · rw [List.take_set_of_le (Nat.le_refl _), List.drop_set_of_lt (by omega)]
    exact htd _
  · intro i hi
    rw [List.take_set_of_le (Nat.le_refl _), List.drop_set_of_lt (by omega), hshape i hi, htd]

/-- C14, exact for slices.  Index a mosaic of expressions of the grammar (those that may be tiles, as in `C14_mosaic_indexing_partial`), of total length greater than 0 along the axis, with any slice on the axis, and non-negative integers,
forward non-empty slices or arrays of distinct non-negative indices on the other dimensions.  A slice that selects nothing raises `IndexError`; otherwise the result is the concatenation at the positions of the slice
*rearranged tile by tile*.  That is what was asked for if and only if the step is positive or only one tile is touched. -/
theorem C14_slice_exact [Inhabited α] [Inhabited V] (m : Mode α V) (limit : Nat) (tiles : List (Arr α)) (axis : Nat) (b : Arr α) (x : NDA V) (lens : List Nat)
    (hb : ∀ t ∈ tiles, t.Built m limit true true .whole) (hm : mkMosaic tiles axis = .ok b) (hx : b.Yields m limit x)
    (hlens : List.Forall₂ (fun (t : Arr α) l => ∃ s, t.shape = .ok s ∧ s.getD axis 0 = l) tiles lens) (hpos : 0 < x.shape.getD axis 0)
    (s : PySlice) (r : List Int) (hs : s.range (x.shape.getD axis 0) = .ok r) (kp kr : List Key)
    (hkp : List.Forall₂ (SimpleKey true true) kp (x.shape.take axis)) (hkr : List.Forall₂ (SimpleKey true true) kr (x.shape.drop (axis + 1))) :
    (r = [] → b.getitem (kp ++ .slice s :: kr) = .error .index) ∧
    (r ≠ [] → ∃ c y, b.getitem (kp ++ .slice s :: kr) = .ok c ∧ npIndex x (kp ++ .iarr (byTile lens r) :: kr) = .ok y ∧ c.Yields m limit y) ∧
    (byTile lens r = r ↔ s.negStep = false ∨ ∃ t, t < lens.length ∧ ∀ p ∈ r, ((lens.take t).sum : Int) ≤ p ∧ p < ((lens.take (t + 1)).sum : Int)) := by
  obtain ⟨h0, ⟨sh, hax, hsh⟩, rfl⟩ := mkMosaic_iff.mp hm
  have hlen : lens.length = tiles.length := hlens.length_eq.symm
  obtain ⟨hl', haxx, hsum, hxs, _⟩ := mosaic_shape h0 ⟨sh, hax, hsh⟩ hlens hx.1
  rw [hsum] at hs hpos
  have hr := range_mem hs
  have hexp : ∀ k : Key, k.isNewaxis = false ∧ k.isEllipsis = false → Exact (kp ++ k :: kr) := by
    intro k hk x hx
    rcases List.mem_append.mp hx with h | h
    · exact simpleKeys_exact hkp x h
    · rcases List.mem_cons.mp h with rfl | h
      · exact hk
      · exact simpleKeys_exact hkr x h
  have hkpl : kp.length = axis := by rw [hkp.length_eq, List.length_take]; omega
  have hkl : ∀ k : Key, (kp ++ k :: kr).length = x.shape.length := by
    intro k
    rw [List.length_append, List.length_cons, hkpl, hkr.length_eq, List.length_drop]; omega
  have hsimple : ∀ k, SimpleKey true true k lens.sum → List.Forall₂ (SimpleKey true true) (kp ++ k :: kr) x.shape := by
    intro k hk
    rw [hxs]
    exact List.rel_append hkp (.cons hk hkr)
  have hP := fun i => byTile_perm (lens := lens) hr i
  have hPn : r ≠ [] → byTile lens r ≠ [] := by
    intro hne
    obtain ⟨i, hi⟩ := List.exists_mem_of_ne_nil _ hne
    exact List.ne_nil_of_mem ((hP i).mpr hi)
  have hPk : r ≠ [] → SimpleKey true true (.iarr (byTile lens r)) lens.sum := fun hne => Or.inr (Or.inr ⟨rfl, _, Or.inl rfl, fun _ => hPn hne,
    fun _ => byTile_nodup hr (range_nodup hs), fun i hi => ⟨inRange_of_bounds (hr i ((hP i).mp hi)).1 (hr i ((hP i).mp hi)).2, fun _ => (hr i ((hP i).mp hi)).1⟩⟩)
  have hm' := hm
  have hitem := fun (k : Key) hk hne => mosaic_getitem hx.1 hl' hlen hkpl (hexp k hk) (hkl k) (k := k) (kr := kr) hne
  refine ⟨?_, ?_, byTile_eq_iff (by rw [← List.length_pos_iff, hlen]; exact List.length_pos_iff.mpr h0) hs⟩
  · rintro rfl
    have hnf : Key.slice s ≠ Key.full := by
      intro he
      cases he
      have := resolve1_full lens.sum
      simp only [Key.full, resolve1, hs, bind, Except.bind, pure, Except.pure] at this
      have h2 := congrArg List.length (Sel.pick.inj (Except.ok.inj this))
      simp at h2
      omega
    rw [hitem _ ⟨rfl, rfl⟩ hnf]
    unfold mosaicAxis
    rw [getD_middle _ _ _ _ _ hkpl]
    simp only [hs, bind, Except.bind]
    unfold mosaicMany
    cases s.negStep <;> rfl
  · intro hne
    obtain ⟨c, y, h1, h2, h3⟩ := C14_mosaic_index_arrays_partial tiles axis _ x hb hm' hx (by rw [hsum]; exact hpos) _ (hsimple _ (hPk hne))
    cases hn : s.negStep with
    | false =>
      have hP' : byTile lens r = r := byTile_increasing hr ((range_sorted hs).1 hn)
      have hsk : SimpleKey true true (.slice s) lens.sum := Or.inr (Or.inl ⟨s, r, rfl, fun _ => hn, hs, fun _ => hne⟩)
      obtain ⟨c', y', g1, g2, g3⟩ := C14_mosaic_index_arrays_partial tiles axis _ x hb hm' hx (by rw [hsum]; exact hpos) _ (hsimple _ hsk)
      refine ⟨c', y', g1, ?_, g3⟩
      rw [hP']
      obtain ⟨fk, σ, q1, q2, rfl⟩ := npIndex_ok_iff.mp g2
      rw [expand_exact (hexp _ ⟨rfl, rfl⟩) (hkl _)] at q1
      cases q1
      refine npIndex_ok_iff.mpr ⟨_, σ, expand_exact (hexp _ ⟨rfl, rfl⟩) (hkl _), ?_, rfl⟩
      rw [hxs] at q2 ⊢
      obtain ⟨τp, τr, rfl, t1, t2⟩ := resolve_append_inv (simpleKeys_exact hkp) (by rw [hkpl, List.length_take]; omega) q2
      obtain ⟨n', ns', tk, τr', e1, rfl, e2, e3⟩ := (resolve_cons_iff rfl).mp t2
      cases e1
      refine resolve_append (simpleKeys_exact hkp) t1 ((resolve_cons_iff rfl).mpr ⟨_, _, _, _, rfl, rfl, ?_, e3⟩)
      rw [resolve1_iarr hr, ← e2]
      simp [resolve1, hs, bind, Except.bind, pure, Except.pure]
    | true =>
      refine ⟨c, y, ?_, h2, h3⟩
      rw [hitem _ ⟨rfl, rfl⟩ (by simp [Key.full])] at h1
      have hnf : Key.slice s ≠ Key.full := by
        intro he
        cases he
        cases hn
      rw [hitem _ ⟨rfl, rfl⟩ hnf]
      unfold mosaicAxis at h1 ⊢
      rw [getD_middle _ _ _ _ _ hkpl] at h1 ⊢
      simp only [hs, bind, Except.bind, hn] at h1 ⊢
      unfold mosaicMany at h1 ⊢
      obtain ⟨bs, k1, k2⟩ := bind_ok.mp h1
      rw [groupTiles_byTile hr ((range_sorted hs).2 hn)] at k1
      simp only [set_middle _ _ _ _ _ hkpl, List.take_left' hkpl] at k1 k2 ⊢
      rw [mapM_reverse k1]
      simpa [bind, Except.bind] using k2

/-- `m[::-1]`, `m[4:0:-2]` and `m[1::-1]` of tiles of lengths 2 and 3: rearranged, rearranged, and right because only one tile is touched. -/
example : exMosaic.shape = .ok [5, 2] ∧ byTile [2, 3] [4, 3, 2, 1, 0] = [1, 0, 4, 3, 2] ∧ byTile [2, 3] [4, 2] = [4, 2] ∧ byTile [2, 3] [1, 0] = [1, 0] ∧
    Res.view (exMosaic.getitem ([] ++ .slice ⟨none, none, some (-1)⟩ :: [.int 1]) >>= fun a => a.eval exMode 100 1) = .ok ([5], [3, 1, 9, 7, 5]) ∧
    Res.view (exMosaic.eval exMode 100 1 >>= fun x => npIndex x [.iarr [1, 0, 4, 3, 2], .int 1]) = .ok ([5], [3, 1, 9, 7, 5]) := by
  refine ⟨by decide +kernel, by decide, by decide, by decide, by decide +kernel, by decide +kernel⟩

/-! ### Negative integers -/

theorem tileIndex_neg {lens : List Nat} {i : Int} (h : i < 0) : tileIndex lens i = lens.length - 1 := by
  unfold tileIndex
  rw [List.countP_eq_zero.mpr (fun o _ => by simp; omega)]

/-- C14, exact for a negative integer.  On the axis a negative integer `i`; the last tile has length `l`, the other ones have total length `off`.  The key given to the last tile is `i - off`.  If
`off ≤ i + l` (so that this is in range), the result is the concatenation at position `i + l` instead of `i + l + off`: right if and only if all other tiles are empty.  The last tile must not contain mosaics, all
tiles be expressions that may be tiles; the other keys are integers (also negative), non-empty slices (any step) or arrays of distinct non-negative indices. -/
theorem C14_negative_integer_exact [Inhabited α] [Inhabited V] (m : Mode α V) (limit : Nat) (tiles : List (Arr α)) (last : Arr α) (axis : Nat) (b : Arr α) (x : NDA V) (lens : List Nat) (l : Nat)
    (hb : ∀ t ∈ tiles, t.Built m limit true true .whole) (hlast : last.Built m limit true true .whole) (hlast' : last.Built m limit false true .whole)
    (hm : mkMosaic (tiles ++ [last]) axis = .ok b) (hx : b.Yields m limit x)
    (hlens : List.Forall₂ (fun (t : Arr α) l => ∃ s, t.shape = .ok s ∧ s.getD axis 0 = l) (tiles ++ [last]) (lens ++ [l]))
    (i : Int) (hi : i < 0) (kp kr : List Key)
    (hkp : List.Forall₂ (SimpleKey false true) kp (x.shape.take axis)) (hkr : List.Forall₂ (SimpleKey false true) kr (x.shape.drop (axis + 1))) :
    (∃ kr', kr' <+: kr ∧ expandKeys (kp ++ .int (i - lens.sum) :: kr') x.shape.length = .ok (kp ++ .int (i - lens.sum) :: kr) ∧
      b.getitem (kp ++ .int i :: kr) = last.getitem (kp ++ .int (i - lens.sum) :: kr')) ∧
    ((lens.sum : Int) ≤ i + l → ∃ c y, b.getitem (kp ++ .int i :: kr) = .ok c ∧ npIndex x (kp ++ .int (i + l) :: kr) = .ok y ∧ c.Yields m limit y) := by
  have hm' := hm
  obtain ⟨h0, hshex, rfl⟩ := mkMosaic_iff.mp hm
  have hlen : (lens ++ [l]).length = (tiles ++ [last]).length := hlens.length_eq.symm
  have hll : lens.length = tiles.length := by simpa using hlen
  obtain ⟨hl', haxx, hsum, hxs, htsh⟩ := mosaic_shape h0 hshex hlens hx.1
  have hsum' : x.shape.getD axis 0 = lens.sum + l := by rw [hsum, List.sum_append]; simp
  have hbl : ∀ t ∈ tiles ++ [last], t.Built m limit true true .whole := by
    intro t ht
    rcases List.mem_append.mp ht with h | h
    · exact hb t h
    · rw [List.mem_singleton.mp h]; exact hlast
  have hexp : ∀ k : Key, k.isNewaxis = false ∧ k.isEllipsis = false → Exact (kp ++ k :: kr) := by
    intro k hk x hx
    rcases List.mem_append.mp hx with h | h
    · exact simpleKeys_exact hkp x h
    · rcases List.mem_cons.mp h with rfl | h
      · exact hk
      · exact simpleKeys_exact hkr x h
  have hkpl : kp.length = axis := by rw [hkp.length_eq, List.length_take]; omega
  have hkl : ∀ k : Key, (kp ++ k :: kr).length = x.shape.length := by
    intro k
    rw [List.length_append, List.length_cons, hkpl, hkr.length_eq, List.length_drop]; omega
  -- the last tile
  have hti : tileIndex (lens ++ [l]) i = tiles.length := by
    rw [tileIndex_neg hi]; simp [hll]
  have hoff : (tileOffsets (lens ++ [l])).getD tiles.length 0 = lens.sum := by
    rw [tileOffsets_getD _ _ (by simp [hll]), ← hll, List.take_left' rfl]
  have hlastget : (tiles ++ [last]).getD tiles.length default = last := by simp
  have hlg : (lens ++ [l]).getD tiles.length 0 = l := by rw [← hll]; simp
  have hitem : Arr.getitem (.mosaic (tiles ++ [last]).length (fun i => (tiles ++ [last]).getD i default) axis) (kp ++ .int i :: kr) =
      last.getitem (kp ++ .int (i - lens.sum) :: trimKeys kr) := by
    rw [mosaic_getitem hx.1 hl' hlen hkpl (hexp _ ⟨rfl, rfl⟩) (hkl _) (by simp [Key.full])]
    unfold mosaicAxis
    rw [getD_middle _ _ _ _ _ hkpl]
    simp only [hti, hoff, set_middle _ _ _ _ _ hkpl, hlastget]
  have hexpand : expandKeys (kp ++ .int (i - lens.sum) :: trimKeys kr) x.shape.length = .ok (kp ++ .int (i - lens.sum) :: kr) := by
    obtain ⟨rr, hrr⟩ := trimKeys_spec kr
    have hee : Exact (kp ++ .int (i - lens.sum) :: trimKeys kr) := by
      intro k hk
      refine hexp (.int (i - lens.sum)) ⟨rfl, rfl⟩ k ?_
      rw [hrr]
      simp only [List.mem_append, List.mem_cons] at hk ⊢
      tauto
    have h1 := expandKeys_pad (r := rr) hee
    have h2 : (kp ++ .int (i - lens.sum) :: trimKeys kr).length + rr = x.shape.length := by
      rw [← hkl (.int (i - lens.sum))]
      conv_rhs => rw [hrr]
      simp; omega
    rw [h2] at h1
    rw [h1, List.append_assoc, List.cons_append, ← hrr]
  refine ⟨⟨trimKeys kr, ⟨_, (trimKeys_spec kr).choose_spec.symm⟩, hexpand, hitem⟩, fun hge => ?_⟩
  rw [hitem]
  -- what the last tile gives
  obtain ⟨f1, f2, _, f4⟩ := hlast'.fine
  have hlsh : (last.den m).shape = x.shape.take axis ++ l :: x.shape.drop (axis + 1) := by
    have h1 := htsh tiles.length (by simp)
    rw [hlastget, hlg] at h1
    exact f1.den_shape m h1
  have hldim : (last.den m).shape.length = x.shape.length := by
    rw [hlsh]
    conv_rhs => rw [hxs]
    simp
  have hkk : List.Forall₂ (SimpleKey false true) (kp ++ .int (i - lens.sum) :: kr) (last.den m).shape := by
    rw [hlsh]
    refine List.rel_append hkp (.cons (Or.inl ⟨_, rfl, ?_, fun h => by cases h⟩) hkr)
    simp [inRange]; omega
  obtain ⟨g1, g2⟩ := simple_ok m false false last true .whole f1 f4 _ hkk
  obtain ⟨σ, hσ, _⟩ := simpleKeys_resolve hkk
  rw [← hldim] at hexpand
  have hr1 : npIndex (last.den m) (kp ++ .int (i - lens.sum) :: trimKeys kr) = .ok ((last.den m).ortho σ) := npIndex_ok_iff.mpr ⟨_, σ, hexpand, hσ, rfl⟩
  obtain ⟨c, k1, k2, k3, k4, _⟩ := index_returns m limit false f1 f2 (NDA.Eqv.refl _) hexpand g1 g2 hr1
  -- the selections
  rw [hlsh] at hσ
  obtain ⟨τp, τr, rfl, hτp, t2⟩ := resolve_append_inv (simpleKeys_exact hkp) (by rw [hkpl, List.length_take]; omega) hσ
  obtain ⟨n', ns', tk, τr', e1, rfl, e2, e3⟩ := (resolve_cons_iff rfl).mp t2
  cases e1
  simp only [resolve1] at e2
  rw [if_pos (by simp [inRange]; omega)] at e2
  cases e2
  have hnorm : normIdx (i - lens.sum) l = (i + l - lens.sum).toNat := by
    unfold normIdx
    rw [if_pos (by omega)]
    congr 1
    omega
  rw [hnorm] at k4
  have hres : resolve (kp ++ .int (i + l) :: kr) x.shape = .ok (τp ++ .at (i + l).toNat :: τr') := by
    rw [hxs]
    refine resolve_append (simpleKeys_exact hkp) hτp ((resolve_cons_iff rfl).mpr ⟨_, _, _, _, rfl, rfl, ?_, e3⟩)
    simp only [resolve1]
    rw [List.sum_append, if_pos (by simp [inRange]; omega), normIdx_nonneg (by omega)]
  refine ⟨c, _, k1, npIndex_ok_iff.mpr ⟨_, _, expand_exact (hexp _ ⟨rfl, rfl⟩) (hkl _), hres, rfl⟩, (Arr.Yields.of_den k2 k3).congr (k4.trans ?_)⟩
  -- the concatenation at that position is the last tile
  have hpos : 0 < x.shape.getD axis 0 := by rw [hsum']; omega
  have hbb : Arr.Built m limit true true .whole (.mosaic (tiles ++ [last]).length (fun i => (tiles ++ [last]).getD i default) axis) :=
    .mosaic rfl (fun h => absurd rfl h) hbl hm' (fun s hs => by rw [hx.1] at hs; cases hs; exact hpos)
  obtain ⟨w1, w2, _, _⟩ := hbb.fine
  have hd := hx.2.den_eqv w1 w2
  have hds : ∀ t, t < (tiles ++ [last]).length → (((tiles ++ [last]).getD t default).den m).shape.getD axis 0 = (lens ++ [l]).getD t 0 := by
    intro t ht
    obtain ⟨s, q1, q2⟩ := hl' t ht
    have hw : ((tiles ++ [last]).getD t default).WF := (hbl _ (by rw [List.getD_eq_getElem _ _ ht]; exact List.getElem_mem ht)).fine.1
    rw [hw.den_shape m q1, q2]
  have hlensd : (List.range (tiles ++ [last]).length).map (fun t => (((tiles ++ [last]).getD t default).den m).shape.getD axis 0) = lens ++ [l] := by
    apply List.ext_getElem
    · simp [hll]
    · intro t h1 h2
      rw [List.getElem_map, List.getElem_range, hds t (by simpa using h1), List.getD_eq_getElem _ _ h2]
  refine NDA.Eqv.trans ?_ (ortho_congr hd.symm (by rw [← hd.1]; exact hres))
  refine ⟨by simp [NDA.ortho, selShape_append, selShape], ?_⟩
  intro idx hidx
  simp only [NDA.ortho, selShape_append, selShape] at hidx
  have hi1 := (inB_split hidx).1
  simp only [NDA.ortho, Arr.den, NDA.concat]
  rw [selSrc_append hi1, selSrc_append hi1, hlensd]
  have hsl : (selSrc τp (idx.take (selShape τp).length)).length = axis := by
    rw [(selSrc_inB hτp _ hi1).length, List.length_take]; omega
  simp only [selSrc]
  rw [getD_middle _ _ _ _ _ hsl]
  have hloc : locate (lens ++ [l]) (i + l).toNat = (tiles.length, (i + l - lens.sum).toNat) := by
    have := locate_offset (lens ++ [l]) tiles.length l (i + l - lens.sum).toNat (by rw [← hll]; simp) (by omega)
    rw [← hll, List.take_left' rfl, hll] at this
    rw [← this]; congr 1; omega
  rw [hloc]
  simp only
  rw [set_middle _ _ _ _ _ hsl, hlastget]

/-- C14, exact for a negative integer, beyond: if the last tile is a source and `i + l < off`, the result is an `IndexError`, also for `i ≥ -(off + l)`. -/
theorem C14_negative_integer_raises [Inhabited α] [Inhabited V] (m : Mode α V) (limit : Nat) (tiles : List (Arr α)) (c : Concrete α) (axis : Nat) (b : Arr α) (x : NDA V) (lens : List Nat) (l : Nat)
    (hb : ∀ t ∈ tiles, t.Built m limit true true .whole) (hsafe : m.sourceSafe c)
    (hm : mkMosaic (tiles ++ [.adapter true c []]) axis = .ok b) (hx : b.Yields m limit x)
    (hlens : List.Forall₂ (fun (t : Arr α) l => ∃ s, t.shape = .ok s ∧ s.getD axis 0 = l) (tiles ++ [.adapter true c []]) (lens ++ [l]))
    (i : Int) (hi : i < 0) (hlow : i + l < lens.sum) (kp kr : List Key)
    (hkp : List.Forall₂ (SimpleKey false true) kp (x.shape.take axis)) (hkr : List.Forall₂ (SimpleKey false true) kr (x.shape.drop (axis + 1))) :
    b.getitem (kp ++ .int i :: kr) = .error .index := by
  have hB : ∀ fwd, (Arr.adapter true c []).Built m limit fwd true .whole := fun fwd => .source _ _ _ _ hsafe (fun _ => rfl)
  obtain ⟨⟨kr', hpre, h1, h2⟩, _⟩ := C14_negative_integer_exact m limit tiles _ axis b x lens l hb (hB true) (hB false) hm hx hlens i hi kp kr hkp hkr
  rw [h2]
  obtain ⟨h0, hshex, rfl⟩ := mkMosaic_iff.mp hm
  obtain ⟨_, haxx, _, hxs, htsh⟩ := mosaic_shape h0 hshex hlens hx.1
  obtain ⟨σ, hσ⟩ := resolve_full_exists c.data.shape
  have hfull := resolve_full hσ
  have hn : npIndex c.data [] = .ok (c.data.ortho σ) :=
    npIndex_ok_iff.mpr ⟨List.replicate c.data.shape.length Key.full, σ, by simp [expandKeys, nConsuming], hσ, rfl⟩
  have hll : lens.length = tiles.length := by simpa using hlens.length_eq.symm
  have hcs : c.data.shape = x.shape.take axis ++ l :: x.shape.drop (axis + 1) := by
    have h3 := htsh tiles.length (by simp)
    rw [show (tiles ++ [Arr.adapter true c []]).getD tiles.length default = .adapter true c [] by simp, show (lens ++ [l]).getD tiles.length 0 = l by rw [← hll]; simp] at h3
    have h4 : (Arr.adapter true c []).shape = .ok c.data.shape := by
      have hw := (hB true).fine.1
      rw [hw.shape_eq m, den_adapter m true c [] _ hn]
      exact congrArg _ hfull.1
    rw [h4] at h3
    exact Except.ok.inj h3
  have hwt : ∀ {k : Key} {n : Nat}, SimpleKey false true k n → k.wellTyped := by
    intro k n hk
    rcases hk with ⟨i, rfl, _⟩ | ⟨s, r, rfl, _, hr, _⟩ | ⟨_, l, rfl | rfl, _⟩
    · trivial
    · intro hs0
      unfold PySlice.range PySlice.indices at hr
      simp [hs0, bind, Except.bind] at hr
    · trivial
    · trivial
  have hmem : ∀ k ∈ kp ++ .int (i - lens.sum) :: kr', k.wellTyped := by
    intro k hk
    rcases List.mem_append.mp hk with h | h
    · obtain ⟨n, _, hn⟩ := forall₂_mem_left hkp h
      exact hwt hn
    · rcases List.mem_cons.mp h with rfl | h
      · trivial
      · obtain ⟨n, _, hn⟩ := forall₂_mem_left hkr (hpre.subset h)
        exact hwt hn
  refine (C05_out_of_range_is_rejected true c [] _ _ (by simp) hn ?_ ?_).2 ?_
  · exact fun k hk => Or.inr (hmem k hk)
  · rw [List.filter_eq_nil_iff.mpr (fun k hk => ?_)]
    · simp
    · have hw := hmem k hk
      clear hk
      intro he
      cases k <;> first | exact hw.elim | cases he
  · rintro ⟨r, hr⟩
    obtain ⟨fk, τ, q1, q2, _⟩ := npIndex_ok_iff.mp hr
    have hsh : (c.data.ortho σ).shape = x.shape.take axis ++ l :: x.shape.drop (axis + 1) := hfull.1.trans hcs
    have hxl : (c.data.ortho σ).shape.length = x.shape.length := by
      rw [hsh]
      conv_rhs => rw [hxs]
      simp
    rw [hxl, h1] at q1
    cases q1
    rw [hsh] at q2
    obtain ⟨_, _, _, _, t2⟩ := resolve_append_inv (simpleKeys_exact hkp) (by rw [hkp.length_eq]) q2
    obtain ⟨n', ns', tk, τr', e1, _, e2, _⟩ := (resolve_cons_iff rfl).mp t2
    cases e1
    simp only [resolve1] at e2
    rw [if_neg (by simp [inRange]; omega)] at e2
    cases e2

/-- The hypotheses met: tiles of lengths 2 and 3 over orthogonal sources, `m[-1, -1]` is row 2 (not 4), and `m[-4]` raises although there are 5 rows. -/
example : (mkMosaic ([Arr.adapter true ⟨⟨[2, 2], fun i => some (flatIndex [2, 2] i : ℚ)⟩, 0, 0⟩ []] ++ [.adapter true ⟨⟨[3, 2], fun i => some (4 + flatIndex [3, 2] i : ℚ)⟩, 0, 0⟩ []]) 0).isOk = true ∧
    (Arr.adapter true ⟨⟨[3, 2], fun i => some (4 + flatIndex [3, 2] i : ℚ)⟩, 0, 0⟩ []).Built exMode 100 false true .whole ∧
    Res.view (exMosaic.getitem ([] ++ .int (-1) :: [.int (-1)]) >>= fun a => a.eval exMode 100 1) = .ok ([], [5]) ∧
    Res.view (exMosaic.eval exMode 100 1 >>= fun x => npIndex x ([] ++ .int (-1 + 3) :: [.int (-1)])) = .ok ([], [5]) ∧
    Res.view (exMosaic.getitem ([] ++ .int (-4) :: [.int 0]) >>= fun a => a.eval exMode 100 1) = .error .index := by
  refine ⟨by decide +kernel, .source _ _ _ _ (fun _ _ => rfl) (fun _ => rfl), by decide +kernel, by decide +kernel, by decide +kernel⟩

end Biggus

import Mathlib.Data.List.Perm.Subperm
import Verif.Proofs.GroupKeysLoop
/-
C36: grouping the slices of one dimension.  C37: grouping the keys of several inputs.
-/
namespace Biggus

/-- C36: for inputs that each partition the dimension, `dimension_group_to_lowest_common` returns groups that tile the dimension, in each of which every
input's slices tile the group, no slice is lost or repeated, and no finer grouping exists.  The alternative is the `RuntimeError` that ends the loop, which needs
more than 9999 slices. -/
theorem C36_groups {n : Nat} {inputs : List (List PySlice)} (hn : 0 < n) (hne : inputs ≠ []) (h : ∀ keys ∈ inputs, Partition n keys) :
    (∃ g, dimensionGroup n inputs = .ok g ∧ Grouping n inputs g) ∨
    dimensionGroup n inputs = .error .runtime ∧ 9999 < (inputs.map List.length).sum := by
  rcases dimensionGroup_ok hn hne h with ⟨g, h1, h2, _⟩ | ⟨hr, hs, _⟩
  · exact Or.inl ⟨g, h1, grouping_of_groups h h2⟩
  · exact Or.inr ⟨hr, hs⟩

/-- C36: with at most 9999 slices in all the grouping always succeeds. -/
theorem C36_succeeds {n : Nat} {inputs : List (List PySlice)} (hn : 0 < n) (hne : inputs ≠ []) (h : ∀ keys ∈ inputs, Partition n keys)
    (hs : (inputs.map List.length).sum ≤ 9999) : ∃ g, dimensionGroup n inputs = .ok g ∧ Grouping n inputs g := by
  rcases C36_groups hn hne h with hr | ⟨_, hr⟩
  · exact hr
  · omega

/-- Groups end wherever all inputs have a stop. -/
theorem groups_ends {n : Nat} {Ks : List (List (Nat × Nat))} : ∀ {g : List (SliceTuple × List (List PySlice))} {p : Nat}, GroupsFrom n Ks p g →
    ∃ E : List Nat, E.length = g.length ∧ ∀ q, p < q → q ≤ n → (∀ K ∈ Ks, Stops K q) → q ∈ E
  | [], p, hp => ⟨[], rfl, fun q h1 h2 _ => by have : p = n := hp; omega⟩
  | y :: g, p, ⟨e, h1, h2, h3, h4, h5, h6, h7⟩ => by
    obtain ⟨E, k1, k2⟩ := groups_ends h7
    refine ⟨e :: E, by simp [k1], fun q a b c => ?_⟩
    rcases Nat.lt_trichotomy q e with hq | rfl | hq
    · exact absurd c (h6 q a hq)
    · simp
    · exact List.mem_cons_of_mem _ (k2 q hq b c)

/-- C36, exactly, for inputs that cut the dimension in the same way (`parts`: the different parts, each a list of positions; every input may list a part several
times): the grouping succeeds if and only if there are at most 9999 parts, however many slices there are. -/
theorem C36_alike {n : Nat} {inputs : List (List PySlice)} (hn : 0 < n) (hne : inputs ≠ []) (h : ∀ keys ∈ inputs, Partition n keys)
    (parts : List (List Int)) (hnd : parts.Nodup) (hparts : ∀ keys ∈ inputs, ∀ p, p ∈ parts ↔ ∃ k ∈ keys, sel n k = p) :
    (parts.length ≤ 9999 → ∃ g, dimensionGroup n inputs = .ok g ∧ Grouping n inputs g) ∧
    (9999 < parts.length → dimensionGroup n inputs = .error .runtime) := by
  let stop : List Int → Nat := fun p => (p.getLast?.getD 0 + 1).toNat
  have hstop : ∀ keys ∈ inputs, ∀ k ∈ keys, stop (sel n k) = (iv n k).2 ∧ 0 < (iv n k).2 ∧ (iv n k).2 ≤ n := by
    intro keys hk k hk'
    obtain ⟨a1, a2, a3, _⟩ := proper_iv ((h keys hk).proper k hk')
    refine ⟨?_, by omega, a2⟩
    show ((sel n k).getLast?.getD 0 + 1).toNat = _
    rw [a3, posl_last a1]
    simp
  have hS : ∀ keys ∈ inputs, ∀ q, Stops (ivs n keys) q ↔ ∃ p ∈ parts, stop p = q := by
    intro keys hk q
    constructor
    · rintro ⟨x, hx, rfl⟩
      obtain ⟨k, hk', rfl⟩ := mem_ivs.mp hx
      exact ⟨sel n k, (hparts keys hk _).mpr ⟨k, hk', rfl⟩, (hstop keys hk k hk').1⟩
    · rintro ⟨p, hp, rfl⟩
      obtain ⟨k, hk', rfl⟩ := (hparts keys hk p).mp hp
      exact ⟨_, mem_ivs.mpr ⟨k, hk', rfl⟩, (hstop keys hk k hk').1.symm⟩
  rcases dimensionGroup_ok hn hne h with ⟨g, h1, h2, h3⟩ | ⟨hr, _, hs⟩
  · refine ⟨fun _ => ⟨g, h1, grouping_of_groups h h2⟩, fun hlt => ?_⟩
    exfalso
    obtain ⟨E, e1, e2⟩ := groups_ends h2
    obtain ⟨keys, hk⟩ := List.exists_mem_of_ne_nil inputs hne
    have hinj : (parts.map stop).Nodup := by
      apply List.Nodup.map_on _ hnd
      intro p hp p' hp' he
      obtain ⟨k, hk1, rfl⟩ := (hparts keys hk p).mp hp
      obtain ⟨k', hk2, rfl⟩ := (hparts keys hk p').mp hp'
      rw [(hstop keys hk k hk1).1, (hstop keys hk k' hk2).1] at he
      obtain ⟨a1, a2, a3, _⟩ := proper_iv ((h keys hk).proper k hk1)
      obtain ⟨b1, b2, b3, _⟩ := proper_iv ((h keys hk).proper k' hk2)
      exact (h keys hk).disjoint k hk1 k' hk2 ((iv n k).2 - 1 : Int) (by rw [a3, mem_posl]; omega) (by rw [b3, mem_posl]; omega)
    have hsub : parts.map stop ⊆ E := by
      intro q hq
      obtain ⟨p, hp, rfl⟩ := List.mem_map.mp hq
      obtain ⟨k, hk1, rfl⟩ := (hparts keys hk p).mp hp
      obtain ⟨b1, b2, b3⟩ := hstop keys hk k hk1
      refine e2 _ (by omega) (by omega) (fun K hK => ?_)
      obtain ⟨l, hl, rfl⟩ := List.mem_map.mp hK
      exact (hS l hl _).mpr ⟨_, hp, rfl⟩
    have := (List.subperm_of_subset hinj hsub).length_le
    simp only [List.length_map] at this
    omega
  · refine ⟨fun hle => ?_, fun _ => hr⟩
    have := hs (parts.map stop) (fun l hl l' hl' q hq => (hS l' hl' q).mpr ((hS l hl q).mp hq)) (fun l hl q hq => by
      obtain ⟨p, hp, rfl⟩ := (hS l hl q).mp hq
      exact List.mem_map_of_mem hp)
    simp only [List.length_map] at this
    omega

/-- The hypotheses are met by two inputs that list the parts 0, 1 and 2, 3 of a dimension of length 4, the second one the first part twice. -/
example : (∀ keys ∈ [[⟨none, some 2, none⟩, ⟨some 2, none, none⟩], [⟨some 2, some 4, none⟩, ⟨some 0, some 2, none⟩, ⟨some (-4), some 2, none⟩]],
    ∀ p : List Int, p ∈ [[0, 1], [2, 3]] ↔ ∃ k ∈ keys, sel 4 k = p) ∧ [[0, 1], [2, 3]].Nodup := by
  refine ⟨?_, by decide⟩
  intro keys hk p
  simp only [List.mem_cons, List.not_mem_nil, or_false] at hk
  have e1 : sel 4 ⟨none, some 2, none⟩ = [0, 1] := by decide
  have e2 : sel 4 ⟨some 2, none, none⟩ = [2, 3] := by decide
  have e3 : sel 4 ⟨some 2, some 4, none⟩ = [2, 3] := by decide
  have e4 : sel 4 ⟨some 0, some 2, none⟩ = [0, 1] := by decide
  have e5 : sel 4 ⟨some (-4), some 2, none⟩ = [0, 1] := by decide
  rcases hk with rfl | rfl <;> simp [e1, e2, e3, e4, e5, eq_comm] <;> tauto

theorem groups_of_singles {n : Nat} {K : List (Nat × Nat)} (h : ∀ q, 0 < q → q ≤ n → Stops K q) : ∀ {g : List (SliceTuple × List (List PySlice))} {p : Nat},
    GroupsFrom n [K] p g → p + g.length = n
  | [], p, hp => hp
  | y :: g, p, ⟨e, h1, h2, h3, h4, h5, h6, h7⟩ => by
    have he : e = p + 1 := by
      by_contra hne
      refine h6 (p + 1) (by omega) (by omega) ?_
      intro K' hK'
      rw [List.mem_singleton.mp hK']
      exact h _ (by omega) (by omega)
    have := groups_of_singles h h7
    rw [List.length_cons]
    omega

/-- The slices `0:1, 1:2, …` of a dimension. -/
def singles (n : Nat) : List PySlice := (List.range n).map (fun (i : Nat) => ⟨some i, some (i + 1 : Int), none⟩)

theorem sel_single {n i : Nat} (h : i < n) : sel n ⟨some i, some (i + 1 : Int), none⟩ = [(i : Int)] := by
  rw [sel_one rfl]
  have h1 : loB n (some (i : Int)) = i := by
    unfold loB clampIdx
    simp only
    split_ifs <;> omega
  have h2 : hiB n (some (i + 1 : Int)) = ((i + 1 : Nat) : Int) := by
    unfold hiB clampIdx
    simp only
    split_ifs <;> omega
  rw [h1, h2, pyRange_posl]
  simp [posl]

theorem singles_partition (n : Nat) : Partition n (singles n) := by
  constructor
  · intro k hk
    obtain ⟨i, hi, rfl⟩ := List.mem_map.mp hk
    rw [List.mem_range] at hi
    refine ⟨Or.inl rfl, ?_, ?_, ?_⟩
    · intro x hx; simp at hx; omega
    · intro x hx; simp at hx; omega
    · rw [sel_single hi]; simp
  · intro q hq
    exact ⟨_, List.mem_map.mpr ⟨q, List.mem_range.mpr hq, rfl⟩, by rw [sel_single hq]; simp⟩
  · intro k hk k' hk' q hq hq'
    obtain ⟨i, hi, rfl⟩ := List.mem_map.mp hk
    obtain ⟨i', hi', rfl⟩ := List.mem_map.mp hk'
    rw [List.mem_range] at hi hi'
    rw [sel_single hi] at hq ⊢
    rw [sel_single hi'] at hq' ⊢
    rw [List.mem_singleton] at hq hq'
    rw [← hq, ← hq']

/-- C36: the limit on the number of iterations is reached by a legitimate input: a single input that cuts a dimension of more than 9999 elements into
single elements. -/
theorem C36_gives_up {n : Nat} (hn : 9999 < n) : Partition n (singles n) ∧ dimensionGroup n [singles n] = .error .runtime := by
  refine ⟨singles_partition n, ?_⟩
  rcases dimensionGroup_ok (n := n) (inputs := [singles n]) (by omega) (by simp)
    (by intro keys hk; rw [List.mem_singleton.mp hk]; exact singles_partition n) with ⟨g, h1, h2, h3⟩ | ⟨hr, _⟩
  · exfalso
    have := groups_of_singles (K := ivs n (singles n)) (n := n) (by
      intro q hq0 hq
      refine ⟨(q - 1, q), mem_ivs.mpr ⟨_, List.mem_map.mpr ⟨q - 1, List.mem_range.mpr (by omega), rfl⟩, ?_⟩, rfl⟩
      apply iv_of (by omega)
      rw [sel_single (by omega)]
      have : q - (q - 1) = 1 := by omega
      simp [posl, this]) h2
    omega
  · exact hr

/-- The hypotheses hold, and the result is as expected, for three inputs that cut ten elements in different ways and different notations. -/
theorem C36_example :
    (∀ keys ∈ [[⟨none, some 5, none⟩, ⟨some 5, none, none⟩], [⟨some 3, some 5, some 1⟩, ⟨some 0, some 3, none⟩, ⟨some (-5), none, none⟩],
        [⟨none, some (-5), none⟩, ⟨some 5, some 7, none⟩, ⟨none, some 5, none⟩, ⟨some 7, some 10, none⟩]], Partition 10 keys) ∧
    dimensionGroup 10 [[⟨none, some 5, none⟩, ⟨some 5, none, none⟩], [⟨some 3, some 5, some 1⟩, ⟨some 0, some 3, none⟩, ⟨some (-5), none, none⟩],
        [⟨none, some (-5), none⟩, ⟨some 5, some 7, none⟩, ⟨none, some 5, none⟩, ⟨some 7, some 10, none⟩]] =
      .ok [((none, some 5, none), [[⟨none, some 5, none⟩], [⟨none, some 3, none⟩, ⟨some 3, some 5, none⟩], [⟨none, some 5, none⟩, ⟨none, some 5, none⟩]]),
        ((some 5, none, none), [[⟨some 5, none, none⟩], [⟨some 5, none, none⟩], [⟨some 5, some 7, none⟩, ⟨some 7, none, none⟩]])] := by
  constructor
  · intro keys hk
    have hP : ∀ k ∈ keys, (k.step = none ∨ k.step = some 1) ∧ (k.start.getD 0 ≤ 10 ∧ -10 ≤ k.start.getD 0) ∧
        (k.stop.getD 0 ≤ 10 ∧ -10 ≤ k.stop.getD 0) ∧ sel 10 k ≠ [] := by
      revert keys; decide +kernel
    refine ⟨?_, ?_, ?_⟩
    · intro k hk'
      obtain ⟨h1, h2, h3, h4⟩ := hP k hk'
      refine ⟨h1, ?_, ?_, h4⟩
      · intro x hx; rw [hx] at h2; exact ⟨h2.2, h2.1⟩
      · intro x hx; rw [hx] at h3; exact ⟨h3.2, h3.1⟩
    · revert keys; decide +kernel
    · revert keys; decide +kernel
  · decide +kernel

/-- C37: for inputs whose keys are grids over the array, `group_keys` returns a dictionary whose regions tile the array, and in which each region has, for
each input, exactly the input's keys within the region, in their original order; these cover the region, and every key is in exactly one group.  (The alternative
is the `RuntimeError` of C36, which needs more than 9999 keys.)  The caller's lists are left empty unless there is only one group. -/
theorem C37_group_keys {shape : List Nat} {inputs : List (List KeyTuple)} (hpos : ∀ n ∈ shape, 0 < n) (hne : inputs ≠ [])
    (hG : ∀ keys ∈ inputs, Grid shape keys) :
    (groupKeys shape inputs (List.range inputs.length) = .error .runtime ∧ 9999 < (inputs.map List.length).sum) ∨
    ∃ g after, groupKeys shape inputs (List.range inputs.length) = .ok (g, after) ∧ KeyGrouping shape inputs g ∧
      (g.length = 1 ∧ after = inputs ∨ 2 ≤ g.length ∧ after = inputs.map (fun _ => [])) :=
  groupKeys_ok hpos hne hG

/-- C37: with at most 9999 keys in all the grouping succeeds. -/
theorem C37_succeeds {shape : List Nat} {inputs : List (List KeyTuple)} (hpos : ∀ n ∈ shape, 0 < n) (hne : inputs ≠ [])
    (hG : ∀ keys ∈ inputs, Grid shape keys) (hs : (inputs.map List.length).sum ≤ 9999) :
    ∃ g after, groupKeys shape inputs (List.range inputs.length) = .ok (g, after) ∧ KeyGrouping shape inputs g := by
  rcases groupKeys_ok hpos hne hG with ⟨_, h⟩ | ⟨g, after, h1, h2, _⟩
  · omega
  · exact ⟨g, after, h1, h2⟩

/-- C37: the keys that a group must hold for an input are the keys of the input in the group's region: consequently every key of every input is found in
exactly one group. -/
theorem C37_each_key_once {shape : List Nat} {inputs : List (List KeyTuple)} {g : List (List SliceTuple × List (List KeyTuple))}
    (h : KeyGrouping shape inputs g) {j : Nat} (hj : j < inputs.length) {key : KeyTuple} (hk : key ∈ inputs.getD j []) :
    g.countP (fun x => decide (key ∈ x.2.getD j [])) = 1 := by
  have hj' : inputs.getD j [] = inputs[j] := List.getD_eq_getElem _ _ hj
  rw [hj'] at hk
  rw [← h.once inputs[j] (List.getElem_mem hj) key hk]
  apply List.countP_congr
  intro x hx
  simp only [decide_eq_true_eq]
  rw [h.entries x hx]
  simp only [List.getD_eq_getElem?_getD, List.getElem?_map, List.getElem?_eq_getElem hj, Option.map_some, Option.getD_some,
    List.mem_filter, decide_eq_true_eq]
  exact ⟨fun hh => hh.2, fun hh => ⟨hk, hh⟩⟩

instance decEqTuple : DecidableEq SliceTuple := inferInstanceAs (DecidableEq (Option Int × Option Int × Option Int))
instance decEqKeys : DecidableEq (List (List KeyTuple)) := inferInstanceAs (DecidableEq (List (List (List PySlice))))
instance decEqItem : DecidableEq (List SliceTuple × List (List KeyTuple)) := instDecidableEqProd
instance decEqGroups : DecidableEq (List (List SliceTuple × List (List KeyTuple))) := inferInstance
instance decEqResult : DecidableEq (List (List SliceTuple × List (List KeyTuple)) × List (List KeyTuple)) := inferInstance

/-- C37: the lists passed to `group_keys` must be separate objects.  When the same list is passed twice, the keys it removes from it for the first input are
missing for the second. -/
theorem C37_same_list_twice :
    groupKeys [4] [[[⟨none, some 2, none⟩], [⟨some 2, none, none⟩]]] [0, 0] =
      .ok ([([(none, some 2, none)], [[[⟨none, some 2, none⟩]], []]), ([(some 2, none, none)], [[[⟨some 2, none, none⟩]], []])], [[]]) ∧
    groupKeys [4] [[[⟨none, some 2, none⟩], [⟨some 2, none, none⟩]], [[⟨none, some 2, none⟩], [⟨some 2, none, none⟩]]] [0, 1] =
      .ok ([([(none, some 2, none)], [[[⟨none, some 2, none⟩]], [[⟨none, some 2, none⟩]]]),
        ([(some 2, none, none)], [[[⟨some 2, none, none⟩]], [[⟨some 2, none, none⟩]]])], [[], []]) := by
  constructor <;> decide +kernel

/-- The hypotheses hold, and the result is as expected, for two inputs that cut a 4 × 3 array differently. -/
theorem C37_example :
    (∀ keys ∈ [[[⟨none, some 2, none⟩, ⟨none, none, none⟩], [⟨some 2, none, none⟩, ⟨none, none, none⟩]],
        [[⟨none, some 1, none⟩, ⟨none, some 1, none⟩], [⟨none, some 1, none⟩, ⟨some 1, none, none⟩],
         [⟨some 1, some 2, none⟩, ⟨none, some 1, none⟩], [⟨some 1, some 2, none⟩, ⟨some 1, none, none⟩],
         [⟨some 2, some 4, none⟩, ⟨none, some 1, none⟩], [⟨some 2, some 4, none⟩, ⟨some 1, none, none⟩]]],
      Grid [4, 3] keys) ∧
    groupKeys [4, 3] [[[⟨none, some 2, none⟩, ⟨none, none, none⟩], [⟨some 2, none, none⟩, ⟨none, none, none⟩]],
        [[⟨none, some 1, none⟩, ⟨none, some 1, none⟩], [⟨none, some 1, none⟩, ⟨some 1, none, none⟩],
         [⟨some 1, some 2, none⟩, ⟨none, some 1, none⟩], [⟨some 1, some 2, none⟩, ⟨some 1, none, none⟩],
         [⟨some 2, some 4, none⟩, ⟨none, some 1, none⟩], [⟨some 2, some 4, none⟩, ⟨some 1, none, none⟩]]] [0, 1] =
      .ok ([([(none, some 2, none), (none, none, none)],
          [[[⟨none, some 2, none⟩, ⟨none, none, none⟩]],
           [[⟨none, some 1, none⟩, ⟨none, some 1, none⟩], [⟨none, some 1, none⟩, ⟨some 1, none, none⟩],
            [⟨some 1, some 2, none⟩, ⟨none, some 1, none⟩], [⟨some 1, some 2, none⟩, ⟨some 1, none, none⟩]]]),
        ([(some 2, none, none), (none, none, none)],
          [[[⟨some 2, none, none⟩, ⟨none, none, none⟩]],
           [[⟨some 2, some 4, none⟩, ⟨none, some 1, none⟩], [⟨some 2, some 4, none⟩, ⟨some 1, none, none⟩]]])], [[], []]) := by
  refine ⟨?_, ?_⟩
  · intro keys hk
    have h1 : (∀ key ∈ keys, key.length = 2) := by
      revert keys; decide +kernel
    have h2 : (∀ key ∈ keys, ∀ d, d < 2 → ((dimOf key d).step = none ∨ (dimOf key d).step = some 1) ∧ (dimOf key d).start.getD 0 ≤ ([4, 3].getD d 0 : Nat) ∧
        0 ≤ (dimOf key d).start.getD 0 ∧ (dimOf key d).stop.getD 0 ≤ ([4, 3].getD d 0 : Nat) ∧ 0 ≤ (dimOf key d).stop.getD 0 ∧ sel ([4, 3].getD d 0) (dimOf key d) ≠ []) := by
      clear h1; revert keys; decide +kernel
    have h3 : (∀ key ∈ keys, ∀ key' ∈ keys, ∀ d, d < 2 → ∀ q ∈ sel ([4, 3].getD d 0) (dimOf key d), q ∈ sel ([4, 3].getD d 0) (dimOf key' d) →
        sel ([4, 3].getD d 0) (dimOf key d) = sel ([4, 3].getD d 0) (dimOf key' d)) := by
      clear h1 h2; revert keys; decide +kernel
    have h4 : (∀ i, i < 4 → ∀ j, j < 3 → ∃ key ∈ keys, InKey [4, 3] key [i, j]) := by
      clear h1 h2 h3; revert keys; decide +kernel
    refine ⟨h1, ?_, h3, ?_⟩
    · intro key hkey d hd
      obtain ⟨a, b, c, e, f, g⟩ := h2 key hkey d hd
      refine ⟨a, ?_, ?_, g⟩
      · intro x hx
        rw [hx, Option.getD_some] at b c
        exact ⟨by omega, b⟩
      · intro x hx
        rw [hx, Option.getD_some] at e f
        exact ⟨by omega, e⟩
    · intro pt hpt
      obtain ⟨hl, hb⟩ := hpt
      obtain ⟨i, j, rfl⟩ := List.length_eq_two.mp hl
      exact h4 i (hb 0 (by decide)) j (hb 1 (by decide))
  · decide +kernel

end Biggus

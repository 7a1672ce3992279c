import Verif.Proofs.Grouper
import Verif.Spec.Grouper
/-
Key grouping: from slices to intervals, and the grouping of one dimension.
-/
namespace Biggus

/-- The positions `a, …, b - 1`. -/
def posl (a b : Nat) : List Int := (List.range' a (b - a)).map Int.ofNat

theorem mem_posl {a b : Nat} {q : Int} : q ∈ posl a b ↔ (a : Int) ≤ q ∧ q < b := by
  unfold posl
  simp only [List.mem_map, List.mem_range'_1]
  constructor
  · rintro ⟨x, hx, rfl⟩
    simp only [Int.ofNat_eq_natCast]
    omega
  · intro h
    refine ⟨q.toNat, by omega, ?_⟩
    simp only [Int.ofNat_eq_natCast]
    omega

theorem posl_length {a b : Nat} : (posl a b).length = b - a := by simp [posl]

theorem posl_ne {a b : Nat} (h : a < b) : posl a b ≠ [] := by
  intro hn
  have := congrArg List.length hn
  rw [posl_length] at this
  simp at this
  omega

theorem posl_head {a b : Nat} (h : a < b) : (posl a b).headD 0 = a := by
  unfold posl
  obtain ⟨m, hm⟩ : ∃ m, b - a = m + 1 := ⟨b - a - 1, by omega⟩
  rw [hm, List.range'_succ]
  rfl

theorem posl_last {a b : Nat} (h : a < b) : (posl a b).getLast? = some ((b : Int) - 1) := by
  unfold posl
  obtain ⟨m, hm⟩ : ∃ m, b - a = m + 1 := ⟨b - a - 1, by omega⟩
  rw [hm, List.range'_concat, List.map_append]
  simp
  omega

theorem posl_append {a b c : Nat} (h : a ≤ b) (h' : b ≤ c) : posl a b ++ posl b c = posl a c := by
  unfold posl
  rw [← List.map_append]
  congr 1
  have : c - a = (b - a) + (c - b) := by omega
  rw [this, ← List.range'_append_1]
  congr 2
  omega

/-- The interval of a slice. -/
def iv (n : Nat) (k : PySlice) : Nat × Nat := (((sel n k).headD 0).toNat, ((sel n k).headD 0).toNat + (sel n k).length)

theorem iv_of {n : Nat} {k : PySlice} {a b : Nat} (h : a < b) (hs : sel n k = posl a b) : iv n k = (a, b) := by
  unfold iv
  rw [hs, posl_head h, posl_length]
  ext <;> simp
  omega

theorem pyRange_one (s t : Int) : pyRange s t 1 = (List.range (t - s).toNat).map (fun (k : Nat) => s + (k : Int)) := by
  unfold pyRange rangeLen
  simp

theorem pyRange_posl {a b : Nat} : pyRange a b 1 = posl a b := by
  rw [pyRange_one]
  unfold posl
  rw [List.range'_eq_map_range, List.map_map]
  have : ((b : Int) - a).toNat = b - a := by omega
  rw [this]
  apply List.map_congr_left
  intro i _
  simp

/-- The lower bound of a slice with step 1. -/
def loB (n : Nat) (s : Option Int) : Int :=
  match s with
  | none => 0
  | some x => clampIdx x 0 n n

/-- The upper bound of a slice with step 1. -/
def hiB (n : Nat) (s : Option Int) : Int :=
  match s with
  | none => n
  | some x => clampIdx x 0 n n

theorem sel_one {n : Nat} {start stop step : Option Int} (h : step.getD 1 = 1) : sel n ⟨start, stop, step⟩ = pyRange (loB n start) (hiB n stop) 1 := by
  unfold sel PySlice.range PySlice.indices
  simp only [h, bind, Except.bind, pure, Except.pure]
  have h1 : ¬ ((1 : Int) < 0) := by decide
  rw [if_neg (by decide)]
  simp only [h1, if_false]
  rfl

theorem sel_nslice {n a b : Nat} (h : a < b) (hb : b ≤ n) : sel n (nslice n (a, b)) = posl a b := by
  unfold nslice
  rw [sel_one rfl]
  have h1 : loB n (if (a, b).1 = 0 then none else some ((a, b).1 : Int)) = a := by
    by_cases h0 : a = 0
    · simp [h0, loB]
    · simp only [h0, if_false]
      unfold loB clampIdx
      simp only
      split_ifs <;> omega
  have h2 : hiB n (if (a, b).2 = n then none else some ((a, b).2 : Int)) = b := by
    by_cases h0 : b = n
    · simp [h0, hiB]
    · simp only [h0, if_false]
      unfold hiB clampIdx
      simp only
      split_ifs <;> omega
  rw [h1, h2, pyRange_posl]

theorem proper_iv {n : Nat} {k : PySlice} (h : Proper n k) :
    (iv n k).1 < (iv n k).2 ∧ (iv n k).2 ≤ n ∧ sel n k = posl (iv n k).1 (iv n k).2 ∧ normalizeSlice k n = nslice n (iv n k) := by
  obtain ⟨hst, hs, ht, hne⟩ := h
  obtain ⟨start, stop, step⟩ := k
  simp only at hst hs ht
  -- the clipped bounds
  obtain ⟨a, ha, hstart⟩ : ∃ a : Nat, a ≤ n ∧ (if pyOr start 0 < 0 then (n : Int) + pyOr start 0 else pyOr start 0) = a ∧ loB n start = a := by
    cases start with
    | none => exact ⟨0, by omega, by simp [pyOr], rfl⟩
    | some x =>
      have := hs x rfl
      have hp : pyOr (some x) 0 = x := by
        unfold pyOr
        by_cases h : x = 0 <;> simp [h]
      rw [hp]
      refine ⟨(if x < 0 then (n : Int) + x else x).toNat, ?_, ?_, ?_⟩
      · split_ifs <;> omega
      · split_ifs <;> omega
      · simp only [loB, hiB, clampIdx]
        split_ifs <;> omega
  obtain ⟨b, hb, hstop⟩ : ∃ b : Nat, b ≤ n ∧ (if stop.getD n < 0 then (n : Int) + stop.getD n else stop.getD n) = b ∧ hiB n stop = b := by
    cases stop with
    | none => exact ⟨n, by omega, by simp, rfl⟩
    | some x =>
      have := ht x rfl
      refine ⟨(if x < 0 then (n : Int) + x else x).toNat, ?_, ?_, ?_⟩
      · split_ifs <;> omega
      · simp only [Option.getD_some]
        split_ifs <;> omega
      · simp only [loB, hiB, clampIdx]
        split_ifs <;> omega
  have hstep : step.getD 1 = 1 := by rcases hst with rfl | rfl <;> rfl
  have hstep' : (if step = some 1 then none else step) = none := by rcases hst with rfl | rfl <;> rfl
  have hsel : sel n ⟨start, stop, step⟩ = posl a b := by
    rw [sel_one hstep]
    rw [hstart.2, hstop.2, pyRange_posl]
  have hlt : a < b := by
    by_contra hcon
    apply hne
    rw [hsel]
    apply List.eq_nil_of_length_eq_zero
    rw [posl_length]; omega
  rw [iv_of hlt hsel]
  refine ⟨hlt, hb, hsel, ?_⟩
  unfold normalizeSlice nslice
  simp only [hstart.1, hstop.1, hstep']
  congr 1
  · by_cases h : a = 0 <;> simp [h]
  · by_cases h : b = n <;> simp [h]

/-- The order of intervals. -/
abbrev lexLe (x y : Nat × Nat) : Prop := x.1 < y.1 ∨ x.1 = y.1 ∧ x.2 ≤ y.2

instance : Std.Total lexLe := ⟨by intro a b; unfold lexLe; omega⟩
instance : IsTrans (Nat × Nat) lexLe := ⟨by intro a b c; unfold lexLe; omega⟩

theorem sliceLe_nslice {n : Nat} (x y : Nat × Nat) : sliceLe n (nslice n x) (nslice n y) ↔ lexLe x y := by
  have h : ∀ x : Nat × Nat, sortSlice n (nslice n x) = ((x.1 : Int), (x.2 : Int)) := by
    intro x
    unfold sortSlice
    rw [nslice_start]
    unfold nslice
    by_cases hx : x.2 = n <;> simp [hx]
  unfold sliceLe lexLe
  rw [h, h]
  omega

theorem sortKeys_nslice {n : Nat} (l : List (Nat × Nat)) : sortKeys n (l.map (nslice n)) = (l.insertionSort lexLe).map (nslice n) := by
  unfold sortKeys
  rw [← List.map_insertionSort lexLe]
  intro a _ b _
  rw [sliceLe_nslice]

/-- The sorted intervals of an input. -/
def ivs (n : Nat) (keys : List PySlice) : List (Nat × Nat) := (keys.map (iv n)).insertionSort lexLe

theorem ivs_perm (n : Nat) (keys : List PySlice) : (ivs n keys).Perm (keys.map (iv n)) := List.perm_insertionSort _ _

theorem mem_ivs {n : Nat} {keys : List PySlice} {x : Nat × Nat} : x ∈ ivs n keys ↔ ∃ k ∈ keys, iv n k = x := by
  rw [(ivs_perm n keys).mem_iff, List.mem_map]

/-- Two intervals of a partition that meet are the same. -/
theorem Partition.meet {n : Nat} {keys : List PySlice} (h : Partition n keys) {x y : Nat × Nat} (hx : x ∈ ivs n keys) (hy : y ∈ ivs n keys)
    {q : Nat} (h1 : x.1 ≤ q ∧ q < x.2) (h2 : y.1 ≤ q ∧ q < y.2) : x = y := by
  obtain ⟨k, hk, rfl⟩ := mem_ivs.mp hx
  obtain ⟨k', hk', rfl⟩ := mem_ivs.mp hy
  obtain ⟨a1, a2, a3, a4⟩ := proper_iv (h.proper k hk)
  obtain ⟨b1, b2, b3, b4⟩ := proper_iv (h.proper k' hk')
  have := h.disjoint k hk k' hk' q (by rw [a3, mem_posl]; omega) (by rw [b3, mem_posl]; omega)
  unfold iv
  rw [this]

theorem Partition.lt {n : Nat} {keys : List PySlice} (h : Partition n keys) {x : Nat × Nat} (hx : x ∈ ivs n keys) : x.1 < x.2 ∧ x.2 ≤ n := by
  obtain ⟨k, hk, rfl⟩ := mem_ivs.mp hx
  obtain ⟨a1, a2, a3, a4⟩ := proper_iv (h.proper k hk)
  exact ⟨a1, a2⟩

theorem Partition.at {n : Nat} {keys : List PySlice} (h : Partition n keys) {q : Nat} (hq : q < n) : ∃ x ∈ ivs n keys, x.1 ≤ q ∧ q < x.2 := by
  obtain ⟨k, hk, hqk⟩ := h.cover q hq
  obtain ⟨a1, a2, a3, a4⟩ := proper_iv (h.proper k hk)
  rw [a3, mem_posl] at hqk
  exact ⟨iv n k, mem_ivs.mpr ⟨k, hk, rfl⟩, by omega⟩

theorem ivs_good {n : Nat} {keys : List PySlice} (hn : 0 < n) (h : Partition n keys) : GoodK n (ivs n keys) := by
  have hsort : List.Pairwise lexLe (ivs n keys) := List.pairwise_insertionSort _ _
  have hle : ∀ i j, i < j → j < (ivs n keys).length → (kat (ivs n keys) i).1 < (kat (ivs n keys) j).1 ∨
      (kat (ivs n keys) i).1 = (kat (ivs n keys) j).1 ∧ (kat (ivs n keys) i).2 ≤ (kat (ivs n keys) j).2 := by
    intro i j hij hj
    have := List.pairwise_iff_getElem.mp hsort i j (by omega) hj hij
    rw [kat, kat, List.getD_eq_getElem _ _ (by omega : i < _), List.getD_eq_getElem _ _ hj]
    exact this
  have hmem : ∀ i, i < (ivs n keys).length → kat (ivs n keys) i ∈ ivs n keys := by
    intro i hi
    rw [kat, List.getD_eq_getElem _ _ hi]
    exact List.getElem_mem hi
  have hat : ∀ q, q < n → ∃ j, j < (ivs n keys).length ∧ (kat (ivs n keys) j).1 ≤ q ∧ q < (kat (ivs n keys) j).2 := by
    intro q hq
    obtain ⟨x, hx, hxq⟩ := h.at hq
    obtain ⟨j, hj, rfl⟩ := List.mem_iff_getElem.mp hx
    refine ⟨j, hj, ?_⟩
    rw [kat, List.getD_eq_getElem _ _ hj]
    exact hxq
  have hmeet : ∀ i j, i < (ivs n keys).length → j < (ivs n keys).length → ∀ q, ((kat (ivs n keys) i).1 ≤ q ∧ q < (kat (ivs n keys) i).2) →
      ((kat (ivs n keys) j).1 ≤ q ∧ q < (kat (ivs n keys) j).2) → kat (ivs n keys) i = kat (ivs n keys) j :=
    fun i j hi hj q h1 h2 => h.meet (hmem i hi) (hmem j hj) h1 h2
  have hlt : ∀ i, i < (ivs n keys).length → (kat (ivs n keys) i).1 < (kat (ivs n keys) i).2 ∧ (kat (ivs n keys) i).2 ≤ n :=
    fun i hi => h.lt (hmem i hi)
  generalize ivs n keys = K at hle hat hmeet hlt
  have hpos : 0 < K.length := by
    obtain ⟨j, hj, _⟩ := hat 0 hn
    omega
  refine ⟨hpos, fun i hi => (hlt i hi).1, ?_, ?_, ?_⟩
  · intro i hi
    by_cases heq : kat K (i + 1) = kat K i
    · exact Or.inl heq
    · right
      have l1 := hlt i (by omega)
      have l2 := hlt (i + 1) hi
      have o := hle i (i + 1) (by omega) hi
      have hdis : (kat K i).2 ≤ (kat K (i + 1)).1 := by
        by_contra hcon
        exact heq (hmeet (i + 1) i hi (by omega) (kat K (i + 1)).1 (by omega) (by omega))
      by_contra hne
      obtain ⟨j, hj, hj1, hj2⟩ := hat (kat K i).2 (by omega)
      rcases Nat.lt_trichotomy j i with hji | rfl | hji
      · have oj := hle j i hji (by omega)
        have := hmeet j i hj (by omega) (kat K i).1 (by omega) (by omega)
        rw [this] at hj2
        omega
      · omega
      · rcases Nat.lt_or_eq_of_le (show i + 1 ≤ j from hji) with hji' | rfl
        · have oj := hle (i + 1) j hji' hj
          omega
        · omega
  · obtain ⟨j, hj, hj1, hj2⟩ := hat 0 hn
    rcases Nat.eq_zero_or_pos j with rfl | hj0
    · omega
    · have := hle 0 j hj0 hj
      omega
  · obtain ⟨j, hj, hj1, hj2⟩ := hat (n - 1) (by omega)
    have l1 := hlt j hj
    have l2 := hlt (K.length - 1) (by omega)
    by_contra hne
    rcases Nat.lt_or_eq_of_le (show j ≤ K.length - 1 by omega) with hjl | rfl
    · have o := hle j (K.length - 1) hjl (by omega)
      have := hmeet j (K.length - 1) hj (by omega) (kat K (K.length - 1)).1 (by omega) (by omega)
      rw [this] at l1 hj2
      omega
    · omega

/-- The grouping of one dimension, in terms of intervals. -/
theorem dimensionGroup_ok {n : Nat} {inputs : List (List PySlice)} (hn : 0 < n) (hne : inputs ≠ []) (h : ∀ keys ∈ inputs, Partition n keys) :
    (∃ g, dimensionGroup n inputs = .ok g ∧ GroupsFrom n (inputs.map (ivs n)) 0 g ∧ g.length ≤ 9999) ∨
    dimensionGroup n inputs = .error .runtime ∧ 9999 < (inputs.map List.length).sum ∧
      ∀ D : List Nat, (∀ l ∈ inputs, ∀ l' ∈ inputs, ∀ q, Stops (ivs n l) q → Stops (ivs n l') q) → (∀ l ∈ inputs, ∀ q, Stops (ivs n l) q → q ∈ D) →
        9999 < D.length := by
  have hkeys : inputs.map (fun keys => sortKeys n (keys.map (fun k => normalizeSlice k n))) =
      gKeys n (inputs.map (fun keys => ⟨ivs n keys, 0, 0⟩)) := by
    unfold gKeys
    rw [List.map_map]
    apply List.map_congr_left
    intro keys hk
    show sortKeys n _ = (ivs n keys).map (nslice n)
    unfold ivs
    rw [← sortKeys_nslice, List.map_map]
    congr 1
    apply List.map_congr_left
    intro k hk'
    exact (proper_iv ((h keys hk).proper k hk')).2.2.2
  have hgood : ∀ keys ∈ inputs, GoodK n (ivs n keys) := fun keys hk => ivs_good hn (h keys hk)
  have := grpLoop_spec (n := n) 9999 (inputs.map (fun keys => ⟨ivs n keys, 0, 0⟩)) 0 [] (by simpa using hne) (by omega)
    (by
      intro _
      constructor
      · intro t ht
        obtain ⟨keys, hk, rfl⟩ := List.mem_map.mp ht
        have g := hgood keys hk
        exact ⟨g, le_refl _, g.pos, g.first, fun i hi => by exact absurd hi (by simp)⟩
      · intro q hq hcom t ht
        obtain ⟨keys, hk, rfl⟩ := List.mem_map.mp ht
        have g := hgood keys hk
        obtain ⟨i, hi, hiq⟩ := stops_iff.mp (hcom _ ht)
        have := (g.mono (i := 0) (j := i) (by omega) hi).2
        simp only at hiq ⊢
        omega)
    (by intro h0; omega) (by simp)
  unfold dimensionGroup
  simp only [hkeys]
  have hz : (gKeys n (inputs.map (fun keys => (⟨ivs n keys, 0, 0⟩ : GIn)))).map (fun _ => (0 : Nat)) =
      (inputs.map (fun keys => (⟨ivs n keys, 0, 0⟩ : GIn))).map (·.s) := by
    unfold gKeys
    simp only [List.map_map]
    rfl
  have hz' : (gKeys n (inputs.map (fun keys => (⟨ivs n keys, 0, 0⟩ : GIn)))).map (fun _ => (0 : Nat)) =
      (inputs.map (fun keys => (⟨ivs n keys, 0, 0⟩ : GIn))).map (·.c) := by
    unfold gKeys
    simp only [List.map_map]
    rfl
  have hst : (⟨(gKeys n (inputs.map (fun keys => (⟨ivs n keys, 0, 0⟩ : GIn)))).map (fun _ => (0 : Nat)),
      (gKeys n (inputs.map (fun keys => (⟨ivs n keys, 0, 0⟩ : GIn)))).map (fun _ => (0 : Nat)), []⟩ : GrpState) =
      ⟨(inputs.map (fun keys => (⟨ivs n keys, 0, 0⟩ : GIn))).map (·.s), (inputs.map (fun keys => (⟨ivs n keys, 0, 0⟩ : GIn))).map (·.c), []⟩ := by
    rw [← hz, ← hz']
  rw [hst]
  rcases this with ⟨new, h1, h2, h3⟩ | ⟨h1, h2, h3⟩
  · left
    refine ⟨new, by simpa using h1, ?_, h3⟩
    rw [List.map_map] at h2
    exact h2
  · right
    refine ⟨h1, ?_, fun D hA hD => ?_⟩
    rotate_left
    · rw [List.map_map] at h3
      refine lt_of_lt_of_le (h3 D ?_ ?_) (List.length_filter_le _ _)
      · intro K hK K' hK'
        obtain ⟨l, hl, rfl⟩ := List.mem_map.mp hK
        obtain ⟨l', hl', rfl⟩ := List.mem_map.mp hK'
        exact hA l hl l' hl'
      · intro K hK
        obtain ⟨l, hl, rfl⟩ := List.mem_map.mp hK
        exact hD l hl
    rw [List.map_map] at h2
    have heq : inputs.map ((fun t : GIn => t.K.length - t.c) ∘ fun keys => ⟨ivs n keys, 0, 0⟩) = inputs.map List.length := by
      apply List.map_congr_left
      intro keys _
      have := (ivs_perm n keys).length_eq
      simp at this ⊢
      exact this
    rw [heq] at h2
    exact h2

end Biggus

import Verif.Proofs.ChunkKeys
/-
Cutting an expression with chunk keys keeps it `Arr.Ok`.
-/
namespace Biggus

variable {α V : Type}

/-- Number of nested engine evaluations needed at most `n`. -/
def Arr.levelLe : Arr α → Nat → Prop
  | .adapter _ _ _, _ => True
  | .const _ _ _, _ => True
  | .newAxes a _, n => a.levelLe n
  | .bcast a _ _, n => a.levelLe n
  | .transposed a _, n => a.levelLe n
  | .stack ss items, n => ∀ i, InB ss i → (items i).levelLe n
  | .mosaic k tiles _, n => ∀ i, i < k → (tiles i).levelLe n
  | .asType a _, n => a.levelLe n
  | .maskVal a _, n => a.levelLe n
  | .agg _ _ _, 0 => False
  | .agg a _ _, n + 1 => a.levelLe n
  | .elem1 _ _, 0 => False
  | .elem1 a _, n + 1 => a.levelLe n
  | .elem2 _ _ _, 0 => False
  | .elem2 a b _, n + 1 => a.levelLe n ∧ b.levelLe n

theorem Arr.levelLe.mono : ∀ (a : Arr α) (n k : Nat), n ≤ k → a.levelLe n → a.levelLe k
  | .adapter _ _ _, _, _, _, _ => trivial
  | .const _ _ _, _, _, _, _ => trivial
  | .newAxes a _, n, k, h, ha => Arr.levelLe.mono a n k h ha
  | .bcast a _ _, n, k, h, ha => Arr.levelLe.mono a n k h ha
  | .transposed a _, n, k, h, ha => Arr.levelLe.mono a n k h ha
  | .stack _ items, n, k, h, ha => fun i hi => Arr.levelLe.mono (items i) n k h (ha i hi)
  | .mosaic _ tiles _, n, k, h, ha => fun i hi => Arr.levelLe.mono (tiles i) n k h (ha i hi)
  | .asType a _, n, k, h, ha => Arr.levelLe.mono a n k h ha
  | .maskVal a _, n, k, h, ha => Arr.levelLe.mono a n k h ha
  | .agg a _ _, n + 1, k + 1, h, ha => Arr.levelLe.mono a n k (by omega) ha
  | .elem1 a _, n + 1, k + 1, h, ha => Arr.levelLe.mono a n k (by omega) ha
  | .elem2 a b _, n + 1, k + 1, h, ha => ⟨Arr.levelLe.mono a n k (by omega) ha.1, Arr.levelLe.mono b n k (by omega) ha.2⟩

theorem finite_bound (p : Nat → Nat → Prop) (hm : ∀ i n k, n ≤ k → p i n → p i k) (l : List Nat) (h : ∀ i ∈ l, ∃ n, p i n) :
    ∃ n, ∀ i ∈ l, p i n := by
  induction l with
  | nil => exact ⟨0, by simp⟩
  | cons x l ih =>
    obtain ⟨n1, h1⟩ := h x (by simp)
    obtain ⟨n2, h2⟩ := ih (fun i hi => h i (by simp [hi]))
    refine ⟨max n1 n2, ?_⟩
    intro i hi
    rcases List.mem_cons.mp hi with rfl | hi
    · exact hm _ _ _ (le_max_left _ _) h1
    · exact hm _ _ _ (le_max_right _ _) (h2 i hi)

theorem finite_bound' {ι : Type} (p : ι → Nat → Prop) (hm : ∀ i n k, n ≤ k → p i n → p i k) (l : List ι)
    (h : ∀ i ∈ l, ∃ n, p i n) : ∃ n, ∀ i ∈ l, p i n := by
  induction l with
  | nil => exact ⟨0, by simp⟩
  | cons x l ih =>
    obtain ⟨n1, h1⟩ := h x (by simp)
    obtain ⟨n2, h2⟩ := ih (fun i hi => h i (by simp [hi]))
    refine ⟨max n1 n2, ?_⟩
    intro i hi
    rcases List.mem_cons.mp hi with rfl | hi
    · exact hm _ _ _ (le_max_left _ _) h1
    · exact hm _ _ _ (le_max_right _ _) (h2 i hi)

/-- Every expression has a finite level. -/
theorem exists_level : ∀ a : Arr α, ∃ n, a.levelLe n
  | .adapter _ _ _ => ⟨0, trivial⟩
  | .const _ _ _ => ⟨0, trivial⟩
  | .newAxes a _ => exists_level a
  | .bcast a _ _ => exists_level a
  | .transposed a _ => exists_level a
  | .stack ss items => by
    obtain ⟨n, hn⟩ := finite_bound' (fun i n => (items i).levelLe n) (fun i n k h => Arr.levelLe.mono (items i) n k h)
      (ndindex ss) (fun i _ => exists_level (items i))
    exact ⟨n, fun i hi => hn i ((mem_ndindex ss i).mpr hi)⟩
  | .mosaic n tiles _ => by
    obtain ⟨k, hk⟩ := finite_bound' (fun i n => (tiles i).levelLe n) (fun i n k h => Arr.levelLe.mono (tiles i) n k h)
      (List.range n) (fun i _ => exists_level (tiles i))
    exact ⟨k, fun i hi => hk i (by simpa using hi)⟩
  | .asType a _ => exists_level a
  | .maskVal a _ => exists_level a
  | .agg a _ _ => by obtain ⟨n, h⟩ := exists_level a; exact ⟨n + 1, h⟩
  | .elem1 a _ => by obtain ⟨n, h⟩ := exists_level a; exact ⟨n + 1, h⟩
  | .elem2 a b _ => by
    obtain ⟨n, h⟩ := exists_level a
    obtain ⟨k, h'⟩ := exists_level b
    exact ⟨max n k + 1, Arr.levelLe.mono a _ _ (le_max_left _ _) h, Arr.levelLe.mono b _ _ (le_max_right _ _) h'⟩

/-! ### skeletons -/

def Skel.shape : Skel → List Nat
  | .prod s => s
  | .agg s axis => s.shape.eraseIdx axis

def Skel.WF : Skel → Prop
  | .prod _ => True
  | .agg s axis => s.WF ∧ axis < s.shape.length

/-- The skeleton of the indexed array. -/
def Skel.index : Skel → List Key → Skel
  | .prod s, fk => .prod (match resolve fk s with
    | .ok σ => selShape σ
    | .error _ => [])
  | .agg s axis, fk => .agg (s.index (fk.take axis ++ [Key.full] ++ fk.drop axis))
      (axis - ((fk.take axis).filter Key.isScalar).length)

theorem skel_shape [Inhabited V] (m : Mode α V) : ∀ a : Arr α, a.WF → a.skel.WF ∧ a.skel.shape = (a.den m).shape
  | .adapter o c keys, h => ⟨trivial, by unfold Arr.skel; rw [h.shape_eq m]; rfl⟩
  | .const _ _ _, h => ⟨trivial, by unfold Arr.skel; rw [h.shape_eq m]; rfl⟩
  | .newAxes a _, h => ⟨trivial, by unfold Arr.skel; rw [h.shape_eq m]; rfl⟩
  | .bcast a _ _, h => ⟨trivial, by unfold Arr.skel; rw [h.shape_eq m]; rfl⟩
  | .transposed a _, h => ⟨trivial, by unfold Arr.skel; rw [h.shape_eq m]; rfl⟩
  | .stack ss items, h => ⟨trivial, by unfold Arr.skel; rw [h.shape_eq m]; rfl⟩
  | .mosaic k tiles _, h => ⟨trivial, by unfold Arr.skel; rw [h.shape_eq m]; rfl⟩
  | .asType a _, h => ⟨trivial, by unfold Arr.skel; rw [Arr.WF.shape_eq m _ h]; rfl⟩
  | .maskVal a _, h => ⟨trivial, by unfold Arr.skel; rw [Arr.WF.shape_eq m _ h]; rfl⟩
  | .agg a axis _, ⟨ha, s, hs, hax⟩ => by
    obtain ⟨h1, h2⟩ := skel_shape m a ha
    refine ⟨⟨h1, ?_⟩, ?_⟩
    · rw [h2, ha.den_shape m hs]; exact hax
    · show a.skel.shape.eraseIdx axis = _
      rw [h2]; rfl
  | .elem1 a _, h => skel_shape m a h
  | .elem2 a _ _, h => skel_shape m a h.1

theorem suffix_prod_le {limit : Nat} {s' s : List Nat} (h : List.Forall₂ (fun n' n => n' ≤ n ∧ (n ≠ 0 → n' ≠ 0)) s' s)
    (hf : ∀ i, (s.drop i).prod ≤ limit) : ∀ i, (s'.drop i).prod ≤ limit := by
  have hp : ∀ {s' s : List Nat}, List.Forall₂ (fun n' n => n' ≤ n ∧ (n ≠ 0 → n' ≠ 0)) s' s → s'.prod ≤ s.prod := by
    intro s' s h
    induction h with
    | nil => exact le_refl _
    | cons hr _ ih => rw [List.prod_cons, List.prod_cons]; exact Nat.mul_le_mul hr.1 ih
  intro i
  exact le_trans (hp (List.forall₂_drop i h)) (hf i)

theorem fits_index {limit : Nat} {cut : Cut} : ∀ (sk : Skel) (fk : List Key), sk.WF → List.Forall₂ (ChunkKey cut) fk sk.shape →
    sk.fits limit → (sk.index fk).fits limit
  | .prod s, fk, _, h, hf => by
    obtain ⟨σ, h1, _, h3⟩ := chunkKeys_resolve h
    unfold Skel.index
    simp only [Skel.shape] at h1 h3
    rw [h1]
    exact suffix_prod_le h3 hf
  | .agg s axis, fk, hw, h, hf => fits_index s _ hw.1 (chunk_agg hw.2 h) hf

theorem allSlices_fits {limit : Nat} : ∀ {s : List Nat}, (∀ i, (s.drop i).prod ≤ limit) →
    allSlicesInner limit true s = s.map (fun _ => [Key.full])
  | [], _ => rfl
  | n :: s, h => by
    rw [allSlices_cons, allSlices_fits (s := s) (fun i => by simpa using h (i + 1))]
    rw [List.map_cons]
    congr 1
    unfold dimSlices
    rw [if_pos (by simpa using h 0)]

theorem cuts_fits {limit : Nat} : ∀ (sk : Skel), sk.fits limit → sk.cuts limit = sk.shape.map (fun _ => [Key.full])
  | .prod _, h => allSlices_fits h
  | .agg s axis, h => by
    unfold Skel.cuts
    rw [cuts_fits s h, List.eraseIdx_map]
    rfl

/-! ### room for columns -/

theorem skipAxis_lt {axis i n : Nat} (h : i < n - 1) (hax : axis < n) : skipAxis axis i < n := by
  unfold skipAxis; split <;> omega

theorem getD_eraseIdx_skip {β : Type} (l : List β) (axis i : Nat) (d : β) : (l.eraseIdx axis).getD i d = l.getD (skipAxis axis i) d := by
  unfold skipAxis
  rw [List.getD_eq_getElem?_getD, List.getD_eq_getElem?_getD, List.getElem?_eraseIdx]
  split <;> rfl

theorem allSlices_getD (limit : Nat) : ∀ (s : List Nat) (i : Nat), i < s.length →
    (allSlicesInner limit true s).getD i [] = dimSlices limit true (s.drop (i + 1)).prod (s.getD i 0)
  | n :: s, 0, _ => by rw [allSlices_cons]; rfl
  | n :: s, i + 1, h => by
    rw [allSlices_cons]
    exact allSlices_getD limit s i (by simpa using h)

/-- The cuts along a dimension. -/
theorem cuts_right (limit : Nat) : ∀ (sk : Skel) (i : Nat), sk.WF → i < sk.shape.length →
    (sk.cuts limit).getD i [] = dimSlices limit true (sk.right i) (sk.shape.getD i 0)
  | .prod s, i, _, h => allSlices_getD limit s i h
  | .agg s axis, i, hw, h => by
    have hl : i < s.shape.length - 1 := by
      have : (s.shape.eraseIdx axis).length = s.shape.length - 1 := by rw [List.length_eraseIdx, if_pos hw.2]
      rw [← this]; exact h
    have h2 := cuts_right limit s (skipAxis axis i) hw.1 (skipAxis_lt hl hw.2)
    show ((s.cuts limit).eraseIdx axis).getD i [] = dimSlices limit true (s.right (skipAxis axis i)) ((s.shape.eraseIdx axis).getD i 0)
    rw [getD_eraseIdx_skip, getD_eraseIdx_skip, h2]

/-- A dimension that has one element, or fits, is not cut. -/
theorem dimSlices_one {limit p n : Nat} (h : n = 1 ∨ n * p ≤ limit) : (dimSlices limit true p n).length = 1 := by
  rcases dimSlices_cases limit true p n with ⟨_, e⟩ | ⟨h1, h2, e⟩ | ⟨h1, h2, _, e⟩
  · rw [e]; rfl
  · rw [e, List.length_map, List.length_range]
    rcases h with h | h
    · exact h
    · exfalso
      have : 1 * p ≤ n * p := Nat.mul_le_mul_right p h2
      omega
  · exfalso
    rcases h with rfl | h <;> omega

/-- If two values fit, the first piece has two values. -/
theorem dimSlices_two {limit p n : Nat} (h : 2 * p ≤ limit) (hn : ¬ n * p ≤ limit) :
    ∃ k ks, dimSlices limit true p n = k :: ks ∧ 2 ≤ (keyPos k n).length := by
  rcases dimSlices_cases limit true p n with ⟨e, _⟩ | ⟨h1, h2, e⟩ | ⟨h1, h2, h3, e⟩
  · exact absurd e hn
  · omega
  · have hs : 2 ≤ limit / p := (Nat.le_div_iff_mul_le h3).mpr h
    have hlt : limit / p < n := (Nat.div_lt_iff_lt_mul h3).mpr h2
    have hc : (n + limit / p - 1) / (limit / p) = ((n + limit / p - 1) / (limit / p) - 1) + 1 := by
      have : 1 ≤ (n + limit / p - 1) / (limit / p) := Nat.div_pos (by omega) (by omega)
      omega
    rw [hc, List.range_succ_eq_map, List.map_cons] at e
    refine ⟨_, _, e, ?_⟩
    rw [keyPos_span _ _ _ (by omega) (by omega), List.length_range']
    omega

/-- Chunks have at least as much room along a dimension. -/
theorem holds_chunk {limit r : Nat} {cut : Cut} : ∀ (sk : Skel) (fk : List Key) (i : Nat), sk.WF → List.Forall₂ (ChunkKey cut) fk sk.shape →
    (∀ k ∈ fk, k.isScalar = false) → sk.holds limit r i → (sk.index fk).holds limit r i
  | .prod s, fk, i, _, h, _, hf => by
    obtain ⟨σ, h1, _, h3⟩ := chunkKeys_resolve h
    unfold Skel.index
    simp only [Skel.shape] at h1 h3
    rw [h1]
    have hp : ∀ {s' s : List Nat}, List.Forall₂ (fun n' n => n' ≤ n ∧ (n ≠ 0 → n' ≠ 0)) s' s → s'.prod ≤ s.prod := by
      intro s' s h
      induction h with
      | nil => exact le_refl _
      | cons hr _ ih => rw [List.prod_cons, List.prod_cons]; exact Nat.mul_le_mul hr.1 ih
    exact le_trans (Nat.mul_le_mul_left r (hp (List.forall₂_drop (i + 1) h3))) hf
  | .agg s axis, fk, i, hw, h, hsc, hf => by
    have : ((fk.take axis).filter Key.isScalar).length = 0 := by
      rw [List.length_eq_zero_iff, List.filter_eq_nil_iff]
      intro k hk
      rw [hsc k (List.mem_of_mem_take hk)]
      exact Bool.false_ne_true
    unfold Skel.index
    rw [this]
    refine holds_chunk s _ _ hw.1 (chunk_agg hw.2 h) ?_ hf
    intro k hk
    simp only [List.mem_append, List.mem_singleton] at hk
    rcases hk with (hk | rfl) | hk
    · exact hsc k (List.mem_of_mem_take hk)
    · rfl
    · exact hsc k (List.mem_of_mem_drop hk)

theorem holds_of_fits {limit : Nat} : ∀ (sk : Skel) (i : Nat), sk.WF → i < sk.shape.length → sk.fits limit → sk.holds limit (sk.shape.getD i 0) i
  | .prod s, i, _, h, hf => by
    have h : i < s.length := h
    have := hf i
    rw [List.drop_eq_getElem_cons h, List.prod_cons] at this
    show s.getD i 0 * _ ≤ _
    rw [List.getD_eq_getElem?_getD, List.getElem?_eq_getElem h]
    exact this
  | .agg s axis, i, hw, h, hf => by
    have hl : i < s.shape.length - 1 := by
      have : (s.shape.eraseIdx axis).length = s.shape.length - 1 := by rw [List.length_eraseIdx, if_pos hw.2]
      rw [← this]; exact h
    have := holds_of_fits s (skipAxis axis i) hw.1 (skipAxis_lt hl hw.2) hf
    show s.holds limit ((s.shape.eraseIdx axis).getD i 0) _
    rw [getD_eraseIdx_skip]
    exact this

/-- What the engine needs to know about an aggregation. -/
theorem cutSafe_cuts [Inhabited V] {m : Mode α V} {limit : Nat} {a : Arr α} {axis : Nat} {h : Handler V} (hwa : a.WF) {s : List Nat} (hs : a.shape = .ok s)
    (hax : axis < s.length) (hc : a.cutSafe limit axis h) : CutSafe h ((a.skel.cuts limit).getD axis []) ((okOr a.shape []).getD axis 0) := by
  obtain ⟨w1, w2⟩ := skel_shape m a hwa
  rw [hwa.den_shape m hs] at w2
  have h2 := cuts_right limit a.skel axis w1 (by rw [w2]; exact hax)
  have h1 : ∀ r, a.skel.holds limit r axis ↔ r * a.skel.right axis ≤ limit := fun _ => Iff.rfl
  generalize a.skel.right axis = p at h1 h2
  rw [w2] at h2
  unfold Arr.cutSafe at hc
  rw [h2, hs]
  rw [hs] at hc
  show CutSafe h (dimSlices limit true p (s.getD axis 0)) (s.getD axis 0)
  rcases hc with hc | hc | hc | ⟨hc, hc'⟩
  · exact Or.inl hc
  · exact Or.inr (Or.inl (dimSlices_one (Or.inl hc)))
  · exact Or.inr (Or.inl (dimSlices_one (Or.inr ((h1 _).mp hc))))
  · by_cases hn : s.getD axis 0 * p ≤ limit
    · exact Or.inr (Or.inl (dimSlices_one (Or.inr hn)))
    · exact Or.inr (Or.inr ⟨hc, dimSlices_two ((h1 _).mp hc') hn⟩)

/-- A column that has one element, or fits into a chunk, is not cut. -/
theorem cutSafe_of_uncut {limit : Nat} {a : Arr α} {axis : Nat} {h : Handler V} {s : List Nat} (hs : a.shape = .ok s)
    (hf : s.getD axis 0 = 1 ∨ a.skel.holds limit (s.getD axis 0) axis) : a.cutSafe limit axis h := by
  right
  rw [hs]
  rcases hf with hf | hf
  · exact Or.inl hf
  · exact Or.inr (Or.inl hf)

theorem cutSafe_of_fits [Inhabited V] {m : Mode α V} {limit : Nat} {a : Arr α} {axis : Nat} {h : Handler V} (hwa : a.WF) {s : List Nat} (hs : a.shape = .ok s)
    (hax : axis < s.length) (hf : a.skel.fits limit) : a.cutSafe limit axis h := by
  obtain ⟨w1, w2⟩ := skel_shape m a hwa
  rw [hwa.den_shape m hs] at w2
  refine Or.inr (Or.inr (Or.inl ?_))
  rw [hs]
  have := holds_of_fits a.skel axis w1 (by rw [w2]; exact hax) hf
  rw [w2] at this
  exact this

/-! ### adapters -/

theorem contiguousAdv_one (l : List Bool) (h : (l.filter (fun b => b)).length ≤ 1) : contiguousAdv l = true := by
  unfold contiguousAdv
  induction l with
  | nil => rfl
  | cons b l ih =>
    cases b with
    | false => simpa using ih (by simpa using h)
    | true =>
      simp only [List.dropWhile_cons_of_neg, Bool.not_true, Bool.false_eq_true, not_false_eq_true, List.dropWhile_cons_of_pos]
      have h0 : ∀ b ∈ l, b = false := by
        intro b hb
        by_contra hne
        have : b = true := by simpa using hne
        subst this
        have : (l.filter (fun b => b)).length ≠ 0 := by
          intro e
          rw [List.length_eq_zero_iff, List.filter_eq_nil_iff] at e
          exact e true hb rfl
        rw [List.filter_cons_of_pos rfl, List.length_cons] at h
        omega
      have : ∀ l : List Bool, (∀ b ∈ l, b = false) → (l.dropWhile (fun x => x)).any (fun x => x) = false := by
        intro l hl
        rw [List.any_eq_false]
        intro b hb
        have := hl b (List.dropWhile_subset _ hb)
        simp [this]
      simp [this l h0]

theorem contiguousAdv_true_false (p q : Nat) : contiguousAdv (List.replicate p true ++ List.replicate q false) = true := by
  rw [contiguousAdv_append_false]
  unfold contiguousAdv
  cases p with
  | zero => rfl
  | succ p =>
    rw [List.replicate_succ]
    simp

/-- Keys of the form "ints and tuples, then slices and tuples" are read orthogonally if the second part has no tuples or
there are no ints. -/
theorem takeSafe_of {A B : List Key} (hA : ∀ k ∈ A, (∃ i, k = .int i) ∨ ∃ l, k = .tuple l)
    (hB : ∀ k ∈ B, (∃ s, k = .slice s) ∨ ∃ l, k = .tuple l) (h : (∀ l, Key.tuple l ∉ B) ∨ ∀ i, Key.int i ∉ A) :
    takeSafe (A ++ B) := by
  unfold takeSafe
  split
  · left
    rw [List.any_eq_false]
    intro k hk
    unfold cutKeys at hk
    obtain ⟨k', hk', rfl⟩ := List.mem_map.mp hk
    rcases List.mem_append.mp hk' with hk' | hk'
    · rcases hA k' hk' with ⟨i, rfl⟩ | ⟨l, rfl⟩ <;> simp [Key.isTuple, Key.isArr, Key.full]
    · rcases hB k' hk' with ⟨i, rfl⟩ | ⟨l, rfl⟩ <;> simp [Key.isTuple, Key.isArr, Key.full]
  · rename_i hle
    have hfil : (A ++ B).filter Key.isArr = (A ++ B).filter Key.isTuple := by
      apply List.filter_congr
      intro k hk
      rcases List.mem_append.mp hk with hk | hk
      · rcases hA k hk with ⟨i, rfl⟩ | ⟨l, rfl⟩ <;> rfl
      · rcases hB k hk with ⟨i, rfl⟩ | ⟨l, rfl⟩ <;> rfl
    by_cases h0 : ((A ++ B).filter Key.isTuple).length = 0
    · left
      rw [List.length_eq_zero_iff, ← hfil, List.filter_eq_nil_iff] at h0
      rw [List.any_eq_false]
      exact h0
    · right
      refine ⟨by rw [hfil]; omega, ?_⟩
      rcases h with h | h
      · have e1 : A.map Key.isAdv = List.replicate A.length true := by
          rw [List.eq_replicate_iff]
          refine ⟨by simp, ?_⟩
          intro b hb
          obtain ⟨k, hk, rfl⟩ := List.mem_map.mp hb
          rcases hA k hk with ⟨i, rfl⟩ | ⟨l, rfl⟩ <;> rfl
        have e2 : B.map Key.isAdv = List.replicate B.length false := by
          rw [List.eq_replicate_iff]
          refine ⟨by simp, ?_⟩
          intro b hb
          obtain ⟨k, hk, rfl⟩ := List.mem_map.mp hb
          rcases hB k hk with ⟨i, rfl⟩ | ⟨l, rfl⟩
          · rfl
          · exact absurd hk (h l)
        rw [List.map_append, e1, e2]
        exact contiguousAdv_true_false _ _
      · apply contiguousAdv_one
        rw [List.filter_map, List.length_map]
        have : (A ++ B).filter ((fun b => b) ∘ Key.isAdv) = (A ++ B).filter Key.isTuple := by
          apply List.filter_congr
          intro k hk
          rcases List.mem_append.mp hk with hk | hk
          · rcases hA k hk with ⟨i, rfl⟩ | ⟨l, rfl⟩
            · exact absurd hk (h i)
            · rfl
          · rcases hB k hk with ⟨i, rfl⟩ | ⟨l, rfl⟩ <;> rfl
        rw [this]; omega

theorem bind_ok {β γ : Type} {x : Res β} {f : β → Res γ} {b : γ} : (x >>= f) = .ok b ↔ ∃ y, x = .ok y ∧ f y = .ok b := by
  cases x with
  | error e => simp [bind, Except.bind]
  | ok y => simp [bind, Except.bind]

theorem scalar_int {k : Key} (h : k.isScalar = true) : ∃ i, k = .int i := by
  cases k <;> first | exact ⟨_, rfl⟩ | cases h

/-- What the keys of a re-indexed adapter look like. -/
theorem adapterLoop_form {cut : Cut} : ∀ (stored : List Key) (sh : List Nat) (new ks' : List Key) (σ : List Sel) (p : Nat),
    (∀ k ∈ stored, k.storable = true ∧ ∀ l, k ≠ .barr l) →
    resolve (stored ++ List.replicate p Key.full) sh = .ok σ →
    List.Forall₂ (ChunkKey cut) new (selShape σ) → adapterLoop stored sh new = .ok ks' →
    ∃ A B, ks' = A ++ B ∧ A.length = stored.length ∧ B.length = p ∧ (∀ k ∈ A, (∃ i, k = .int i) ∨ ∃ l, k = .tuple l) ∧
      (∀ i, Key.int i ∈ A → ∃ j, Key.int j ∈ stored) ∧
      (∀ k ∈ B, (∃ s, k = .slice s) ∨ cut = .arrays ∧ ∃ l, k = .tuple l) := by
  intro stored
  induction stored with
  | nil =>
    intro sh new ks' σ p _ hσ hnew h
    unfold adapterLoop at h
    have hf := mapM_ok_inv _ _ _ h
    have hlr := resolve_length (exact_replicate_full p) (by simpa using hσ)
    rw [List.length_replicate] at hlr
    have hpick : (selShape σ).length = p := by
      have : sh.length = p := hlr.1.symm
      subst this
      rw [(resolve_full (by simpa using hσ)).1]
    have hnl := hnew.length_eq
    refine ⟨[], ks', rfl, rfl, ?_, by simp, by simp, ?_⟩
    · rw [← hf.length_eq, List.length_zip, hnl, hpick, ← hlr.1]; simp
    · intro k hk
      obtain ⟨x, hx, hxk⟩ := forall₂_mem_left hf.flip hk
      obtain ⟨k0, n0⟩ := x
      have hk0 : k0 ∈ new := (List.of_mem_zip hx).1
      obtain ⟨n1, _, hck⟩ := forall₂_mem_left hnew hk0
      obtain ⟨⟨s, rfl, _⟩ | ⟨hcut, l, rfl, _⟩, _⟩ := hck
      · simp only [cleanupKey] at hxk
        injection hxk with hxk
        exact Or.inl ⟨s, hxk.symm⟩
      · simp only [cleanupKey] at hxk
        split at hxk
        · injection hxk with hxk
          exact Or.inr ⟨hcut, l, hxk.symm⟩
        · cases hxk
  | cons k stored ih =>
    intro sh new ks' σ p hst hσ hnew h
    have hk := hst k (by simp)
    have hst' : ∀ k ∈ stored, k.storable = true ∧ ∀ l, k ≠ .barr l := fun k hk => hst k (by simp [hk])
    have hke := storable_exact hk.1
    rw [List.cons_append, resolve_cons_iff hke.1] at hσ
    obtain ⟨n, ns, s, σ', rfl, rfl, hs, hσ'⟩ := hσ
    match new, hnew with
    | [], hnew =>
      -- nothing left to index: all remaining stored keys are integers
      have hss : selShape (s :: σ') = [] := List.length_eq_zero_iff.mp hnew.length_eq.symm
      have hpn := selShape_nil_pad (stored := k :: stored) (sh := n :: ns) (σ := s :: σ')
        (by intro x hx; exact storable_exact (hst x hx).1) p
        (by rw [List.cons_append, resolve_cons_iff hke.1]; exact ⟨n, ns, s, σ', rfl, rfl, hs, hσ'⟩) hss
      have hks : ks' = k :: stored := by
        cases k <;> first | (simp only [adapterLoop] at h; injection h with h; exact h.symm) | cases h
      subst hpn
      refine ⟨k :: stored, [], by simp [hks], rfl, rfl, ?_, fun i hi => ⟨i, hi⟩, by simp⟩
      have hall : ∀ (st : List Key) (sh : List Nat) (σ : List Sel), Exact st → resolve st sh = .ok σ → selShape σ = [] →
          ∀ k ∈ st, ∃ i, k = .int i := by
        intro st
        induction st with
        | nil => intro _ _ _ _ _ k hk; simp at hk
        | cons x st ih =>
          intro sh σ hex hr hsh k hk
          rw [resolve_cons_iff (hex x (by simp)).1] at hr
          obtain ⟨n, ns, s, σ', rfl, rfl, hs, hσ'⟩ := hr
          have hsc := resolve1_scalar (hex x (by simp)).1 hs
          have hnp : s.isPick = false := by
            cases s with
            | pick l => simp [selShape] at hsh
            | _ => rfl
          have hsh' : selShape σ' = [] := by
            cases s with
            | pick l => simp [selShape] at hsh
            | new => simp [selShape] at hsh
            | «at» i => exact hsh
          rcases List.mem_cons.mp hk with rfl | hk
          · rw [hnp] at hsc
            exact scalar_int (by revert hsc; cases k.isScalar <;> simp)
          · exact ih ns σ' (hex.tail) hσ' hsh' k hk
      intro x hx
      exact Or.inl (hall (k :: stored) (n :: ns) (s :: σ') (by intro x hx; exact storable_exact (hst x hx).1)
        (by rw [resolve_cons_iff hke.1]; exact ⟨n, ns, s, σ', rfl, rfl, hs, by simpa using hσ'⟩) hss x hx)
    | nk :: new, hnew =>
      have hpick : (∀ i, k ≠ .int i) → ∃ l, s = .pick l := by
        intro hni
        have hsc := resolve1_scalar hke.1 hs
        have : k.isScalar = false := by
          cases hb : k.isScalar with
          | false => rfl
          | true => obtain ⟨i, hi⟩ := scalar_int hb; exact absurd hi (hni i)
        rw [this] at hsc
        cases s with
        | pick l => exact ⟨l, rfl⟩
        | _ => simp [Sel.isPick] at hsc
      have hrem : ∀ (ind : List Int) (k' : Key), ChunkKey cut nk ((selShape (s :: σ')).headD 0) → remapKey ind nk = .ok k' →
          ∃ l, k' = .tuple l := by
        intro ind k' hck hr
        obtain ⟨⟨sl, rfl, _⟩ | ⟨_, l, rfl, _⟩, _⟩ := hck
        · simp only [remapKey] at hr
          obtain ⟨y, _, hy⟩ := bind_ok.mp hr
          cases hy
          exact ⟨_, rfl⟩
        · simp only [remapKey] at hr
          split at hr
          · cases hr; exact ⟨_, rfl⟩
          · cases hr
      have hcons : ∀ (ind : Res (List Int)) (l : List Nat), s = .pick l →
          (∃ (indices : List Int) (k' : Key) (r : List Key), remapKey indices nk = .ok k' ∧
            adapterLoop stored ns new = .ok r ∧ ks' = k' :: r) →
          ∃ A B, ks' = A ++ B ∧ A.length = (k :: stored).length ∧ B.length = p ∧
            (∀ k ∈ A, (∃ i, k = .int i) ∨ ∃ l, k = .tuple l) ∧
            (∀ i, Key.int i ∈ A → ∃ j, Key.int j ∈ k :: stored) ∧
            (∀ k ∈ B, (∃ s, k = .slice s) ∨ cut = .arrays ∧ ∃ l, k = .tuple l) := by
        rintro _ l rfl ⟨indices, k', r, hr1, hr2, rfl⟩
        obtain ⟨hck, hnew'⟩ := List.forall₂_cons.mp hnew
        obtain ⟨tl, rfl⟩ := hrem indices k' hck hr1
        obtain ⟨A, B, rfl, hA1, hB1, hA2, hA3, hB2⟩ := ih ns new r σ' p hst' hσ' hnew' hr2
        refine ⟨.tuple tl :: A, B, rfl, by simp [hA1], hB1, ?_, ?_, hB2⟩
        · intro x hx
          rcases List.mem_cons.mp hx with rfl | hx
          · exact Or.inr ⟨_, rfl⟩
          · exact hA2 x hx
        · intro i hi
          rcases List.mem_cons.mp hi with hi | hi
          · cases hi
          · obtain ⟨j, hj⟩ := hA3 i hi
            exact ⟨j, by simp [hj]⟩
      cases k with
      | int i =>
        simp only [adapterLoop] at h
        obtain ⟨r, hr, h⟩ := bind_ok.mp h
        cases h
        simp only [resolve1] at hs
        split at hs
        · cases hs
          obtain ⟨A, B, rfl, hA1, hB1, hA2, hA3, hB2⟩ := ih ns (nk :: new) r σ' p hst' hσ' hnew (by simpa using hr)
          refine ⟨.int i :: A, B, rfl, by simp [hA1], hB1, ?_, fun i' hi' => ⟨i, by simp⟩, hB2⟩
          intro x hx
          rcases List.mem_cons.mp hx with rfl | hx
          · exact Or.inl ⟨_, rfl⟩
          · exact hA2 x hx
        · cases hs
      | slice sl =>
        obtain ⟨l, rfl⟩ := hpick (by intro i e; cases e)
        simp only [adapterLoop] at h
        obtain ⟨ind, _, h⟩ := bind_ok.mp h
        obtain ⟨k', hk', h⟩ := bind_ok.mp h
        obtain ⟨r, hr, h⟩ := bind_ok.mp h
        cases h
        exact hcons (.ok []) l rfl ⟨ind, k', r, hk', by simpa using hr, rfl⟩
      | tuple l0 =>
        obtain ⟨l, rfl⟩ := hpick (by intro i e; cases e)
        simp only [adapterLoop] at h
        obtain ⟨k', hk', h⟩ := bind_ok.mp h
        obtain ⟨r, hr, h⟩ := bind_ok.mp h
        cases h
        exact hcons (.ok []) l rfl ⟨l0, k', r, hk', by simpa using hr, rfl⟩
      | barr l => exact absurd rfl (hk.2 l)
      | list l => simp [Key.storable] at hk
      | iarr l => simp [Key.storable] at hk
      | newaxis => simp [Key.storable] at hk
      | ellipsis => simp [Key.storable] at hk
      | bad => simp [Key.storable] at hk

end Biggus

import Verif.Proofs.Shape
/-
Helper lemmas about orthogonal selections.
-/
namespace Biggus

theorem NDA.Eqv.refl {β : Type} (a : NDA β) : a ≈ₐ a := ⟨rfl, fun _ _ => rfl⟩

theorem NDA.Eqv.symm {β : Type} {a b : NDA β} (h : a ≈ₐ b) : b ≈ₐ a :=
  ⟨h.1.symm, fun idx hi => (h.2 idx (by rw [h.1]; exact hi)).symm⟩

theorem NDA.Eqv.trans {β : Type} {a b c : NDA β} (h : a ≈ₐ b) (h' : b ≈ₐ c) : a ≈ₐ c :=
  ⟨h.1.trans h'.1, fun idx hi => (h.2 idx hi).trans (h'.2 idx (by rw [← h.1]; exact hi))⟩

theorem NDA.Eqv.map {β γ : Type} {a b : NDA β} (f : β → γ) (h : a ≈ₐ b) : a.map f ≈ₐ b.map f :=
  ⟨h.1, fun idx hi => congrArg f (h.2 idx hi)⟩

/-- A key that is neither `newaxis` nor `Ellipsis`. -/
def Key.exact (k : Key) : Prop := k.isNewaxis = false ∧ k.isEllipsis = false

def Exact (ks : List Key) : Prop := ∀ k ∈ ks, k.isNewaxis = false ∧ k.isEllipsis = false

theorem Exact.tail {k : Key} {ks : List Key} (h : Exact (k :: ks)) : Exact ks :=
  fun x hx => h x (List.mem_cons_of_mem _ hx)

theorem Exact.append {a b : List Key} (ha : Exact a) (hb : Exact b) : Exact (a ++ b) := by
  intro k hk
  rcases List.mem_append.mp hk with h | h
  · exact ha k h
  · exact hb k h

theorem exact_full : Key.isNewaxis Key.full = false ∧ Key.isEllipsis Key.full = false := ⟨rfl, rfl⟩

theorem exact_replicate_full (n : Nat) : Exact (List.replicate n Key.full) := by
  intro k hk; rw [List.eq_of_mem_replicate hk]; exact exact_full

theorem resolve_cons_iff {k : Key} {ks : List Key} {sh : List Nat} {σ : List Sel} (hk : k.isNewaxis = false) :
    resolve (k :: ks) sh = .ok σ ↔ ∃ n ns s σ', sh = n :: ns ∧ σ = s :: σ' ∧ resolve1 k n = .ok s ∧
      resolve ks ns = .ok σ' := by
  cases sh with
  | nil =>
    constructor
    · intro h; cases k <;> simp [resolve] at h; simp [Key.isNewaxis] at hk
    · rintro ⟨n, ns, s, σ', h, _⟩; cases h
  | cons n ns =>
    rw [resolve_cons_of_ne_newaxis k ks n ns hk]
    constructor
    · intro h
      match h1 : resolve1 k n, h2 : resolve ks ns with
      | .ok s, .ok σ' => rw [h1, h2] at h; cases h; exact ⟨n, ns, s, σ', rfl, rfl, h1, h2⟩
      | .error e, _ => rw [h1] at h; cases h
      | .ok _, .error e => rw [h1, h2] at h; cases h
    · rintro ⟨n', ns', s, σ', h, rfl, h1, h2⟩
      cases h
      rw [h1, h2]; rfl

theorem resolve_newaxis_iff {ks : List Key} {sh : List Nat} {σ : List Sel} :
    resolve (.newaxis :: ks) sh = .ok σ ↔ ∃ σ', σ = .new :: σ' ∧ resolve ks sh = .ok σ' := by
  have : resolve (.newaxis :: ks) sh = (do let r ← resolve ks sh; return .new :: r) := by
    cases sh <;> simp [resolve]
  rw [this]
  match h : resolve ks sh with
  | .ok σ' => exact Iff.intro (fun h => by cases h; exact ⟨σ', rfl, rfl⟩) (fun ⟨_, h1, h2⟩ => by subst h1; cases h2; rfl)
  | .error e => exact ⟨fun h => (by cases h), fun ⟨_, _, h2⟩ => by cases h2⟩

theorem resolve_nil_iff {sh : List Nat} {σ : List Sel} :
    resolve [] sh = .ok σ ↔ sh = [] ∧ σ = [] := by
  cases sh with
  | nil => exact ⟨fun h => by cases h; exact ⟨rfl, rfl⟩, fun ⟨_, h⟩ => by subst h; rfl⟩
  | cons n ns => exact ⟨fun h => by simp [resolve] at h, fun ⟨h, _⟩ => by cases h⟩

theorem resolve_length {ks : List Key} {sh : List Nat} {σ : List Sel} (he : Exact ks)
    (h : resolve ks sh = .ok σ) : ks.length = sh.length ∧ σ.length = sh.length := by
  induction ks generalizing sh σ with
  | nil => obtain ⟨rfl, rfl⟩ := resolve_nil_iff.mp h; exact ⟨rfl, rfl⟩
  | cons k ks ih =>
    obtain ⟨n, ns, s, σ', rfl, rfl, _, h2⟩ := (resolve_cons_iff (he k List.mem_cons_self).1).mp h
    have := ih he.tail h2
    simp [this.1, this.2]

/-! ### positions selected by a slice -/

theorem indices_bounds {s : PySlice} {n : Nat} {a b c : Int} (h : s.indices n = .ok (a, b, c)) :
    c ≠ 0 ∧ (c < 0 → a ≤ (n : Int) - 1 ∧ -1 ≤ b) ∧ (0 < c → 0 ≤ a ∧ b ≤ n) := by
  unfold PySlice.indices at h
  simp only at h
  split at h
  · cases h
  · rename_i hstep
    cases h
    have hb : ∀ x : Int, -1 ≤ clampIdx x (-1) ((n : Int) - 1) n ∧
        clampIdx x (-1) ((n : Int) - 1) n ≤ (n : Int) - 1 := by
      intro x; unfold clampIdx; simp only; split_ifs <;> omega
    have hb' : ∀ x : Int, 0 ≤ clampIdx x 0 (n : Int) n ∧ clampIdx x 0 (n : Int) n ≤ (n : Int) := by
      intro x; unfold clampIdx; simp only; split_ifs <;> omega
    refine ⟨hstep, fun hneg => ?_, fun hpos => ?_⟩
    · simp only [hneg, if_true]
      refine ⟨?_, ?_⟩
      · cases s.start with
        | none => simp
        | some x => exact (hb x).2
      · cases s.stop with
        | none => simp
        | some x => exact (hb x).1
    · have : ¬ s.step.getD 1 < 0 := by omega
      simp only [this, if_false]
      refine ⟨?_, ?_⟩
      · cases s.start with
        | none => simp
        | some x => exact (hb' x).1
      · cases s.stop with
        | none => simp
        | some x => exact (hb' x).2

theorem pyRange_mem {a b c i : Int} (hc : c ≠ 0) (h : i ∈ pyRange a b c) :
    (0 < c → a ≤ i ∧ i < b) ∧ (c < 0 → b < i ∧ i ≤ a) := by
  obtain ⟨k, hk, rfl⟩ := List.mem_map.mp h
  rw [List.mem_range] at hk
  unfold rangeLen at hk
  refine ⟨fun hpos => ?_, fun hneg => ?_⟩
  · rw [if_pos hpos] at hk
    have hk' : (k : Int) < (b - a + c - 1) / c := by omega
    have h3 : ((k : Int) + 1) * c ≤ b - a + c - 1 :=
      le_trans (Int.mul_le_mul_of_nonneg_right (by omega) (by omega)) (Int.ediv_mul_le _ (by omega))
    have h4 : ((k : Int) + 1) * c = (k : Int) * c + c := by ring
    have h6 : 0 ≤ (k : Int) * c := Int.mul_nonneg (by omega) (by omega)
    omega
  · rw [if_neg (by omega)] at hk
    have hk' : (k : Int) < (a - b + -c - 1) / -c := by omega
    have h3 : ((k : Int) + 1) * -c ≤ a - b + -c - 1 :=
      le_trans (Int.mul_le_mul_of_nonneg_right (by omega) (by omega)) (Int.ediv_mul_le _ (by omega))
    have h4 : ((k : Int) + 1) * -c = (k : Int) * -c + -c := by ring
    have h5 : (k : Int) * -c = -((k : Int) * c) := by ring
    have h6 : 0 ≤ (k : Int) * -c := Int.mul_nonneg (by omega) (by omega)
    omega

theorem range_ok_iff {s : PySlice} {n : Nat} {r : List Int} : s.range n = .ok r ↔
    ∃ a b c, s.indices n = .ok (a, b, c) ∧ r = pyRange a b c := by
  unfold PySlice.range
  match hi : s.indices n with
  | .error e => exact ⟨fun h => (by cases h), fun ⟨_, _, _, h, _⟩ => by cases h⟩
  | .ok (a, b, c) => exact ⟨fun h => by cases h; exact ⟨a, b, c, rfl, rfl⟩, fun ⟨_, _, _, h, h'⟩ => by
      cases h; subst h'; rfl⟩

theorem range_mem {s : PySlice} {n : Nat} {r : List Int} (h : s.range n = .ok r) :
    ∀ i ∈ r, 0 ≤ i ∧ i < n := by
  obtain ⟨a, b, c, hi, rfl⟩ := range_ok_iff.mp h
  have := indices_bounds hi
  intro i him
  have := pyRange_mem this.1 him
  omega

theorem normIdx_lt {i : Int} {n : Nat} (h : inRange i n = true) : normIdx i n < n := by
  simp only [inRange, Bool.and_eq_true, decide_eq_true_eq] at h
  unfold normIdx; split <;> omega

theorem normIdx_nonneg {i : Int} {n : Nat} (h : 0 ≤ i) : normIdx i n = i.toNat := by
  unfold normIdx; rw [if_neg (by omega)]

theorem inRange_of_bounds {i : Int} {n : Nat} (h : 0 ≤ i) (h' : i < n) : inRange i n = true := by
  simp [inRange]; omega

theorem truePositions_lt (l : List Bool) : ∀ i ∈ truePositions l, i < l.length := by
  intro i hi
  simp only [truePositions, List.mem_filter, List.mem_range] at hi
  exact hi.1

/-- What one key selects lies within the axis. -/
def Sel.ok (n : Nat) : Sel → Prop
  | .at i => i < n
  | .pick l => ∀ i ∈ l, i < n
  | .new => False

theorem resolve1_ok {k : Key} {n : Nat} {s : Sel} (hk : k.isNewaxis = false) (h : resolve1 k n = .ok s) :
    s.ok n := by
  cases k with
  | int i =>
    simp only [resolve1] at h
    split at h
    · rename_i hr; cases h; exact normIdx_lt hr
    · cases h
  | slice sl =>
    simp only [resolve1, bind, Except.bind] at h
    split at h
    · cases h
    · rename_i r hr
      cases h
      intro i hi
      obtain ⟨j, hj, rfl⟩ := List.mem_map.mp hi
      have := range_mem hr j hj
      omega
  | tuple l | list l | iarr l =>
    simp only [resolve1] at h
    split at h
    · rename_i hr; cases h
      intro i hi
      obtain ⟨j, hj, rfl⟩ := List.mem_map.mp hi
      exact normIdx_lt (List.all_eq_true.mp hr j hj)
    · cases h
  | barr l =>
    simp only [resolve1] at h
    split at h
    · rename_i hr; cases h
      intro i hi
      have := truePositions_lt l i hi
      omega
    · cases h
  | newaxis => simp [Key.isNewaxis] at hk
  | ellipsis => simp [resolve1] at h
  | bad => simp [resolve1] at h

theorem InB.length {s i : List Nat} (h : InB s i) : i.length = s.length := by
  induction s generalizing i with
  | nil => cases i with
    | nil => rfl
    | cons x i => exact h.elim
  | cons n s ih => cases i with
    | nil => exact h.elim
    | cons x i => simp [ih h.2]

theorem getD_mem {β : Type} (l : List β) (i : Nat) (d : β) (h : i < l.length) : l.getD i d ∈ l := by
  rw [List.getD_eq_getElem?_getD, List.getElem?_eq_getElem h]
  exact List.getElem_mem h

/-- The source index of a selected element is a valid index of the source. -/
theorem selSrc_inB {ks : List Key} {sh : List Nat} {σ : List Sel} (h : resolve ks sh = .ok σ) :
    ∀ idx, InB (selShape σ) idx → InB sh (selSrc σ idx) := by
  induction ks generalizing sh σ with
  | nil => obtain ⟨rfl, rfl⟩ := resolve_nil_iff.mp h; intro idx _; trivial
  | cons k ks ih =>
    by_cases hk : k = .newaxis
    · subst hk
      obtain ⟨σ', rfl, h'⟩ := resolve_newaxis_iff.mp h
      intro idx hi
      match idx, hi with
      | j :: idx, hi => exact ih h' idx hi.2
    · have hk' : k.isNewaxis = false := by cases k <;> simp_all [Key.isNewaxis]
      obtain ⟨n, ns, s, σ', rfl, rfl, h1, h2⟩ := (resolve_cons_iff hk').mp h
      have hs := resolve1_ok hk' h1
      intro idx hi
      cases s with
      | «at» i => exact ⟨hs, ih h2 idx hi⟩
      | pick l =>
        match idx, hi with
        | j :: idx, hi => exact ⟨hs _ (getD_mem l j 0 hi.1), ih h2 idx hi.2⟩
      | new => exact hs.elim

theorem npIndex_ok_iff {β : Type} {a r : NDA β} {ks : List Key} : npIndex a ks = .ok r ↔
    ∃ fk σ, expandKeys ks a.shape.length = .ok fk ∧ resolve fk a.shape = .ok σ ∧ r = a.ortho σ := by
  unfold npIndex
  match h1 : expandKeys ks a.shape.length with
  | .error e => exact ⟨fun h => (by cases h), fun ⟨_, _, h, _⟩ => by cases h⟩
  | .ok fk =>
    simp only [bind, Except.bind, pure, Except.pure]
    match h2 : resolve fk a.shape with
    | .error e =>
      constructor
      · intro h; cases h
      · rintro ⟨_, _, h, h', _⟩; cases h; rw [h2] at h'; cases h'
    | .ok σ =>
      constructor
      · intro h; cases h; exact ⟨fk, σ, rfl, h2, rfl⟩
      · rintro ⟨fk', σ', h, h', rfl⟩; cases h; rw [h2] at h'; cases h'; rfl

theorem ortho_congr {β : Type} {a b : NDA β} {ks : List Key} {σ : List Sel} (hab : a ≈ₐ b)
    (h : resolve ks a.shape = .ok σ) : a.ortho σ ≈ₐ b.ortho σ :=
  ⟨rfl, fun idx hi => hab.2 _ (selSrc_inB h idx hi)⟩

theorem npIndex_congr {β : Type} {a b r : NDA β} {ks : List Key} (hab : a ≈ₐ b) (h : npIndex a ks = .ok r) :
    ∃ r', npIndex b ks = .ok r' ∧ r ≈ₐ r' := by
  obtain ⟨fk, σ, h1, h2, rfl⟩ := npIndex_ok_iff.mp h
  refine ⟨b.ortho σ, npIndex_ok_iff.mpr ⟨fk, σ, ?_, ?_, rfl⟩, ortho_congr hab h2⟩
  · rw [← hab.1]; exact h1
  · rw [← hab.1]; exact h2

/-- Expanded keys contain no `Ellipsis` and one consuming key per dimension. -/
theorem expandKeys_spec {ks fk : List Key} {n : Nat} (h : expandKeys ks n = .ok fk) :
    (∀ k ∈ fk, k.isEllipsis = false) ∧ nConsuming fk = n := by
  have hE := expandKeys_ok_ellipsis ks fk n h
  rcases ellipsis_cases ks hE with h1 | ⟨pre, post, rfl, h1, h2⟩
  · rw [expandKeys_noEllipsis ks n h1] at h
    split at h
    · rename_i hle
      cases h
      refine ⟨?_, ?_⟩
      · intro k hk
        rcases List.mem_append.mp hk with hk | hk
        · simpa using List.any_eq_false.mp h1 k hk
        · rw [List.eq_of_mem_replicate hk]; rfl
      · rw [nConsuming_append, nConsuming_replicate]; omega
    · cases h
  · rw [expandKeys_oneEllipsis pre post n h1 h2] at h
    split at h
    · rename_i hle
      cases h
      refine ⟨?_, ?_⟩
      · intro k hk
        rcases List.mem_append.mp hk with hk | hk
        · rcases List.mem_append.mp hk with hk | hk
          · simpa using List.any_eq_false.mp h1 k hk
          · rw [List.eq_of_mem_replicate hk]; rfl
        · simpa using List.any_eq_false.mp h2 k hk
      · rw [nConsuming_append, nConsuming_append, nConsuming_replicate]; omega
    · cases h

end Biggus

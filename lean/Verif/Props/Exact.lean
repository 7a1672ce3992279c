import Verif.Props.Adapters
import Verif.Proofs.Compose
import Verif.Props.Containers3
/-
Exact statements of properties that the code violates for some keys: what it returns for every key list.
-/
namespace Biggus

variable {α V : Type}

/-! ### Specification -/

namespace Spec

/-- An integer and/or a sequence on both sides of a slice. -/
def Separated (keys : List Key) : Prop :=
  ∃ i j k : Nat, i < j ∧ j < k ∧ (keys.getD i Key.full).isAdv = true ∧
    (∃ s, keys[j]? = some (.slice s)) ∧ (keys.getD k Key.full).isAdv = true

/-- The number of slices before the first sequence: the position of its dimension in the result. -/
def slicesBefore : List Key → Nat
  | [] => 0
  | .slice _ :: ks => slicesBefore ks + 1
  | .int _ :: ks => slicesBefore ks
  | _ :: _ => 0

/-- `x` with its axis `p` moved to the front (`np.moveaxis(x, p, 0)`). -/
def moveFront {β : Type} (p : Nat) (x : NDA β) : NDA β :=
  ⟨x.shape.getD p 0 :: x.shape.eraseIdx p, fun idx => x.get (idx.tail.take p ++ idx.headD 0 :: idx.tail.drop p)⟩

/-- A key biggus can measure: not a list, not a slice with step 0, not a foreign object. -/
def Measurable : Key → Prop
  | .list _ | .bad => False
  | .slice s => s.step ≠ some 0
  | _ => True

/-- The dimensions selected by one key per axis (`newaxis` apart) of `shape`, whether or not the indices are in
range. -/
def selectedDims : List Key → List Nat → List Nat
  | [], _ => []
  | .newaxis :: ks, shape => 1 :: selectedDims ks shape
  | .int _ :: ks, shape => selectedDims ks shape.tail
  | .slice s :: ks, shape => (match s.range (shape.headD 0) with | .ok l => l.length | .error _ => 0) :: selectedDims ks shape.tail
  | .tuple l :: ks, shape | .list l :: ks, shape | .iarr l :: ks, shape => l.length :: selectedDims ks shape.tail
  | .barr l :: ks, shape => (truePositions l).length :: selectedDims ks shape.tail
  | _ :: ks, shape => selectedDims ks shape.tail

end Spec

open Spec

/-! ### One index array -/

theorem lenOf_at (i : Nat) : (Sel.at i).lenOf = 1 := rfl
theorem lenOf_pick (l : List Nat) : (Sel.pick l).lenOf = l.length := rfl

theorem advItems_zero {ks : List Key} : ∀ {sh : List Nat} {σ : List Sel}, Exact ks →
    (ks.filter Key.isArr).length = 0 → resolve ks sh = .ok σ →
    bcastLen ((((ks.map Key.isAdv).zip σ).filter (·.1)).map (·.2.lenOf)) = some 1 ∧
    basicDims ((ks.map Key.isAdv).zip σ) = selShape σ ∧
    ∀ b idx, mixedSrc ((ks.map Key.isAdv).zip σ) b idx = selSrc σ idx := by
  induction ks with
  | nil =>
    intro sh σ _ _ h
    obtain ⟨_, rfl⟩ := resolve_nil_iff.mp h
    exact ⟨rfl, rfl, fun _ _ => rfl⟩
  | cons k ks ih =>
    intro sh σ he ha h
    obtain ⟨n, ns, s, σ', rfl, rfl, h1, h2⟩ := (resolve_cons_iff (he k List.mem_cons_self).1).mp h
    have harr : k.isArr = false := by
      cases hk : k.isArr
      · rfl
      · rw [List.filter_cons, if_pos hk] at ha; simp at ha
    rw [List.filter_cons, harr] at ha
    obtain ⟨a1, a2, a3⟩ := ih he.tail (by simpa using ha) h2
    cases k with
    | int i =>
      simp only [resolve1] at h1
      split at h1
      · cases h1
        refine ⟨?_, ?_, fun b idx => ?_⟩
        · simp [Key.isAdv, bcastLen, a1, lenOf_at]
        · simpa [Key.isAdv, basicDims, selShape] using a2
        · simp [Key.isAdv, mixedSrc, selSrc, advVal, a3]
      · cases h1
    | slice s' =>
      have hs : s.isPick = true := by
        rw [resolve1_scalar (he _ List.mem_cons_self).1 h1]; rfl
      cases s with
      | pick l =>
        refine ⟨?_, ?_, fun b idx => ?_⟩
        · simpa [Key.isAdv, Key.isArr] using a1
        · simpa [Key.isAdv, Key.isArr, basicDims, selShape, Sel.lenOf] using a2
        · cases idx with
          | nil => simp [Key.isAdv, Key.isArr, mixedSrc, selSrc]
          | cons j idx => simp [Key.isAdv, Key.isArr, mixedSrc, selSrc, a3]
      | «at» v => cases hs
      | new => cases hs
    | tuple l | list l | iarr l | barr l => cases harr
    | newaxis => exact absurd (he _ List.mem_cons_self).1 (by decide)
    | ellipsis | bad => simp [resolve1] at h1

theorem advItems_one {ks : List Key} : ∀ {sh : List Nat} {σ : List Sel}, Exact ks →
    (ks.filter Key.isArr).length = 1 → resolve ks sh = .ok σ →
    ∃ (L : Nat), bcastLen ((((ks.map Key.isAdv).zip σ).filter (·.1)).map (·.2.lenOf)) = some L ∧
    slicesBefore ks ≤ (basicDims ((ks.map Key.isAdv).zip σ)).length ∧
    selShape σ = (basicDims ((ks.map Key.isAdv).zip σ)).take (slicesBefore ks) ++
      L :: (basicDims ((ks.map Key.isAdv).zip σ)).drop (slicesBefore ks) ∧
    ∀ b idx, b < L → slicesBefore ks ≤ idx.length →
      mixedSrc ((ks.map Key.isAdv).zip σ) b idx =
        selSrc σ (idx.take (slicesBefore ks) ++ b :: idx.drop (slicesBefore ks)) := by
  induction ks with
  | nil => intro sh σ _ h; simp at h
  | cons k ks ih =>
    intro sh σ he ha h
    obtain ⟨n, ns, s, σ', rfl, rfl, h1, h2⟩ := (resolve_cons_iff (he k List.mem_cons_self).1).mp h
    by_cases harr : k.isArr = true
    · have hs : ∃ l, s = .pick l := by
        cases k with
        | tuple l | list l | iarr l | barr l =>
          simp only [resolve1] at h1
          split at h1
          · cases h1; exact ⟨_, rfl⟩
          · cases h1
        | _ => simp [Key.isArr] at harr
      obtain ⟨l, rfl⟩ := hs
      rw [List.filter_cons, if_pos harr] at ha
      obtain ⟨a1, a2, a3⟩ := advItems_zero he.tail (by simpa using ha) h2
      have hsb : slicesBefore (k :: ks) = 0 := by cases k <;> simp_all [Key.isArr, slicesBefore]
      have hadv : k.isAdv = true := by cases k <;> simp_all [Key.isArr, Key.isAdv]
      rw [hsb]
      refine ⟨l.length, ?_, Nat.zero_le _, ?_, fun b idx hb _ => ?_⟩
      · simp only [List.map_cons, List.zip_cons_cons, hadv, List.filter_cons, if_true, bcastLen, a1, lenOf_pick]
        by_cases hl : l.length = 1 <;> simp [hl]
      · simp [hadv, basicDims, selShape, a2]
      · simp only [List.map_cons, List.zip_cons_cons, hadv, mixedSrc, List.take_zero, List.drop_zero, List.nil_append, selSrc, a3, advVal]
        congr 1
        split
        · rename_i hl; rw [show b = 0 by omega]
        · rfl
    · rw [List.filter_cons, if_neg harr] at ha
      obtain ⟨L, a1, a2, a3, a4⟩ := ih he.tail ha h2
      cases k with
      | int i =>
        simp only [resolve1] at h1
        split at h1
        · cases h1
          refine ⟨L, ?_, ?_, ?_, fun b idx hb hl => ?_⟩
          · simp only [List.map_cons, List.zip_cons_cons, Key.isAdv, List.filter_cons, if_true, bcastLen, a1, lenOf_at]
            split
            · rfl
            · simp
          · simpa [Key.isAdv, basicDims, slicesBefore] using a2
          · simpa [Key.isAdv, basicDims, selShape, slicesBefore] using a3
          · simp only [slicesBefore] at hl ⊢
            simp only [List.map_cons, List.zip_cons_cons, Key.isAdv, mixedSrc, selSrc, advVal, a4 b idx hb hl]
        · cases h1
      | slice s' =>
        have hs : s.isPick = true := by
          rw [resolve1_scalar (he _ List.mem_cons_self).1 h1]; rfl
        cases s with
        | pick l =>
          refine ⟨L, ?_, ?_, ?_, fun b idx hb hl => ?_⟩
          · simpa [Key.isAdv, Key.isArr] using a1
          · simpa [Key.isAdv, Key.isArr, basicDims, slicesBefore] using a2
          · simpa [Key.isAdv, Key.isArr, basicDims, selShape, slicesBefore, Sel.lenOf] using a3
          · simp only [slicesBefore] at hl ⊢
            cases idx with
            | nil => simp at hl
            | cons j idx =>
              have := a4 b idx hb (by simpa using hl)
              simp [Key.isAdv, Key.isArr, mixedSrc, selSrc, this]
        | «at» v => cases hs
        | new => cases hs
      | tuple l | list l | iarr l | barr l => exact absurd rfl harr
      | newaxis => exact absurd (he _ List.mem_cons_self).1 (by decide)
      | ellipsis | bad => simp [resolve1] at h1

/-- NumPy's own indexing with one index array and separated scalars moves the dimension of the array to the front. -/
theorem npFancy_apart {β : Type} (a : NDA β) {ks : List Key} {σ : List Sel} (he : Exact ks)
    (h : resolve ks a.shape = .ok σ) (h1 : (ks.filter Key.isArr).length = 1) (hc : contiguousAdv (ks.map Key.isAdv) = false) :
    ∃ r, npFancy a ks = .ok r ∧ r ≈ₐ moveFront (slicesBefore ks) (a.ortho σ) := by
  have hl := resolve_length he h
  unfold npFancy
  rw [if_neg (by omega), show a.shape.length - ks.length = 0 by omega]
  simp only [List.replicate_zero, List.append_nil, h, bind, Except.bind]
  have hany : ks.any Key.isArr = true := by
    cases hf : ks.filter Key.isArr with
    | nil => rw [hf] at h1; simp at h1
    | cons k l =>
      have : k ∈ ks.filter Key.isArr := by rw [hf]; exact List.mem_cons_self
      exact List.any_eq_true.mpr ⟨k, (List.mem_filter.mp this).1, (List.mem_filter.mp this).2⟩
  obtain ⟨L, a1, a2, a3, a4⟩ := advItems_one he h1 h
  rw [if_pos hany]
  rw [a1]
  simp only [hc]
  have htl : ((basicDims ((ks.map Key.isAdv).zip σ)).take (slicesBefore ks)).length = slicesBefore ks := by
    rw [List.length_take]; omega
  have hd : (moveFront (slicesBefore ks) (a.ortho σ)).shape = L :: basicDims ((ks.map Key.isAdv).zip σ) := by
    simp only [moveFront, NDA.ortho]
    rw [a3]
    congr 1
    · rw [List.getD_eq_getElem?_getD, List.getElem?_append_right (by omega)]; simp [htl]
    · rw [List.eraseIdx_append_of_length_le (by omega), htl]
      simp
  refine ⟨_, rfl, ?_, fun idx hi => ?_⟩
  · rw [hd]; simp
  · cases idx with
    | nil => simp at hi; exact hi.elim
    | cons b rest =>
      have hi' : b < L ∧ InB (basicDims ((ks.map Key.isAdv).zip σ)) rest := by simpa [InB] using hi
      have := a4 b rest hi'.1 (by rw [hi'.2.length]; exact a2)
      simp [moveFront, NDA.ortho, this]

theorem contiguousAdv_false_iff (bs : List Bool) : contiguousAdv bs = false ↔
    ∃ i j k : Nat, i < j ∧ j < k ∧ bs[i]? = some true ∧ bs[j]? = some false ∧ bs[k]? = some true := by
  have h1 : ∀ l : List Bool, (l.dropWhile (·)).any (·) = true ↔ ∃ j k : Nat, j < k ∧ l[j]? = some false ∧ l[k]? = some true := by
    intro l
    induction l with
    | nil => simp
    | cons b l ih =>
      cases b
      · simp only [List.dropWhile_cons, Bool.false_eq_true, if_false, List.any_cons, Bool.false_or]
        constructor
        · intro h
          obtain ⟨x, hx, rfl⟩ := List.any_eq_true.mp h
          obtain ⟨k, hk⟩ := List.mem_iff_getElem?.mp hx
          exact ⟨0, k + 1, by omega, rfl, by simpa using hk⟩
        · rintro ⟨j, k, hjk, _, hk⟩
          obtain ⟨k, rfl⟩ : ∃ k', k = k' + 1 := ⟨k - 1, by omega⟩
          exact List.any_eq_true.mpr ⟨true, List.mem_iff_getElem?.mpr ⟨k, by simpa using hk⟩, rfl⟩
      · simp only [List.dropWhile_cons, if_true]
        rw [ih]
        constructor
        · rintro ⟨j, k, a, b, c⟩
          exact ⟨j + 1, k + 1, by omega, by simpa using b, by simpa using c⟩
        · rintro ⟨j, k, a, b, c⟩
          cases j with
          | zero => simp at b
          | succ j =>
            obtain ⟨k, rfl⟩ : ∃ k', k = k' + 1 := ⟨k - 1, by omega⟩
            exact ⟨j, k, by omega, by simpa using b, by simpa using c⟩
  have h2 : ∀ l : List Bool, ((l.dropWhile (!·)).dropWhile (·)).any (·) = true ↔
      ∃ i j k : Nat, i < j ∧ j < k ∧ l[i]? = some true ∧ l[j]? = some false ∧ l[k]? = some true := by
    intro l
    induction l with
    | nil => simp
    | cons b l ih =>
      cases b
      · simp only [List.dropWhile_cons, Bool.not_false, if_true]
        rw [ih]
        constructor
        · rintro ⟨i, j, k, a, b, c, d, e⟩
          exact ⟨i + 1, j + 1, k + 1, by omega, by omega, by simpa using c, by simpa using d, by simpa using e⟩
        · rintro ⟨i, j, k, a, b, c, d, e⟩
          cases i with
          | zero => simp at c
          | succ i =>
            obtain ⟨j, rfl⟩ : ∃ k', j = k' + 1 := ⟨j - 1, by omega⟩
            obtain ⟨k, rfl⟩ : ∃ k', k = k' + 1 := ⟨k - 1, by omega⟩
            exact ⟨i, j, k, by omega, by omega, by simpa using c, by simpa using d, by simpa using e⟩
      · have : (true :: l).dropWhile (!·) = true :: l := by simp
        rw [this, h1]
        constructor
        · rintro ⟨j, k, a, b, c⟩
          cases j with
          | zero => simp at b
          | succ j => exact ⟨0, j + 1, k, by omega, a, rfl, b, c⟩
        · rintro ⟨i, j, k, _, a, _, b, c⟩
          exact ⟨j, k, a, b, c⟩
  unfold contiguousAdv
  rw [← h2]
  simp

/-- Among storable keys: exactly the separated ones are not adjacent. -/
theorem separated_iff {keys : List Key} (hk : ∀ k ∈ keys, k.storable = true) :
    Separated keys ↔ contiguousAdv (keys.map Key.isAdv) = false := by
  rw [contiguousAdv_false_iff]
  have hadv : ∀ i, (keys.getD i Key.full).isAdv = true ↔ (keys.map Key.isAdv)[i]? = some true := by
    intro i
    rw [List.getD_eq_getElem?_getD, List.getElem?_map]
    cases keys[i]? with
    | none => simp [Key.full, Key.isAdv, Key.isArr]
    | some k => simp
  have hslice : ∀ j : Nat, (∃ s, keys[j]? = some (Key.slice s)) ↔ (keys.map Key.isAdv)[j]? = some false := by
    intro j
    rw [List.getElem?_map]
    cases hj : keys[j]? with
    | none => simp
    | some k =>
      have := hk k (List.mem_of_getElem? hj)
      cases k <;> simp_all [Key.storable, Key.isAdv, Key.isArr]
  unfold Separated
  simp only [hadv, hslice]

theorem slicesBefore_append_full (ks : List Key) (r : Nat) (hany : ks.any Key.isArr = true) :
    slicesBefore (ks ++ List.replicate r Key.full) = slicesBefore ks := by
  induction ks with
  | nil => simp at hany
  | cons k ks ih =>
    cases k with
    | int i => simpa [slicesBefore] using ih (by simpa [Key.isArr] using hany)
    | slice s => simpa [slicesBefore] using ih (by simpa [Key.isArr] using hany)
    | _ => rfl

theorem tuples_le_arrs (keys : List Key) : (keys.filter Key.isTuple).length ≤ (keys.filter Key.isArr).length := by
  have : keys.filter Key.isTuple = (keys.filter Key.isArr).filter Key.isTuple := by
    rw [List.filter_filter]
    apply List.filter_congr
    intro k _; cases k <;> rfl
  rw [this]; exact List.length_filter_le _ _

/-- C04 exactly.  An adapter of a NumPy array with integer, slice and tuple keys (or with at most one mask or tuple)
evaluates to the orthogonal selection, except when there is exactly one tuple (or mask) and an integer stands on the other side of a
slice: then the dimension of the tuple comes first in the data, though not in the announced shape. -/
theorem C04_exact [Inhabited α] [Inhabited V] (m : Mode α V) (limit : Nat) (c : Concrete α) (keys : List Key)
    (r : NDA (Option α)) (hk : ∀ k ∈ keys, k.storable = true)
    (hm : (∀ k ∈ keys, ∀ l, k ≠ .barr l) ∨ (keys.filter Key.isArr).length ≤ 1) (hr : npIndex c.data keys = .ok r)
    (hz : r.shape ≠ [] ∨ m.sourceSafe c) :
    (Arr.adapter false c keys).shape = .ok r.shape ∧
    (¬ ((keys.filter Key.isArr).length = 1 ∧ Separated keys) →
      (Arr.adapter false c keys).Returns m limit (r.map (m.leaf c.fill))) ∧
    ((keys.filter Key.isArr).length = 1 ∧ Separated keys →
      (Arr.adapter false c keys).Returns m limit ((moveFront (slicesBefore keys) r).map (m.leaf c.fill))) := by
  have hwf : (Arr.adapter false c keys).WF := ⟨hk, r, hr⟩
  have hden : (Arr.adapter false c keys).den m = r.map (m.leaf c.fill) := den_adapter m _ c keys r hr
  refine ⟨by rw [hwf.shape_eq m, hden]; rfl, fun hs => ?_, fun hs => ?_⟩
  · refine (C04_numpy_adapter_reads_orthogonally_partial m limit c keys r hk ?_ hr hz).2
    have hle := tuples_le_arrs keys
    unfold takeSafe
    split
    · rename_i hgt
      have hm : ∀ k ∈ keys, ∀ l, k ≠ .barr l := by
        rcases hm with hm | hm
        · exact hm
        · omega
      left
      rw [List.any_eq_false]
      intro k' hk'
      unfold cutKeys at hk'
      obtain ⟨k, hk1, rfl⟩ := List.mem_map.mp hk'
      have h1 := hk k hk1
      have h2 := hm k hk1
      clear hk hm hs hr
      cases k with
      | barr l => exact absurd rfl (h2 l)
      | int | slice | tuple => simp [Key.isTuple, Key.isArr, Key.full]
      | list | iarr | newaxis | ellipsis | bad => cases h1
    · rename_i hgt
      by_cases h0 : (keys.filter Key.isArr).length = 0
      · left
        rw [List.any_eq_false]
        intro k hk1 hk2
        have : k ∈ keys.filter Key.isArr := List.mem_filter.mpr ⟨hk1, hk2⟩
        rw [List.length_eq_zero_iff.mp h0] at this; cases this
      · have h1 : (keys.filter Key.isArr).length = 1 := by
          rcases hm with hm | hm
          · have : keys.filter Key.isArr = keys.filter Key.isTuple := by
              apply List.filter_congr
              intro k hk1
              have h1 := hk k hk1
              have h2 := hm k hk1
              cases k with
              | barr l => exact absurd rfl (h2 l)
              | int | slice | tuple => rfl
              | list | iarr | newaxis | ellipsis | bad => cases h1
            rw [this] at h0 ⊢; omega
          · omega
        refine Or.inr ⟨h1, ?_⟩
        have : ¬ Separated keys := fun h => hs ⟨h1, h⟩
        rw [separated_iff hk] at this
        simpa using this
  · obtain ⟨h1, h2⟩ := hs
    have he := storable_Exact hk
    refine ⟨0, fun n _ => ?_⟩
    obtain ⟨eng, heng⟩ := eval_with m limit n
    rw [heng]
    have hr0 := hr
    obtain ⟨fk, σ, e1, e2, rfl⟩ := npIndex_ok_iff.mp hr
    have hne : keys.any Key.isEllipsis = false := by
      simp only [List.any_eq_false]; intro k hk; simp [(he k hk).2]
    rw [expandKeys_noEllipsis keys _ hne, nConsuming_exact he] at e1
    split at e1
    · rename_i hle
      injection e1 with e1
      subst e1
      have hany : keys.any Key.isArr = true := by
        cases hf : keys.filter Key.isArr with
        | nil => rw [hf] at h1; simp at h1
        | cons k l =>
          have : k ∈ keys.filter Key.isArr := by rw [hf]; exact List.mem_cons_self
          exact List.any_eq_true.mpr ⟨k, (List.mem_filter.mp this).1, (List.mem_filter.mp this).2⟩
      have hf : (List.replicate (c.data.shape.length - keys.length) Key.full).filter Key.isArr = [] := by
        rw [List.filter_eq_nil_iff]; intro k hk
        rw [List.eq_of_mem_replicate hk]; decide
      obtain ⟨R, hR1, hR2⟩ := npFancy_apart c.data (he.append (exact_replicate_full _)) e2
        (by rw [List.filter_append, hf, List.append_nil]; exact h1)
        (by rw [List.map_append, List.map_replicate, show Key.full.isAdv = false from rfl, contiguousAdv_append_false]
            exact (separated_iff hk).mp h2)
      rw [slicesBefore_append_full _ _ hany] at hR2
      rw [← npFancy_pad c.data (by omega)] at hR1
      have hap : applyKeys false c.data keys = .ok R := by
        unfold applyKeys numpyApplyKeys
        have : ¬ (keys.filter Key.isTuple).length > 1 := by
          have hle := tuples_le_arrs keys
          omega
        simp [this, hR1]
      have hRs : R.shape ≠ [] := by rw [hR2.1]; simp [moveFront]
      refine ⟨R.map (m.leaf c.fill), ?_, ?_⟩
      · simp [Arr.evalWith, hap, bind, Except.bind, hRs, pure, Except.pure]
      · exact hR2.map _
    · simp at e1

example : (∀ k ∈ [Key.int 0, .slice ⟨none, none, none⟩, .tuple [1, 2]], k.storable = true) ∧
    ([Key.int 0, .slice ⟨none, none, none⟩, .tuple [1, 2]].filter Key.isArr).length = 1 ∧
    Separated [Key.int 0, .slice ⟨none, none, none⟩, .tuple [1, 2]] ∧
    Res.view ((npIndex exSource.data [.int 0, .slice ⟨none, none, none⟩, .tuple [1, 2]]).map (moveFront 1)) =
      .ok ([2, 3], [some 1, some 5, some 9, some 2, some 6, some 10]) :=
  ⟨by decide, by decide, ⟨0, 1, 2, by decide, by decide, rfl, ⟨_, rfl⟩, rfl⟩, by decide +kernel⟩

/-! ### C07 exactly -/

theorem slicedShapeLoop_exact (ks : List Key) : ∀ (sh : List Nat), nConsuming ks = sh.length → (∀ k ∈ ks, k ≠ .ellipsis) →
    ((∀ k ∈ ks, Measurable k) → slicedShapeLoop ks sh = .ok (selectedDims ks sh)) ∧
    ((¬ ∀ k ∈ ks, Measurable k) → slicedShapeLoop ks sh = .error .value) := by
  induction ks with
  | nil => intro sh _ _; exact ⟨fun _ => rfl, fun h => absurd (fun k hk => by cases hk) h⟩
  | cons k ks ih =>
    intro sh hn he
    rw [nConsuming_cons] at hn
    have he' : ∀ k ∈ ks, k ≠ .ellipsis := fun x hx => he x (List.mem_cons_of_mem _ hx)
    have hall : (∀ x ∈ k :: ks, Measurable x) ↔ Measurable k ∧ ∀ x ∈ ks, Measurable x := List.forall_mem_cons
    rw [hall]
    cases k with
    | newaxis =>
      obtain ⟨i1, i2⟩ := ih sh (by simpa [Key.isNewaxis] using hn) he'
      simp only [slicedShapeLoop, selectedDims, Measurable, true_and]
      exact ⟨fun h => by rw [i1 h]; rfl, fun h => by rw [i2 h]; rfl⟩
    | ellipsis => exact absurd rfl (he _ List.mem_cons_self)
    | list l | bad => exact ⟨fun h => h.1.elim, fun _ => rfl⟩
    | int i =>
      cases sh with
      | nil => simp [Key.isNewaxis] at hn
      | cons n ns =>
        obtain ⟨i1, i2⟩ := ih ns (by simpa [Key.isNewaxis, Nat.add_comm] using hn) he'
        simp only [slicedShapeLoop, selectedDims, Measurable, true_and, List.tail_cons]
        exact ⟨i1, i2⟩
    | tuple l | iarr l =>
      cases sh with
      | nil => simp [Key.isNewaxis] at hn
      | cons n ns =>
        obtain ⟨i1, i2⟩ := ih ns (by simpa [Key.isNewaxis, Nat.add_comm] using hn) he'
        simp only [slicedShapeLoop, selectedDims, Measurable, true_and, List.tail_cons]
        exact ⟨fun h => by rw [i1 h]; rfl, fun h => by rw [i2 h]; rfl⟩
    | barr l =>
      cases sh with
      | nil => simp [Key.isNewaxis] at hn
      | cons n ns =>
        obtain ⟨i1, i2⟩ := ih ns (by simpa [Key.isNewaxis, Nat.add_comm] using hn) he'
        simp only [slicedShapeLoop, selectedDims, Measurable, true_and, List.tail_cons, truePositions_length]
        exact ⟨fun h => by rw [i1 h]; rfl, fun h => by rw [i2 h]; rfl⟩
    | slice s =>
      cases sh with
      | nil => simp [Key.isNewaxis] at hn
      | cons n ns =>
        obtain ⟨i1, i2⟩ := ih ns (by simpa [Key.isNewaxis, Nat.add_comm] using hn) he'
        simp only [slicedShapeLoop, selectedDims, Measurable, List.tail_cons, List.headD_cons]
        by_cases h0 : s.step = some 0
        · have : s.range n = .error .value := by
            unfold PySlice.range PySlice.indices; rw [h0]; rfl
          rw [this]
          exact ⟨fun h => absurd h0 h.1, fun _ => rfl⟩
        · obtain ⟨l, hl⟩ : ∃ l, s.range n = .ok l := by
            unfold PySlice.range PySlice.indices
            cases hs : s.step with
            | none => exact ⟨_, rfl⟩
            | some c =>
              have : c ≠ 0 := by rintro rfl; exact h0 hs
              simp [this, bind, Except.bind, pure, Except.pure]
          rw [hl]
          refine ⟨fun h => ?_, fun h => ?_⟩
          · rw [show (Except.ok l >>= fun r => slicedShapeLoop ks ns >>= fun rest => pure (r.length :: rest) : Res (List Nat)) =
              (slicedShapeLoop ks ns >>= fun rest => pure (l.length :: rest)) from rfl, i1 h.2]; rfl
          · have : ¬ ∀ k ∈ ks, Measurable k := fun hm => h ⟨h0, hm⟩
            rw [show (Except.ok l >>= fun r => slicedShapeLoop ks ns >>= fun rest => pure (r.length :: rest) : Res (List Nat)) =
              (slicedShapeLoop ks ns >>= fun rest => pure (l.length :: rest)) from rfl, i2 this]; rfl

/-- The expansion keeps every key but the Ellipsis. -/
theorem expandKeys_keeps (ks fk : List Key) (n : Nat) (h : expandKeys ks n = .ok fk) :
    ∀ k ∈ ks, k ≠ .ellipsis → k ∈ fk := by
  have hE := expandKeys_ok_ellipsis ks fk n h
  rcases ellipsis_cases ks hE with h1 | ⟨pre, post, rfl, h1, h2⟩
  · rw [expandKeys_noEllipsis ks n h1] at h
    split at h <;> simp at h
    subst h
    intro k hk _
    simp [hk]
  · rw [expandKeys_oneEllipsis pre post n h1 h2] at h
    split at h <;> simp at h
    subst h
    intro k hk hke
    simp at hk ⊢
    tauto

/-- C07 exactly.  `ConstantArray(shape, v)[keys]`, for all keys (with at most one Ellipsis): too many keys raise `IndexError`; otherwise a list,
a slice of step 0 or a foreign object raises `ValueError`; all other keys are accepted, also those with indices out of range,
and give a constant array with the dimensions they select. -/
theorem C07_exact [Inhabited α] [Inhabited V] (m : Mode α V) (limit : Nat) (s : List Nat) (v : α) (dt : Nat) (ks : List Key)
    (he : (ks.filter Key.isEllipsis).length ≤ 1) :
    (∀ e, expandKeys ks s.length = .error e → (Arr.const s v dt).getitem ks = .error .index) ∧
    (∀ fk, expandKeys ks s.length = .ok fk → (∀ k ∈ ks, Measurable k) →
      (Arr.const s v dt).getitem ks = .ok (.const (selectedDims fk s) v dt) ∧
      (Arr.const (selectedDims fk s) v dt).Yields m limit ⟨selectedDims fk s, fun _ => m.const v⟩) ∧
    (∀ fk, expandKeys ks s.length = .ok fk → (¬ ∀ k ∈ ks, Measurable k) → (Arr.const s v dt).getitem ks = .error .value) := by
  have hfe : fullKeys ks s.length = expandKeys ks s.length := fullKeys_eq_expandKeys ks s.length he
  have hg : (Arr.const s v dt).getitem ks = (slicedShape s ks >>= fun s' => pure (.const s' v dt)) := by
    unfold Arr.getitem; rfl
  rw [hg]
  unfold slicedShape
  rw [hfe]
  refine ⟨fun e h => ?_, fun fk h hm => ?_, fun fk h hm => ?_⟩
  · rw [h]
    rw [← hfe] at h
    rw [((C01_full_keys_error_iff ks s.length e).mp h).1]; rfl
  · obtain ⟨h1, h2⟩ := C01_full_keys_one_key_per_dimension ks fk s.length (by rw [hfe, h])
    refine ⟨?_, yields_const _ v dt⟩
    rw [h]
    have hmf : ∀ k ∈ fk, Measurable k := fun k hk => by
      rcases expandKeys_mem ks fk _ h k hk with hk | rfl
      · exact hm k hk
      · simp [Measurable, Key.full, PySlice.full]
    show (slicedShapeLoop fk s >>= fun s' => pure (Arr.const s' v dt)) = _
    rw [(slicedShapeLoop_exact fk s h1 h2).1 hmf]; rfl
  · obtain ⟨h1, h2⟩ := C01_full_keys_one_key_per_dimension ks fk s.length (by rw [hfe, h])
    rw [h]
    have hmf : ¬ ∀ k ∈ fk, Measurable k := fun hf => hm fun k hk => by
      by_cases hke : k = .ellipsis
      · subst hke; trivial
      · exact hf k (expandKeys_keeps ks fk _ h k hk hke)
    show (slicedShapeLoop fk s >>= fun s' => pure (Arr.const s' v dt)) = _
    rw [(slicedShapeLoop_exact fk s h1 h2).2 hmf]; rfl

example : ((Arr.const [3, 4] (7 : ℚ) 0).getitem [.int 9, .tuple [0, 8], .newaxis]).map (fun a => a.shape) = .ok (.ok [2, 1]) ∧
    ((Arr.const [3, 4] (7 : ℚ) 0).getitem [.int 0, .slice ⟨none, none, some 0⟩]).map (fun a => a.shape) = .error .value ∧
    ((Arr.const [3] (7 : ℚ) 0).getitem [.int 0, .list [1]]).map (fun a => a.shape) = .error .index :=
  ⟨by decide +kernel, by decide +kernel, by decide +kernel⟩

/-! ### C15 exactly -/

/-- C15 exactly.  In a chain of casts only the last one takes effect: `a.astype(t1)...astype(tn)` evaluates to `a` cast to `tn`
(for `a` that is not itself the result of an `astype`). -/
theorem C15_exact [Inhabited α] [Inhabited V] (m : Mode α V) (limit : Nat) (a : Arr α) (x : NDA V) (dts : List Nat) (dt : Nat)
    (ha : ∀ b d, a ≠ .asType b d) (h : a.Yields m limit x) :
    ((dts ++ [dt]).foldl (fun b t => b.astype t) a).Yields m limit (x.map (m.cast dt)) := by
  have key : ∀ dts : List Nat, dts.foldl (fun b t => b.astype t) a = a ∨ ∃ d, dts.foldl (fun b t => b.astype t) a = .asType a d := by
    intro dts
    induction dts using List.reverseRecOn with
    | nil => exact Or.inl rfl
    | append_singleton l d ih =>
      right
      rw [List.foldl_append]
      refine ⟨d, ?_⟩
      rcases ih with ih | ⟨d', ih⟩
      · rw [ih]
        show a.astype d = _
        unfold Arr.astype
        split
        · rename_i b d; exact absurd rfl (ha b d)
        · rfl
      · rw [ih]; rfl
  rw [List.foldl_append]
  rcases key dts with h' | ⟨d, h'⟩
  · rw [h']; exact C15_astype a x dt ha h
  · rw [h']; exact yields_asType dt h

example : Res.view (([1, 2, 1] ++ [0]).foldl (fun (b : Arr ℚ) t => b.astype t) (Arr.const [2] (5 / 2) 0) |>.eval (ndMode id exCast) 100 1) =
    .ok ([2], [5 / 2, 5 / 2]) ∧ exCast 1 (5 / 2) = 2 := by
  refine ⟨by decide +kernel, by decide +kernel⟩

end Biggus

import Verif.Proofs.GrouperSpec
/-
`group_keys`: splitting the groups.
-/
namespace Biggus

theorem moveKeys_aux {dim n : Nat} {sub : List PySlice} : ∀ (rest done new : List KeyTuple),
    moveKeys dim n sub rest (done.filter (fun k => !inSub dim n sub k) ++ rest) new =
      ((done ++ rest).filter (fun k => !inSub dim n sub k), new ++ rest.filter (inSub dim n sub))
  | [], done, new => by simp [moveKeys]
  | k :: rest, done, new => by
    unfold moveKeys
    by_cases hk : inSub dim n sub k = true
    · rw [if_pos hk]
      have he : (done.filter (fun k => !inSub dim n sub k) ++ k :: rest).erase k = done.filter (fun k => !inSub dim n sub k) ++ rest := by
        rw [List.erase_append_right _ (by
          intro hmem
          have := (List.mem_filter.mp hmem).2
          simp [hk] at this)]
        rw [List.erase_cons_head]
      rw [he]
      have := moveKeys_aux (dim := dim) (n := n) (sub := sub) rest (done ++ [k]) (new ++ [k])
      rw [List.filter_append] at this
      simp only [List.filter_cons, hk, Bool.not_true, List.filter_nil] at this
      simp only [Bool.false_eq_true, if_false, List.append_nil] at this
      rw [this]
      simp [List.filter_cons, hk]
    · rw [if_neg hk]
      have hk' : inSub dim n sub k = false := by simpa using hk
      have := moveKeys_aux (dim := dim) (n := n) (sub := sub) rest (done ++ [k]) new
      rw [List.filter_append] at this
      simp only [List.filter_cons, hk', Bool.not_false, List.filter_nil] at this
      simp only [if_true, List.append_assoc, List.singleton_append] at this
      rw [this]
      simp [List.filter_cons, hk']

theorem moveKeys_eq {dim n : Nat} {sub : List PySlice} (l : List KeyTuple) :
    moveKeys dim n sub l l [] = (l.filter (fun k => !inSub dim n sub k), l.filter (inSub dim n sub)) := by
  have := moveKeys_aux (dim := dim) (n := n) (sub := sub) l [] []
  simpa using this

theorem takeSub_eq {dim n : Nat} {ι : Type} (F : ι → List KeyTuple) (S : ι → List PySlice) : ∀ (J : List ι) (pre : List (List KeyTuple)),
    takeSub dim n (List.range' pre.length J.length) (J.map S) (pre ++ J.map F) =
      (pre ++ J.map (fun x => (F x).filter (fun k => !inSub dim n (S x) k)), J.map (fun x => (F x).filter (inSub dim n (S x))))
  | [], pre => by simp [takeSub]
  | x :: J, pre => by
    rw [List.length_cons, List.range'_succ, List.map_cons, List.map_cons]
    unfold takeSub
    have hg : (pre ++ F x :: J.map F).getD pre.length [] = F x := by
      simp [List.getD_eq_getElem?_getD]
    simp only [hg, moveKeys_eq]
    have hset : (pre ++ F x :: J.map F).set pre.length ((F x).filter (fun k => !inSub dim n (S x) k)) =
        (pre ++ [(F x).filter (fun k => !inSub dim n (S x) k)]) ++ J.map F := by
      rw [List.set_append_right _ _ (le_refl _)]
      simp
    rw [hset]
    have ih := takeSub_eq (dim := dim) (n := n) F S J (pre ++ [(F x).filter (fun k => !inSub dim n (S x) k)])
    rw [List.length_append, List.length_singleton] at ih
    rw [ih]
    simp

theorem takeSub_range {dim n : Nat} {ι : Type} (F : ι → List KeyTuple) (S : ι → List PySlice) (J : List ι) :
    takeSub dim n (List.range J.length) (J.map S) (J.map F) =
      (J.map (fun x => (F x).filter (fun k => !inSub dim n (S x) k)), J.map (fun x => (F x).filter (inSub dim n (S x)))) := by
  have := takeSub_eq (dim := dim) (n := n) F S J []
  simpa [List.range_eq_range'] using this

/-- Splitting a group: the subgroups hold the keys selected by `Q`, what is left of the lists are the other keys. -/
theorem splitGroup_eq {dim n : Nat} {key : List SliceTuple} {ι : Type} {J : List ι} {F0 : ι → List KeyTuple}
    (Q : SliceTuple × List (List PySlice) → KeyTuple → Bool) :
    ∀ (gs : List (SliceTuple × List (List PySlice))) (R : KeyTuple → Bool) (d : GDict),
    (∀ y ∈ gs, ∃ S : ι → List PySlice, y.2 = J.map S ∧ ∀ x ∈ J, ∀ k ∈ F0 x, inSub dim n (S x) k = Q y k) →
    (gs.Pairwise (fun y z => ∀ x ∈ J, ∀ k ∈ F0 x, ¬ (Q y k = true ∧ Q z k = true))) →
    (∀ y ∈ gs, ∀ x ∈ J, ∀ k ∈ F0 x, Q y k = true → R k = true) →
    splitGroup dim n key (List.range J.length) gs (J.map (fun x => (F0 x).filter R)) d =
      (J.map (fun x => (F0 x).filter (fun k => R k && gs.all (fun y => !Q y k))),
        gs.foldl (fun d y => dictSet d (key.set dim y.1) (.own (J.map (fun x => (F0 x).filter (Q y))))) d)
  | [], R, d, _, _, _ => by simp [splitGroup]
  | y :: gs, R, d, hS, hpw, hR => by
    unfold splitGroup
    obtain ⟨S, hyS, hQ⟩ := hS y List.mem_cons_self
    rw [hyS, takeSub_range]
    rw [List.pairwise_cons] at hpw
    have h1 : J.map (fun x => ((F0 x).filter R).filter (fun k => !inSub dim n (S x) k)) = J.map (fun x => (F0 x).filter (fun k => R k && !Q y k)) := by
      apply List.map_congr_left
      intro x hx
      rw [List.filter_filter]
      apply List.filter_congr
      intro k hk
      rw [hQ x hx k hk, Bool.and_comm]
    have h2 : J.map (fun x => ((F0 x).filter R).filter (inSub dim n (S x))) = J.map (fun x => (F0 x).filter (Q y)) := by
      apply List.map_congr_left
      intro x hx
      rw [List.filter_filter]
      apply List.filter_congr
      intro k hk
      rw [hQ x hx k hk]
      cases hq : Q y k
      · rfl
      · rw [hR y List.mem_cons_self x hx k hk hq]; rfl
    simp only [h1, h2]
    rw [splitGroup_eq Q gs (fun k => R k && !Q y k) _ (fun z hz => hS z (List.mem_cons_of_mem _ hz)) hpw.2 (by
      intro z hz x hx k hk hq
      have hr := hR z (List.mem_cons_of_mem _ hz) x hx k hk hq
      have := hpw.1 z hz x hx k hk
      cases hy : Q y k
      · simp [hr]
      · exact absurd ⟨hy, hq⟩ this)]
    rw [List.foldl_cons]
    congr 1
    apply List.map_congr_left
    intro x _
    apply List.filter_congr
    intro k _
    simp [Bool.and_assoc]

theorem dictSet_fold {κ β γ : Type} [DecidableEq κ] (f : γ → κ) (v : γ → β) : ∀ (gs : List γ) (d : List (κ × β)),
    (d.map Prod.fst ++ gs.map f).Nodup → gs.foldl (fun d y => dictSet d (f y) (v y)) d = d ++ gs.map (fun y => (f y, v y))
  | [], d, _ => by simp
  | y :: gs, d, h => by
    rw [List.foldl_cons, dictSet_append, dictSet_fold f v gs]
    · simp
    · rw [List.map_append]
      simpa [List.append_assoc] using h
    · intro p hp he
      rw [List.nodup_append] at h
      exact h.2.2 p.1 (List.mem_map_of_mem hp) (f y) (by simp) he

theorem keysForDim_ok {dim : Nat} {vals : List (List KeyTuple)} (h : ∀ keys ∈ vals, ∀ k ∈ keys, dim < k.length) :
    keysForDim dim vals = .ok (vals.map (fun keys => keys.map (fun k => dimOf k dim))) := by
  unfold keysForDim
  apply mapM_ok
  intro keys hkeys
  apply mapM_ok
  intro k hk
  have := h keys hkeys k hk
  simp [dimOf, List.getD_eq_getElem?_getD, this]

/-- The interval of dimension `i` of a key. -/
def kiv (shape : List Nat) (key : KeyTuple) (i : Nat) : Nat × Nat := iv (shape.getD i 0) (dimOf key i)

/-- The key lies within the box. -/
def inB (shape : List Nat) (B : Nat → Nat × Nat) (key : KeyTuple) : Bool :=
  decide (∀ i, i < shape.length → (B i).1 ≤ (kiv shape key i).1 ∧ (kiv shape key i).2 ≤ (B i).2)

/-- A group after the first `d` dimensions have been dealt with. -/
structure KG (shape : List Nat) (inputs : List (List KeyTuple)) (d : Nat) (kt : List SliceTuple) (vals : List (List KeyTuple)) (B : Nat → Nat × Nat) : Prop where
  len : kt.length = shape.length
  key : ∀ i, i < shape.length → kt[i]? = some (groupTuple (shape.getD i 0) (B i).1 (B i).2)
  lt : ∀ i, i < shape.length → (B i).1 < (B i).2 ∧ (B i).2 ≤ shape.getD i 0
  cross : ∀ i, i < shape.length → ∀ keys ∈ inputs, ∀ key ∈ keys,
    (kiv shape key i).2 ≤ (B i).1 ∨ (B i).2 ≤ (kiv shape key i).1 ∨ (B i).1 ≤ (kiv shape key i).1 ∧ (kiv shape key i).2 ≤ (B i).2
  rest : ∀ i, i < shape.length → d ≤ i → B i = (0, shape.getD i 0)
  fin : ∀ i, i < shape.length → i < d → ∀ q, (B i).1 < q → q < (B i).2 → ¬ ∀ keys ∈ inputs, ∃ key ∈ keys, (kiv shape key i).2 = q
  vals : vals = inputs.map (fun keys => keys.filter (inB shape B))

section
variable {shape : List Nat} {inputs : List (List KeyTuple)}

theorem Grid.kiv {keys : List KeyTuple} (h : Grid shape keys) {key : KeyTuple} (hk : key ∈ keys) {i : Nat} (hi : i < shape.length) :
    (kiv shape key i).1 < (kiv shape key i).2 ∧ (kiv shape key i).2 ≤ shape.getD i 0 ∧
    sel (shape.getD i 0) (dimOf key i) = posl (kiv shape key i).1 (kiv shape key i).2 ∧
    normalizeSlice (dimOf key i) (shape.getD i 0) = nslice (shape.getD i 0) (kiv shape key i) :=
  proper_iv (h.proper key hk i hi)

theorem Grid.meet {keys : List KeyTuple} (h : Grid shape keys) {key key' : KeyTuple} (hk : key ∈ keys) (hk' : key' ∈ keys) {i : Nat} (hi : i < shape.length)
    {q : Nat} (h1 : (Biggus.kiv shape key i).1 ≤ q ∧ q < (Biggus.kiv shape key i).2)
    (h2 : (Biggus.kiv shape key' i).1 ≤ q ∧ q < (Biggus.kiv shape key' i).2) : Biggus.kiv shape key i = Biggus.kiv shape key' i := by
  have a := (h.kiv hk hi).2.2.1
  have b := (h.kiv hk' hi).2.2.1
  have := h.disjoint key hk key' hk' i hi q (by rw [a, mem_posl]; omega) (by rw [b, mem_posl]; omega)
  unfold Biggus.kiv iv
  rw [this]

/-- In a group, the keys of each input cover the dimensions not dealt with yet. -/
theorem KG.cover {d : Nat} {kt : List SliceTuple} {vals : List (List KeyTuple)} {B : Nat → Nat × Nat} (h : KG shape inputs d kt vals B)
    (hd : d < shape.length) {keys : List KeyTuple} (hk : keys ∈ inputs) (hG : Grid shape keys) {q : Nat} (hq : q < shape.getD d 0) :
    ∃ key ∈ keys, inB shape B key = true ∧ (kiv shape key d).1 ≤ q ∧ q < (kiv shape key d).2 := by
  obtain ⟨key, hkey, hin⟩ := hG.cover ((List.range shape.length).map (fun i => if i = d then q else (B i).1)) (by
    refine ⟨by simp, ?_⟩
    intro i hi
    have : ((List.range shape.length).map (fun i => if i = d then q else (B i).1)).getD i 0 = if i = d then q else (B i).1 := by
      simp [List.getD_eq_getElem?_getD, hi]
    rw [this]
    have := h.lt i hi
    split_ifs with hid
    · rw [hid]; exact hq
    · omega)
  have hat : ∀ i, i < shape.length → (kiv shape key i).1 ≤ (if i = d then q else (B i).1) ∧ (if i = d then q else (B i).1) < (kiv shape key i).2 := by
    intro i hi
    have := hin i hi
    have hp : ((List.range shape.length).map (fun i => if i = d then q else (B i).1)).getD i 0 = if i = d then q else (B i).1 := by
      simp [List.getD_eq_getElem?_getD, hi]
    rw [hp, (hG.kiv hkey hi).2.2.1, mem_posl] at this
    omega
  refine ⟨key, hkey, ?_, by simpa using hat d hd⟩
  unfold inB
  rw [decide_eq_true_eq]
  intro i hi
  have ha := hat i hi
  have hl := h.lt i hi
  have hv := hG.kiv hkey hi
  by_cases hid : i = d
  · subst hid
    rw [h.rest i hi (le_refl _)]
    exact ⟨by omega, hv.2.1⟩
  · rw [if_neg hid] at ha
    have := h.cross i hi keys hk key hkey
    omega

/-- The slices of the next dimension. -/
def proj (d : Nat) (vals : List (List KeyTuple)) : List (List PySlice) := vals.map (fun keys => keys.map (fun k => dimOf k d))

theorem KG.partition {d : Nat} {kt : List SliceTuple} {vals : List (List KeyTuple)} {B : Nat → Nat × Nat} (h : KG shape inputs d kt vals B)
    (hd : d < shape.length) (hG : ∀ keys ∈ inputs, Grid shape keys) : ∀ ks ∈ proj d vals, Partition (shape.getD d 0) ks := by
  intro ks hks
  unfold proj at hks
  rw [h.vals, List.map_map] at hks
  obtain ⟨keys, hk, rfl⟩ := List.mem_map.mp hks
  have hg := hG keys hk
  constructor
  · intro k hk'
    obtain ⟨key, hkey, rfl⟩ := List.mem_map.mp hk'
    exact hg.proper key (List.mem_filter.mp hkey).1 d hd
  · intro q hq
    obtain ⟨key, hkey, hin, hat⟩ := h.cover hd hk hg hq
    refine ⟨dimOf key d, List.mem_map.mpr ⟨key, List.mem_filter.mpr ⟨hkey, hin⟩, rfl⟩, ?_⟩
    rw [(hg.kiv hkey hd).2.2.1, mem_posl]
    omega
  · intro k hk1 k' hk2 q
    obtain ⟨key, hkey, rfl⟩ := List.mem_map.mp hk1
    obtain ⟨key', hkey', rfl⟩ := List.mem_map.mp hk2
    exact hg.disjoint key (List.mem_filter.mp hkey).1 key' (List.mem_filter.mp hkey').1 d hd q

theorem nslice_inj {n : Nat} {x y : Nat × Nat} (h : nslice n x = nslice n y) : x = y := by
  unfold nslice at h
  rw [PySlice.mk.injEq] at h
  obtain ⟨h1, h2, _⟩ := h
  ext
  · by_cases a : x.1 = 0 <;> by_cases b : y.1 = 0 <;> simp [a, b] at h1 ⊢
    exact h1
  · by_cases a : x.2 = n <;> by_cases b : y.2 = n <;> simp [a, b] at h2 ⊢
    exact h2

/-- The key lies within the part of the dimension. -/
def inI (shape : List Nat) (d a e : Nat) (key : KeyTuple) : Bool := decide (a ≤ (kiv shape key d).1 ∧ (kiv shape key d).2 ≤ e)

section
variable {d : Nat} {kt : List SliceTuple} {vals : List (List KeyTuple)} {B : Nat → Nat × Nat}

theorem KG.proj_eq (h : KG shape inputs d kt vals B) :
    proj d vals = inputs.map (fun keys => (keys.filter (inB shape B)).map (fun k => dimOf k d)) := by
  unfold proj
  rw [h.vals, List.map_map]
  rfl

theorem mem_ivs_proj {keys : List KeyTuple} {x : Nat × Nat} :
    x ∈ ivs (shape.getD d 0) ((keys.filter (inB shape B)).map (fun k => dimOf k d)) ↔ ∃ key ∈ keys, inB shape B key = true ∧ kiv shape key d = x := by
  rw [mem_ivs]
  constructor
  · rintro ⟨k, hk, rfl⟩
    obtain ⟨key, hkey, rfl⟩ := List.mem_map.mp hk
    rw [List.mem_filter] at hkey
    exact ⟨key, hkey.1, hkey.2, rfl⟩
  · rintro ⟨key, hkey, hin, rfl⟩
    exact ⟨dimOf key d, List.mem_map.mpr ⟨key, List.mem_filter.mpr ⟨hkey, hin⟩, rfl⟩, rfl⟩

theorem grid_noCross {keys : List KeyTuple} (hG : Grid shape keys) (hd : d < shape.length) {e : Nat}
    (he : Stops (ivs (shape.getD d 0) ((keys.filter (inB shape B)).map (fun k => dimOf k d))) e) {key : KeyTuple} (hk : key ∈ keys) :
    (kiv shape key d).2 ≤ e ∨ e ≤ (kiv shape key d).1 := by
  obtain ⟨x, hx, rfl⟩ := he
  obtain ⟨key', hkey', _, rfl⟩ := mem_ivs_proj.mp hx
  by_contra hcon
  have l1 := hG.kiv hk hd
  have l2 := hG.kiv hkey' hd
  have := hG.meet hk hkey' hd (q := (kiv shape key' d).2 - 1) (by omega) (by omega)
  rw [this] at hcon
  omega

theorem KG.sub (h : KG shape inputs d kt vals B) (hd : d < shape.length) (hG : ∀ keys ∈ inputs, Grid shape keys)
    {y : SliceTuple × List (List PySlice)} {a e : Nat} (hy : IsGroup (shape.getD d 0) ((proj d vals).map (ivs (shape.getD d 0))) y a e) :
    KG shape inputs (d + 1) (kt.set d y.1) (inputs.map (fun keys => (keys.filter (inB shape B)).filter (inI shape d a e)))
      (Function.update B d (a, e)) := by
  have hst : ∀ q, (∀ K ∈ (proj d vals).map (ivs (shape.getD d 0)), Stops K q) → ∀ keys ∈ inputs,
      Stops (ivs (shape.getD d 0) ((keys.filter (inB shape B)).map (fun k => dimOf k d))) q := by
    intro q hq keys hk
    apply hq
    rw [h.proj_eq, List.map_map]
    exact List.mem_map.mpr ⟨keys, hk, rfl⟩
  constructor
  · rw [List.length_set]; exact h.len
  · intro i hi
    by_cases hid : i = d
    · subst hid
      rw [Function.update_self, List.getElem?_set_self (by rw [h.len]; exact hi), hy.key]
    · rw [Function.update_of_ne hid, List.getElem?_set_ne (fun hh => hid hh.symm)]
      exact h.key i hi
  · intro i hi
    by_cases hid : i = d
    · subst hid
      rw [Function.update_self]
      exact ⟨hy.lt, hy.le⟩
    · rw [Function.update_of_ne hid]
      exact h.lt i hi
  · intro i hi keys hk key hkey
    by_cases hid : i = d
    · subst hid
      rw [Function.update_self]
      have c1 := grid_noCross (hG keys hk) hi (hst e hy.stops keys hk) hkey
      have c2 : (kiv shape key i).2 ≤ a ∨ a ≤ (kiv shape key i).1 := by
        rcases hy.start with rfl | hs
        · right; omega
        · exact grid_noCross (hG keys hk) hi (hst a hs keys hk) hkey
      simp only
      omega
    · rw [Function.update_of_ne hid]
      exact h.cross i hi keys hk key hkey
  · intro i hi hdi
    rw [Function.update_of_ne (by omega)]
    exact h.rest i hi (by omega)
  · intro i hi hid
    by_cases hid' : i = d
    · subst hid'
      rw [Function.update_self]
      intro q hq1 hq2 hall
      simp only at hq1 hq2
      apply hy.none q hq1 hq2
      intro K hK
      rw [h.proj_eq, List.map_map] at hK
      obtain ⟨keys, hk, rfl⟩ := List.mem_map.mp hK
      obtain ⟨key, hkey, hkq⟩ := hall keys hk
      have hg := hG keys hk
      obtain ⟨key', hkey', hin, hat⟩ := h.cover hi hk hg (q := q - 1) (by have := hy.le; omega)
      have l1 := hg.kiv hkey hi
      refine ⟨kiv shape key' i, mem_ivs_proj.mpr ⟨key', hkey', hin, rfl⟩, ?_⟩
      rw [hg.meet hkey' hkey hi (q := q - 1) hat (by omega), hkq]
    · rw [Function.update_of_ne hid']
      exact h.fin i hi (by omega)
  · apply List.map_congr_left
    intro keys hk
    rw [List.filter_filter]
    apply List.filter_congr
    intro key hkey
    rw [Bool.eq_iff_iff]
    unfold inB inI
    simp only [Bool.and_eq_true, decide_eq_true_eq]
    constructor
    · rintro ⟨h1, h2⟩ i hi
      by_cases hid : i = d
      · subst hid
        rw [Function.update_self]
        exact h1
      · rw [Function.update_of_ne hid]
        exact h2 i hi
    · intro hall
      refine ⟨by simpa using hall d hd, ?_⟩
      intro i hi
      by_cases hid : i = d
      · subst hid
        rw [h.rest i hi (le_refl _)]
        exact ⟨by simp, ((hG keys hk).kiv hkey hi).2.1⟩
      · have := hall i hi
        rwa [Function.update_of_ne hid] at this

/-- A dimension that does not divide the group. -/
theorem KG.same (h : KG shape inputs d kt vals B) (hd : d < shape.length) (hG : ∀ keys ∈ inputs, Grid shape keys)
    {y : SliceTuple × List (List PySlice)} (hy : IsGroup (shape.getD d 0) ((proj d vals).map (ivs (shape.getD d 0))) y 0 (shape.getD d 0)) :
    KG shape inputs (d + 1) kt vals B := by
  have hs := h.sub hd hG hy
  have hB : Function.update B d (0, shape.getD d 0) = B := by
    rw [← h.rest d hd (le_refl _), Function.update_eq_self]
  have hk : kt.set d y.1 = kt := by
    have := h.key d hd
    rw [h.rest d hd (le_refl _)] at this
    rw [hy.key]
    apply List.ext_getElem?
    intro i
    by_cases hid : i = d
    · subst hid
      rw [List.getElem?_set_self (by rw [h.len]; exact hd), this]
    · rw [List.getElem?_set_ne (fun hh => hid hh.symm)]
  rw [hB, hk] at hs
  have hv : inputs.map (fun keys => (keys.filter (inB shape B)).filter (inI shape d 0 (shape.getD d 0))) = vals := by
    rw [h.vals]
    apply List.map_congr_left
    intro keys hkeys
    rw [List.filter_eq_self]
    intro key hkey
    have := (hG keys hkeys).kiv (List.mem_filter.mp hkey).1 hd
    unfold inI
    simp only [decide_eq_true_eq]
    omega
  rw [hv] at hs
  exact hs

theorem KG.inSub (h : KG shape inputs d kt vals B) (hd : d < shape.length) (hG : ∀ keys ∈ inputs, Grid shape keys)
    {y : SliceTuple × List (List PySlice)} {a e : Nat} (hy : IsGroup (shape.getD d 0) ((proj d vals).map (ivs (shape.getD d 0))) y a e) :
    ∃ S : List KeyTuple → List PySlice, y.2 = inputs.map S ∧ ∀ keys ∈ inputs, ∀ k ∈ keys.filter (inB shape B),
      Biggus.inSub d (shape.getD d 0) (S keys) k = inI shape d a e k := by
  refine ⟨fun keys => ((ivs (shape.getD d 0) ((keys.filter (inB shape B)).map (fun k => dimOf k d))).filter
    (fun x => decide (a ≤ x.1 ∧ x.2 ≤ e))).map (nslice (shape.getD d 0)), ?_, ?_⟩
  · rw [hy.entry, h.proj_eq, List.map_map, List.map_map]
    rfl
  · intro keys hk key hkey
    obtain ⟨hkey1, hkey2⟩ := List.mem_filter.mp hkey
    unfold Biggus.inSub inI
    rw [Bool.eq_iff_iff]
    simp only [decide_eq_true_eq]
    have hn := ((hG keys hk).kiv hkey1 hd).2.2.2
    rw [show key.getD d PySlice.full = dimOf key d from rfl, hn]
    constructor
    · intro hm
      obtain ⟨x, hx, hxe⟩ := List.mem_map.mp hm
      rw [nslice_inj hxe] at hx
      simpa using (List.mem_filter.mp hx).2
    · intro hm
      apply List.mem_map_of_mem
      rw [List.mem_filter]
      exact ⟨mem_ivs_proj.mpr ⟨key, hkey1, hkey2, rfl⟩, by simpa using hm⟩

end

theorem GroupsFrom.count {n : Nat} {Ks : List (List (Nat × Nat))} (q : Nat) : ∀ {g : List (SliceTuple × List (List PySlice))} {p : Nat},
    GroupsFrom n Ks p g → g.countP (fun y => decide ((q : Int) ∈ sel n (asSlice y.1))) = if p ≤ q ∧ q < n then 1 else 0
  | [], p, h => by
    have : p = n := h
    rw [if_neg (by omega)]
    rfl
  | y :: g, p, ⟨e, h1, h2, h3, h4, h5, h6, h7⟩ => by
    rw [List.countP_cons, GroupsFrom.count q h7, h3, sel_tuple h1 h2]
    simp only [mem_posl, decide_eq_true_eq]
    split_ifs <;> omega

theorem dimOf_set {kt : List SliceTuple} {t : SliceTuple} {d i : Nat} (hd : d < kt.length) :
    dimOf ((kt.set d t).map asSlice) i = if i = d then asSlice t else dimOf (kt.map asSlice) i := by
  unfold dimOf
  rw [List.getD_eq_getElem?_getD, List.getD_eq_getElem?_getD, List.getElem?_map, List.getElem?_map]
  by_cases hid : i = d
  · subst hid
    rw [List.getElem?_set_self hd]
    simp
  · rw [List.getElem?_set_ne (fun hh => hid hh.symm), if_neg hid]

theorem KG.dimOf {d : Nat} {kt : List SliceTuple} {vals : List (List KeyTuple)} {B : Nat → Nat × Nat} (h : KG shape inputs d kt vals B)
    {i : Nat} (hi : i < shape.length) : sel (shape.getD i 0) (dimOf (kt.map asSlice) i) = posl (B i).1 (B i).2 := by
  have hl := h.lt i hi
  have he : (kt.map asSlice).getD i PySlice.full = asSlice (groupTuple (shape.getD i 0) (B i).1 (B i).2) := by
    rw [List.getD_eq_getElem?_getD, List.getElem?_map, h.key i hi]
    rfl
  unfold Biggus.dimOf
  rw [he]
  exact sel_tuple hl.1 hl.2

theorem KG.count {d : Nat} {kt : List SliceTuple} {vals : List (List KeyTuple)} {B : Nat → Nat × Nat} (h : KG shape inputs d kt vals B)
    (hd : d < shape.length) {Ks : List (List (Nat × Nat))} {g : List (SliceTuple × List (List PySlice))} (hg : GroupsFrom (shape.getD d 0) Ks 0 g)
    {pt : List Nat} (hpt : InShape shape pt) :
    g.countP (fun y => decide (InKey shape ((kt.set d y.1).map asSlice) pt)) = if InKey shape (kt.map asSlice) pt then 1 else 0 := by
  have hiff : ∀ y : SliceTuple × List (List PySlice), InKey shape ((kt.set d y.1).map asSlice) pt ↔
      InKey shape (kt.map asSlice) pt ∧ (pt.getD d 0 : Int) ∈ sel (shape.getD d 0) (asSlice y.1) := by
    intro y
    constructor
    · intro hin
      constructor
      · intro i hi
        by_cases hid : i = d
        · subst hid
          rw [h.dimOf hi, h.rest i hi (le_refl _), mem_posl]
          have := hpt.2 i hi
          simp only
          omega
        · have := hin i hi
          rw [dimOf_set (by rw [h.len]; exact hd), if_neg hid] at this
          exact this
      · have := hin d hd
        rw [dimOf_set (by rw [h.len]; exact hd), if_pos rfl] at this
        exact this
    · rintro ⟨h1, h2⟩ i hi
      rw [dimOf_set (by rw [h.len]; exact hd)]
      split_ifs with hid
      · rw [hid]; exact h2
      · exact h1 i hi
  by_cases hin : InKey shape (kt.map asSlice) pt
  · rw [if_pos hin]
    have := hg.count (pt.getD d 0)
    rw [if_pos ⟨by omega, hpt.2 d hd⟩] at this
    rw [← this]
    apply List.countP_congr
    intro y _
    simp only [decide_eq_true_eq]
    rw [hiff]
    exact ⟨fun hh => hh.2, fun hh => ⟨hin, hh⟩⟩
  · rw [if_neg hin, List.countP_eq_zero]
    intro y _
    simp only [decide_eq_true_eq]
    rw [hiff]
    exact fun hh => hin hh.1

/-- Every point of the array is in exactly one group. -/
def Tile (shape : List Nat) (D : GDict) : Prop :=
  ∀ pt, InShape shape pt → D.countP (fun x => decide (InKey shape (x.1.map asSlice) pt)) = 1

/-- A group of the dictionary is as it should be after `d` dimensions. -/
def EntryOk (shape : List Nat) (inputs : List (List KeyTuple)) (store : List (List KeyTuple)) (d : Nat) (x : List SliceTuple × GLists) : Prop :=
  ∃ B, KG shape inputs d x.1 (x.2.vals store) B

/-- The region of a group is not empty. -/
def HasPoint (shape : List Nat) (x : List SliceTuple × GLists) : Prop := ∃ pt, InShape shape pt ∧ InKey shape (x.1.map asSlice) pt

theorem EntryOk.point {store : List (List KeyTuple)} {d : Nat} {x : List SliceTuple × GLists} (h : EntryOk shape inputs store d x) : HasPoint shape x := by
  obtain ⟨B, h⟩ := h
  have hp : ∀ i, i < shape.length → ((List.range shape.length).map (fun i => (B i).1)).getD i 0 = (B i).1 := by
    intro i hi
    simp [List.getD_eq_getElem?_getD, hi]
  refine ⟨(List.range shape.length).map (fun i => (B i).1), ⟨by simp, ?_⟩, ?_⟩
  · intro i hi
    rw [hp i hi]
    have := h.lt i hi
    omega
  · intro i hi
    rw [hp i hi, h.dimOf hi, mem_posl]
    have := h.lt i hi
    omega

theorem Tile.nodup {D : GDict} (h : Tile shape D) (hp : ∀ x ∈ D, HasPoint shape x) : (D.map Prod.fst).Nodup := by
  rw [List.nodup_iff_sublist]
  intro a hsub
  have hmem : a ∈ D.map Prod.fst := hsub.subset (by simp)
  obtain ⟨x, hx, rfl⟩ := List.mem_map.mp hmem
  obtain ⟨pt, hpt, hin⟩ := hp x hx
  have h1 := h pt hpt
  have h2 := hsub.countP_le (p := fun t => decide (InKey shape (t.map asSlice) pt))
  rw [List.countP_map] at h2
  have h3 : D.countP ((fun t => decide (InKey shape (t.map asSlice) pt)) ∘ Prod.fst) = 1 := h1
  rw [h3] at h2
  simp [List.countP_cons, hin] at h2

theorem perm_pop {D : GDict} (h : (D.map Prod.fst).Nodup) {x : List SliceTuple × GLists} (hx : x ∈ D) :
    D.Perm (x :: D.filter (fun z => decide (z.1 ≠ x.1))) := by
  induction D with
  | nil => cases hx
  | cons y D ih =>
    rw [List.map_cons, List.nodup_cons] at h
    rcases List.mem_cons.mp hx with rfl | hx
    · have : (x :: D).filter (fun z => decide (z.1 ≠ x.1)) = D := by
        rw [List.filter_cons_of_neg (by simp), List.filter_eq_self]
        intro z hz
        simp only [ne_eq, decide_not, Bool.not_eq_eq_eq_not, Bool.not_true, decide_eq_false_iff_not]
        intro he
        exact h.1 (by rw [← he]; exact List.mem_map_of_mem hz)
      rw [this]
    · rw [List.filter_cons_of_pos (by
        simp only [ne_eq, decide_not, Bool.not_eq_eq_eq_not, Bool.not_true, decide_eq_false_iff_not]
        intro he
        exact h.1 (by rw [he]; exact List.mem_map_of_mem hx))]
      exact ((ih h.2 hx).cons y).trans (List.Perm.swap _ _ _)

/-- The state after one group: unchanged, or with the group replaced by its parts. -/
structure Split (shape : List Nat) (inputs : List (List KeyTuple)) (d : Nat) (st : KState) (x : List SliceTuple × GLists) (st' : KState) : Prop where
  dict : ∃ new : GDict, st'.dict = st.dict.filter (fun z => decide (z.1 ≠ x.1)) ++ new ∧ 2 ≤ new.length ∧
    (∀ y ∈ new, (∃ l, y.2 = .own l) ∧ ∀ store, EntryOk shape inputs store (d + 1) y)
  tile : Tile shape st'.dict
  own : (∃ l, x.2 = .own l) → st'.store = st.store
  caller : x.2 = .caller (List.range inputs.length) → st.store = inputs → st'.store = inputs.map (fun _ => [])

/-- The interval of a group. -/
def gI (n : Nat) (y : SliceTuple × List (List PySlice)) : Nat × Nat := iv n (asSlice y.1)

theorem IsGroup.gI {n : Nat} {Ks : List (List (Nat × Nat))} {y : SliceTuple × List (List PySlice)} {a e : Nat} (h : IsGroup n Ks y a e) :
    Biggus.gI n y = (a, e) := by
  unfold Biggus.gI
  rw [h.key]
  exact iv_of h.lt (sel_tuple h.lt h.le)

theorem GroupsFrom.isGroup {n : Nat} {Ks : List (List (Nat × Nat))} {g : List (SliceTuple × List (List PySlice))} (h : GroupsFrom n Ks 0 g) :
    ∀ y ∈ g, IsGroup n Ks y (Biggus.gI n y).1 (Biggus.gI n y).2 := by
  intro y hy
  obtain ⟨a, e, _, hI⟩ := h.mem (Or.inl rfl) y hy
  rw [hI.gI]
  exact hI

theorem pairwise_groups {n : Nat} {Ks : List (List (Nat × Nat))} : ∀ {g : List (SliceTuple × List (List PySlice))} {p : Nat}, GroupsFrom n Ks p g →
    g.Pairwise (fun y z => (gI n y).2 ≤ (gI n z).1)
  | [], _, _ => List.Pairwise.nil
  | y :: g, p, ⟨e, h1, h2, h3, h4, h5, h6, h7⟩ => by
    rw [List.pairwise_cons]
    refine ⟨?_, pairwise_groups h7⟩
    intro z hz
    obtain ⟨b, f, hb, hI⟩ := h7.mem (Or.inr h5) z hz
    rw [hI.gI]
    have : gI n y = (p, e) := by
      unfold gI
      rw [h3]
      exact iv_of h1 (sel_tuple h1 h2)
    rw [this]
    exact hb

theorem sum_filter_le {vals : List (List KeyTuple)} (P : KeyTuple → Bool) :
    ((vals.map (fun keys => keys.filter P)).map List.length).sum ≤ (vals.map List.length).sum := by
  induction vals with
  | nil => simp
  | cons l vals ih =>
    simp only [List.map_cons, List.sum_cons]
    have := List.length_filter_le P l
    omega

theorem processGroup_ok {d : Nat} {st : KState} {x : List SliceTuple × GLists} (hd : d < shape.length) (hn : 0 < shape.getD d 0) (hne : inputs ≠ [])
    (hG : ∀ keys ∈ inputs, Grid shape keys) (hx : x ∈ st.dict) (hE : EntryOk shape inputs st.store d x) (ht : Tile shape st.dict)
    (hp : ∀ x ∈ st.dict, HasPoint shape x)
    (hc : (∃ l, x.2 = .own l) ∨ x.2 = .caller (List.range inputs.length) ∧ st.store = inputs) :
    (processGroup d (shape.getD d 0) st x = .error .runtime ∧ 9999 < (inputs.map List.length).sum) ∨
    (processGroup d (shape.getD d 0) st x = .ok st ∧ EntryOk shape inputs st.store (d + 1) x) ∨
    (∃ st', processGroup d (shape.getD d 0) st x = .ok st' ∧ Split shape inputs d st x st') := by
  obtain ⟨B, hK⟩ := hE
  have hfor : keysForDim d (x.2.vals st.store) = .ok (proj d (x.2.vals st.store)) := by
    apply keysForDim_ok
    intro keys hkeys k hk
    rw [hK.vals] at hkeys
    obtain ⟨keys', hkeys', rfl⟩ := List.mem_map.mp hkeys
    rw [(hG keys' hkeys').rank k (List.mem_filter.mp hk).1]
    exact hd
  have hpne : proj d (x.2.vals st.store) ≠ [] := by
    rw [hK.proj_eq]
    simpa using hne
  unfold processGroup
  rw [hfor]
  simp only [bind, Except.bind]
  rcases dimensionGroup_ok hn hpne (hK.partition hd hG) with ⟨g, hg1, hg2, _⟩ | ⟨hr, hs, _⟩
  · right
    rw [hg1]
    simp only
    have hgpos : g ≠ [] := by
      rintro rfl
      have : 0 = shape.getD d 0 := hg2
      omega
    have hIs := hg2.isGroup
    by_cases h1 : g.length = 1
    · left
      rw [if_pos h1]
      refine ⟨rfl, B, ?_⟩
      obtain ⟨y, rfl⟩ := List.length_eq_one_iff.mp h1
      obtain ⟨a, e, ha, hI⟩ := hg2.mem (Or.inl rfl) y List.mem_cons_self
      have htile := hg2.tile.2
      rw [List.flatMap_cons, List.flatMap_nil, List.append_nil, hI.key, sel_tuple hI.lt hI.le] at htile
      have hlen := congrArg List.length htile
      rw [posl_length, posl_length] at hlen
      have hle := hI.le
      have hlt := hI.lt
      have ha0 : a = 0 := by omega
      have hen : e = shape.getD d 0 := by omega
      subst ha0
      rw [hen] at hI
      exact hK.same hd hG hI
    · right
      rw [if_neg h1]
      have h2 : 2 ≤ g.length := by
        have := List.length_pos_of_ne_nil hgpos
        omega
      have hnd := ht.nodup hp
      let Q : SliceTuple × List (List PySlice) → KeyTuple → Bool := fun y k => inI shape d (gI (shape.getD d 0) y).1 (gI (shape.getD d 0) y).2 k
      let new : GDict := g.map (fun y => (x.1.set d y.1, .own (inputs.map (fun keys => (keys.filter (inB shape B)).filter (Q y)))))
      have htile : Tile shape (st.dict.filter (fun z => decide (z.1 ≠ x.1)) ++ new) := by
        intro pt hpt
        have h0 := ht pt hpt
        rw [(perm_pop hnd hx).countP_eq, List.countP_cons] at h0
        rw [List.countP_append, List.countP_map]
        have hcnt := hK.count hd hg2 hpt
        have hcnt' : g.countP ((fun z : List SliceTuple × GLists => decide (InKey shape (z.1.map asSlice) pt)) ∘
            fun y => (x.1.set d y.1, .own (inputs.map (fun keys => (keys.filter (inB shape B)).filter (Q y))))) =
            if InKey shape (x.1.map asSlice) pt then 1 else 0 := hcnt
        rw [hcnt']
        simp only [decide_eq_true_eq] at h0
        omega
      have hnew : ∀ y ∈ new, (∃ l, y.2 = .own l) ∧ ∀ store, EntryOk shape inputs store (d + 1) y := by
        intro y hy
        obtain ⟨z, hz, rfl⟩ := List.mem_map.mp hy
        exact ⟨⟨_, rfl⟩, fun store => ⟨_, hK.sub hd hG (hIs z hz)⟩⟩
      have hnd' := htile.nodup (by
        intro z hz
        rcases List.mem_append.mp hz with hz | hz
        · exact hp z (List.mem_filter.mp hz).1
        · exact ((hnew z hz).2 []).point)
      have hsplit := splitGroup_eq (dim := d) (n := shape.getD d 0) (key := x.1) (J := inputs) (F0 := fun keys => keys.filter (inB shape B)) Q g
        (fun _ => true) (st.dict.filter (fun z => decide (z.1 ≠ x.1)))
        (fun y hy => hK.inSub hd hG (hIs y hy))
        (by
          have := pairwise_groups hg2
          refine this.imp ?_
          intro y z hyz keys hk k hk' ⟨hq1, hq2⟩
          simp only [Q, inI, decide_eq_true_eq] at hq1 hq2
          have := (hG keys hk).kiv (List.mem_filter.mp hk').1 hd
          omega)
        (fun _ _ _ _ _ _ _ => rfl)
      simp only [List.filter_true, Bool.true_and] at hsplit
      rw [dictSet_fold (fun y => x.1.set d y.1) (fun y => GLists.own (inputs.map (fun keys => (keys.filter (inB shape B)).filter (Q y)))) g _ (by
        rw [List.map_append] at hnd'
        have : new.map Prod.fst = g.map (fun y => x.1.set d y.1) := by
          show List.map _ (List.map _ _) = _
          rw [List.map_map]
          rfl
        rw [this] at hnd'
        exact hnd')] at hsplit
      have hrest : inputs.map (fun keys => (keys.filter (inB shape B)).filter (fun k => g.all (fun y => !Q y k))) = inputs.map (fun _ => []) := by
        apply List.map_congr_left
        intro keys hk
        rw [List.filter_eq_nil_iff]
        intro k hk' hall
        rw [List.all_eq_true] at hall
        obtain ⟨hk1, hk2⟩ := List.mem_filter.mp hk'
        have hkv := (hG keys hk).kiv hk1 hd
        -- the group that contains the first position of the key
        have hcount := hg2.count (kiv shape k d).1
        rw [if_pos ⟨by omega, by omega⟩] at hcount
        have hpos : 0 < g.countP (fun y => decide (((kiv shape k d).1 : Int) ∈ sel (shape.getD d 0) (asSlice y.1))) := by omega
        rw [List.countP_pos_iff] at hpos
        obtain ⟨y, hy, hin⟩ := hpos
        have hI := hIs y hy
        rw [decide_eq_true_eq, hI.key, sel_tuple hI.lt hI.le, mem_posl] at hin
        have hcross := (hK.sub hd hG hI).cross d hd keys hk k hk1
        rw [Function.update_self] at hcross
        have := hall y hy
        simp only [Q, inI, Bool.not_eq_eq_eq_not, Bool.not_true, decide_eq_false_iff_not] at this
        simp only at hcross
        omega
      have hlen : (x.2.vals st.store).length = inputs.length := by rw [hK.vals]; simp
      rcases hc with ⟨l, hl⟩ | ⟨hcal, hst⟩
      · refine ⟨⟨st.store, st.dict.filter (fun z => decide (z.1 ≠ x.1)) ++ new⟩, ?_, ⟨new, rfl, by simp [new, h2], hnew⟩, htile, fun _ => rfl, ?_⟩
        · rw [hl]
          have hv : l = inputs.map (fun keys => keys.filter (inB shape B)) := by
            have := hK.vals
            rw [hl] at this
            exact this
          have hll : l.length = inputs.length := by rw [hv]; simp
          simp only [hll]
          rw [hv, hsplit]
          rfl
        · intro hcal
          rw [hl] at hcal
          cases hcal
      · refine ⟨⟨inputs.map (fun _ => []), st.dict.filter (fun z => decide (z.1 ≠ x.1)) ++ new⟩, ?_, ⟨new, rfl, by simp [new, h2], hnew⟩, htile, ?_, fun _ _ => rfl⟩
        · rw [hcal, hst]
          have hv : inputs = inputs.map (fun keys => keys.filter (inB shape B)) := by
            have := hK.vals
            rw [hcal, hst] at this
            unfold GLists.vals at this
            simp only at this
            rw [← this]
            apply List.ext_getElem (by simp)
            intro i h1 h2
            simp [List.getD_eq_getElem?_getD, h1]
          simp only
          have hsplit' := hsplit
          rw [← hv, hrest] at hsplit'
          rw [hsplit']
          rfl
        · rintro ⟨l, hl⟩
          rw [hcal] at hl
          cases hl
  · left
    rw [hr]
    refine ⟨rfl, ?_⟩
    rw [hK.proj_eq, List.map_map] at hs
    have := sum_filter_le (vals := inputs) (inB shape B)
    rw [List.map_map] at this
    have he : inputs.map (List.length ∘ fun keys => (keys.filter (inB shape B)).map (fun k => dimOf k d)) =
        inputs.map (List.length ∘ fun keys => keys.filter (inB shape B)) := by
      apply List.map_congr_left
      intro keys _
      simp
    rw [he] at hs
    omega

end

end Biggus

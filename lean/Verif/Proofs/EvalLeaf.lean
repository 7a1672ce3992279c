import Verif.Spec.EvalGuards
import Verif.Proofs.Getitem
/-
`_apply_keys` reads the orthogonal selection.
-/
namespace Biggus

variable {α V : Type}

theorem contiguousAdv_append_false (l : List Bool) (r : Nat) :
    contiguousAdv (l ++ List.replicate r false) = contiguousAdv l := by
  have h1 : ∀ l : List Bool, ((l ++ List.replicate r false).dropWhile (·)).any (·) = (l.dropWhile (·)).any (·) := by
    intro l
    induction l with
    | nil =>
      simp only [List.nil_append, List.dropWhile_nil, List.any_nil]
      cases r with
      | zero => rfl
      | succ r => simp [List.replicate_succ, List.dropWhile_cons]
    | cons b l ih =>
      cases b
      · simp
      · simpa [List.dropWhile_cons] using ih
  have h2 : ∀ l : List Bool, (((l ++ List.replicate r false).dropWhile (!·)).dropWhile (·)).any (·) =
      ((l.dropWhile (!·)).dropWhile (·)).any (·) := by
    intro l
    induction l with
    | nil =>
      have : (List.replicate r false).dropWhile (!·) = [] := by
        induction r with
        | zero => rfl
        | succ r ih => simp [List.replicate_succ, List.dropWhile_cons, ih]
      simp [this]
    | cons b l ih =>
      cases b
      · simpa [List.dropWhile_cons] using ih
      · simpa [List.dropWhile_cons] using h1 l
  unfold contiguousAdv
  rw [h2]

theorem fancySafe_pad {ks : List Key} (r : Nat) (h : fancySafe ks) : fancySafe (ks ++ List.replicate r Key.full) := by
  have hf : (List.replicate r Key.full).filter Key.isArr = [] := by
    rw [List.filter_eq_nil_iff]; intro k hk
    rw [List.eq_of_mem_replicate hk]; decide
  rcases h with h | ⟨h1, h2⟩
  · left
    rw [List.any_append, h]
    simp only [Bool.false_or, List.any_eq_false]
    intro k hk
    rw [List.eq_of_mem_replicate hk]; decide
  · right
    constructor
    · rw [List.filter_append, hf, List.append_nil]; exact h1
    · rw [List.map_append, List.map_replicate, show Key.full.isAdv = false from rfl, contiguousAdv_append_false]
      exact h2

/-- `npFancy` on keys missing trailing dimensions. -/
theorem npFancy_pad {β : Type} (a : NDA β) {ks : List Key} {r : Nat} (h : ks.length + r = a.shape.length) :
    npFancy a ks = npFancy a (ks ++ List.replicate r Key.full) := by
  unfold npFancy
  rw [if_neg (by omega), if_neg (by simp; omega), show a.shape.length - ks.length = r by omega,
    show a.shape.length - (ks ++ List.replicate r Key.full).length = 0 by simp; omega]
  simp

theorem npFancy_pad_ok {β : Type} (a : NDA β) {ks : List Key} {r : Nat} {σ : List Sel} (he : Exact ks)
    (h : resolve (ks ++ List.replicate r Key.full) a.shape = .ok σ) (hs : fancySafe ks) :
    ∃ b, npFancy a ks = .ok b ∧ b ≈ₐ a.ortho σ := by
  have he' : Exact (ks ++ List.replicate r Key.full) := he.append (exact_replicate_full r)
  have hl := (resolve_length he' h).1
  rw [npFancy_pad a (r := r) (by simpa using hl)]
  exact npFancy_ok a he' h (fancySafe_pad r hs)

theorem cutKeys_exact {ks : List Key} (h : Exact ks) : Exact (cutKeys ks) := by
  intro k hk
  unfold cutKeys at hk
  obtain ⟨k', hk', rfl⟩ := List.mem_map.mp hk
  split
  · exact exact_full
  · exact h k' hk'

theorem cutKeys_scalar (ks : List Key) : ((cutKeys ks).filter Key.isScalar).length = (ks.filter Key.isScalar).length := by
  induction ks with
  | nil => rfl
  | cons k ks ih =>
    have hk : (if k.isTuple then Key.full else k : Key).isScalar = k.isScalar := by cases k <;> rfl
    rw [show cutKeys (k :: ks) = (if k.isTuple then Key.full else k) :: cutKeys ks from rfl, List.filter_cons,
      List.filter_cons, hk]
    split
    · simp only [List.length_cons, ih]
    · exact ih

/-- `np.take` on an orthogonal selection. -/
theorem npTake_ortho {β : Type} {A data : NDA β} {σd ρ : List Sel} {n : Nat} {l : List Int} {sd st : List Nat}
    {kd kt : List Key} (hsd : resolve kd sd = .ok σd) (hst : resolve kt st = .ok ρ)
    (hdata : data.shape = sd ++ n :: st) (hA : A ≈ₐ data.ortho (σd ++ .pick (List.range n) :: ρ))
    (hl : l.all (inRange · n) = true) :
    ∃ r, npTake A l (selShape σd).length = .ok r ∧ r ≈ₐ data.ortho (σd ++ .pick (l.map (normIdx · n)) :: ρ) := by
  obtain ⟨hA1, hA2⟩ := hA
  have hsh : A.shape = selShape σd ++ n :: selShape ρ := by
    rw [hA1]; simp [NDA.ortho, selShape_append, selShape]
  have hget : A.shape[(selShape σd).length]? = some n := by rw [hsh]; simp
  unfold npTake
  rw [hget]
  simp only [hl, if_true]
  refine ⟨_, rfl, ?_, ?_⟩
  · simp [NDA.ortho, selShape_append, selShape, hsh]
  · intro idx hidx
    simp only at hidx ⊢
    rw [hsh] at hidx
    have hset : (selShape σd ++ n :: selShape ρ).set (selShape σd).length l.length =
        selShape σd ++ l.length :: selShape ρ := set_middle _ _ _ _ _ rfl
    rw [hset] at hidx
    obtain ⟨h1, h2⟩ := inB_split hidx
    have hlen1 := h1.length
    set i1 := idx.take (selShape σd).length with hi1
    set i2 := idx.drop (selShape σd).length with hi2
    have hidx' : idx = i1 ++ i2 := (List.take_append_drop _ _).symm
    match i2, h2 with
    | j :: i3, h2 =>
      obtain ⟨hj, h3⟩ := h2
      have hg : idx.getD (selShape σd).length 0 = j := by
        rw [hidx']; exact getD_middle _ _ _ _ _ hlen1
      have hs' : ∀ y, idx.set (selShape σd).length y = i1 ++ y :: i3 := by
        intro y; rw [hidx']; exact set_middle _ _ _ _ _ hlen1
      rw [hg, hs']
      have hp : (l.map (normIdx · n)).getD j 0 < n := by
        have hm : (l.map (normIdx · n)).getD j 0 ∈ l.map (normIdx · n) := getD_mem _ _ _ (by simpa using hj)
        obtain ⟨i, hi, he⟩ := List.mem_map.mp hm
        rw [← he]
        exact normIdx_lt (List.all_eq_true.mp hl i hi)
      rw [hA2]
      · simp only [NDA.ortho]
        congr 1
        rw [hidx', selSrc_append (by rw [List.take_append_of_le_length (by omega), List.take_of_length_le (by omega)]; exact h1),
          selSrc_append (by rw [List.take_append_of_le_length (by omega), List.take_of_length_le (by omega)]; exact h1)]
        rw [List.take_append_of_le_length (by omega), List.take_of_length_le (by omega), List.drop_append_of_le_length (by omega),
          List.drop_of_length_le (by omega), List.take_append_of_le_length (by omega), List.take_of_length_le (by omega),
          List.drop_append_of_le_length (by omega), List.drop_of_length_le (by omega)]
        simp only [List.nil_append, selSrc]
        congr 2
        rw [List.getD_eq_getElem?_getD, List.getElem?_range hp]; rfl
      · rw [hsh]
        exact inB_append h1 ⟨hp, h3⟩

theorem takes_ok {β : Type} (data : NDA β) (keys : List Key) (pad : List Key) : ∀ (todo dn : List Key)
    (sd st : List Nat) (σd σt ρt : List Sel) (A : NDA β), keys = dn ++ todo → Exact dn → Exact todo → Exact pad →
    resolve dn sd = .ok σd → resolve (todo ++ pad) st = .ok σt → resolve (cutKeys todo ++ pad) st = .ok ρt →
    data.shape = sd ++ st → A ≈ₐ data.ortho (σd ++ ρt) →
    ∃ r, (todo.zipIdx dn.length).foldlM (takeStep keys) A = .ok r ∧ r ≈ₐ data.ortho (σd ++ σt) := by
  intro todo
  induction todo with
  | nil =>
    intro dn sd st σd σt ρt A hk he1 he2 hep hd ht hρ hdata hA
    simp only [cutKeys, List.map_nil, List.nil_append] at hρ ht
    rw [ht] at hρ
    injection hρ with hρ
    subst hρ
    exact ⟨A, rfl, hA⟩
  | cons k todo ih =>
    intro dn sd st σd σt ρt A hk he1 he2 hep hd ht hρ hdata hA
    have hkx := he2 k (by simp)
    rw [List.cons_append, resolve_cons_iff hkx.1] at ht
    obtain ⟨n, ns, s, σ', hst, hσ, hk1, hrest⟩ := ht
    have hkx' : ((if k.isTuple then Key.full else k) : Key).isNewaxis = false := by
      split
      · rfl
      · exact hkx.1
    rw [show cutKeys (k :: todo) ++ pad = (if k.isTuple then Key.full else k) :: (cutKeys todo ++ pad) from rfl,
      resolve_cons_iff hkx'] at hρ
    obtain ⟨n', ns', s', ρ', hst', hρ', hk1', hrest'⟩ := hρ
    rw [hst] at hst'
    injection hst' with e1 e2
    subst e1 e2 hσ hρ' hst
    rw [List.zipIdx_cons, List.foldlM_cons]
    have hsnoc : resolve (dn ++ [k]) (sd ++ [n]) = .ok (σd ++ [s]) := by
      apply resolve_append he1 hd
      rw [resolve_cons_iff hkx.1]
      exact ⟨n, [], s, [], rfl, rfl, hk1, rfl⟩
    have hex : Exact (dn ++ [k]) := he1.append (fun x hx => by simp at hx; subst hx; exact hkx)
    have hih := fun B hB => ih (dn ++ [k]) (sd ++ [n]) ns (σd ++ [s]) σ' ρ' B (by rw [hk]; simp) hex he2.tail hep hsnoc
      hrest hrest' (by rw [hdata]; simp) hB
    simp only [List.length_append, List.length_cons, List.length_nil, List.append_assoc, List.singleton_append] at hih
    by_cases htup : k.isTuple = true
    · obtain ⟨l, rfl⟩ : ∃ l, k = .tuple l := by cases k <;> simp_all [Key.isTuple]
      simp only [Key.isTuple, if_true] at hk1'
      rw [resolve1_full] at hk1'
      injection hk1' with hk1'
      subst hk1'
      simp only [resolve1] at hk1
      split at hk1
      · rename_i hall
        injection hk1 with hk1
        subst hk1
        obtain ⟨B, hB1, hB2⟩ := npTake_ortho hd hrest' hdata hA hall
        have hax : dn.length - (((cutKeys keys).take (dn.length + 1)).filter Key.isScalar).length = (selShape σd).length := by
          rw [← scalar_count he1 hd, hk]
          have hcut : (cutKeys (dn ++ Key.tuple l :: todo)).take (dn.length + 1) = cutKeys dn ++ [Key.full] := by
            rw [show cutKeys (dn ++ Key.tuple l :: todo) = cutKeys dn ++ Key.full :: cutKeys todo by
              simp only [cutKeys, List.map_append, List.map_cons]; rfl]
            rw [List.take_append, List.take_of_length_le (by simp [cutKeys])]
            simp [cutKeys]
          rw [hcut, List.filter_append, List.length_append, cutKeys_scalar]
          simp [Key.isScalar, Key.full]
        have hstep : takeStep keys A (Key.tuple l, dn.length) = .ok B := by
          simp only [takeStep, hax, hB1]
        rw [hstep]
        exact hih B hB2
      · simp at hk1
    · simp only [htup] at hk1'
      simp only [Bool.false_eq_true, if_false] at hk1'
      rw [hk1] at hk1'
      injection hk1' with hk1'
      subst hk1'
      have hstep : takeStep keys A (k, dn.length) = .ok A := by
        cases k <;> simp_all [takeStep, Key.isTuple]
      rw [hstep]
      exact hih A hA

theorem cutKeys_resolve {keys pad : List Key} {sh : List Nat} {σ : List Sel} (he : Exact keys)
    (h : resolve (keys ++ pad) sh = .ok σ) : ∃ ρ, resolve (cutKeys keys ++ pad) sh = .ok ρ := by
  induction keys generalizing sh σ with
  | nil => exact ⟨σ, h⟩
  | cons k keys ih =>
    rw [List.cons_append, resolve_cons_iff (he k (by simp)).1] at h
    obtain ⟨n, ns, s, σ', hst, hσ, hk1, hrest⟩ := h
    obtain ⟨ρ, hρ⟩ := ih he.tail hrest
    have hkx' : ((if k.isTuple then Key.full else k) : Key).isNewaxis = false := by
      split
      · rfl
      · exact (he k (by simp)).1
    by_cases ht : k.isTuple = true
    · refine ⟨.pick (List.range n) :: ρ, ?_⟩
      rw [show cutKeys (k :: keys) ++ pad = (if k.isTuple then Key.full else k) :: (cutKeys keys ++ pad) from rfl,
        resolve_cons_iff hkx']
      exact ⟨n, ns, _, ρ, hst, rfl, by rw [if_pos ht]; exact resolve1_full n, hρ⟩
    · refine ⟨s :: ρ, ?_⟩
      rw [show cutKeys (k :: keys) ++ pad = (if k.isTuple then Key.full else k) :: (cutKeys keys ++ pad) from rfl,
        resolve_cons_iff hkx']
      exact ⟨n, ns, _, ρ, hst, rfl, by rw [if_neg ht]; exact hk1, hρ⟩

theorem storable_Exact {keys : List Key} (hs : ∀ k ∈ keys, k.storable = true) : Exact keys :=
  fun k hk => storable_exact (hs k hk)

/-- `NumpyArrayAdapter._apply_keys` gives the orthogonal selection. -/
theorem numpyApplyKeys_ok {β : Type} (data r : NDA β) (keys : List Key) (hs : ∀ k ∈ keys, k.storable = true)
    (hr : npIndex data keys = .ok r) (hsafe : takeSafe keys) :
    ∃ r', numpyApplyKeys data keys = .ok r' ∧ r' ≈ₐ r := by
  have he := storable_Exact hs
  obtain ⟨fk, σ, h1, h2, rfl⟩ := npIndex_ok_iff.mp hr
  have hne : keys.any Key.isEllipsis = false := by
    simp only [List.any_eq_false]; intro k hk; simp [(he k hk).2]
  rw [expandKeys_noEllipsis keys _ hne, nConsuming_exact he] at h1
  split at h1
  · rename_i hle
    injection h1 with h1
    subst h1
    unfold takeSafe at hsafe
    unfold numpyApplyKeys
    split
    · rename_i hgt
      rw [if_pos hgt] at hsafe
      obtain ⟨ρ, hρ⟩ := cutKeys_resolve he h2
      obtain ⟨A, hA1, hA2⟩ := npFancy_pad_ok data (cutKeys_exact he) hρ hsafe
      simp only [hA1, bind, Except.bind]
      exact takes_ok data keys _ keys [] [] data.shape [] σ ρ A rfl (fun k hk => by simp at hk) he (exact_replicate_full _)
        rfl h2 hρ rfl hA2
    · rename_i hgt
      rw [if_neg hgt] at hsafe
      exact npFancy_pad_ok data he h2 hsafe
  · simp at h1

theorem applyKeys_ok {β : Type} (o : Bool) (data r : NDA β) (keys : List Key) (hs : ∀ k ∈ keys, k.storable = true)
    (hr : npIndex data keys = .ok r) (hsafe : o = false → takeSafe keys) :
    ∃ r', applyKeys o data keys = .ok r' ∧ r' ≈ₐ r := by
  cases o
  · simp only [applyKeys, Bool.false_eq_true, if_false]
    exact numpyApplyKeys_ok data r keys hs hr (hsafe rfl)
  · exact ⟨r, by simpa [applyKeys] using hr, NDA.Eqv.refl r⟩

end Biggus

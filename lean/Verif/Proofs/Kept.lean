import Verif.Proofs.EvalClosed
import Verif.Spec.Clean
/-
Indexing with clean keys keeps an expression `Arr.Ok` (T4).
-/
namespace Biggus

variable {α V : Type}

/-- What indexing `a` with the keys `fk` keeps. -/
structure Kept (m : Mode α V) (limit : Nat) (nm : Bool) (cut : Cut) (a : Arr α) (fk : List Key) (b : Arr α) : Prop where
  ok : b.Ok m limit cut
  prod : cut ≠ .whole → a.isProd = true → b.isProd = true
  stream : cut ≠ .whole → a.streamOk m limit → b.streamOk m limit
  skel : cut ≠ .whole → Exact fk → b.skel = a.skel.index fk
  plain : ∀ {rep : Bool}, nm = true → ∀ fwd arr, (arr = true → Exact fk) → a.PlainR rep m fwd arr cut → b.PlainR rep m fwd arr cut

theorem getitem_sim [Inhabited α] [Inhabited V] (m : Mode α V) {a b : Arr α} (hwf : a.WF) {ks fk : List Key} {τ : List Sel}
    (hexp : expandKeys ks (a.den m).shape.length = .ok fk) (hτ : resolve fk (a.den m).shape = .ok τ) (hg : a.keysOk fk)
    (h : a.getitem ks = .ok b) : b.WF ∧ b.den m ≈ₐ (a.den m).ortho τ := by
  obtain ⟨b', h1, h2, h3, _⟩ := getitem_ok m a hwf ks fk _ hexp hg (npIndex_ok_iff.mpr ⟨fk, τ, hexp, hτ, rfl⟩)
  rw [h] at h1
  cases h1
  exact ⟨h2, h3⟩

theorem Kept.ofProd [Inhabited V] {m : Mode α V} {limit : Nat} {nm : Bool} {cut : Cut} {a b : Arr α} {fk : List Key} {σ : List Sel}
    (ha : a.isProd = true) (hb : cut ≠ .whole → b.isProd = true) (hwa : a.WF) (hwb : b.WF)
    (hσ : resolve fk (a.den m).shape = .ok σ) (hd : b.den m ≈ₐ (a.den m).ortho σ) (ok : b.Ok m limit cut)
    (plain : ∀ {rep : Bool}, nm = true → ∀ fwd arr, (arr = true → Exact fk) → a.PlainR rep m fwd arr cut → b.PlainR rep m fwd arr cut) :
    Kept m limit nm cut a fk b := by
  refine ⟨ok, fun h _ => hb h, fun h _ => isProd_streamOk m limit (hb h), fun h _ => ?_, plain⟩
  rw [isProd_skel ha, isProd_skel (hb h), hwa.shape_eq m, hwb.shape_eq m]
  unfold Skel.index
  simp only [okOr, hσ]
  rw [hd.1]; rfl

/-- The shared `__getitem__`: without `newaxis` among the keys it is `_getitem_full_keys`, otherwise the result of that is
wrapped. -/
theorem arrayGetitem_form [Inhabited V] (m : Mode α V) {full : List Key → Res (Arr α)} {a b : Arr α} (hwf : a.WF)
    {ks fk : List Key} {τ : List Sel} (hexp : expandKeys ks (a.den m).shape.length = .ok fk)
    (hτ : resolve fk (a.den m).shape = .ok τ) (h : arrayGetitem full a.shape ks = .ok b) :
    Exact (dropNew fk) ∧ (∃ σ, resolve (dropNew fk) (a.den m).shape = .ok σ) ∧ ∃ b', full (dropNew fk) = .ok b' ∧
      (Exact fk ∧ b = b' ∨ ¬ Exact fk ∧ ∃ na, (b = .newAxes b' na ∨ ∃ d l, b = .bcast (.newAxes b' na) d l)) := by
  obtain ⟨hE, hC⟩ := expandKeys_spec hexp
  have hdn : Exact (dropNew fk) := by
    intro k hk
    unfold dropNew at hk
    obtain ⟨h1, h2⟩ := List.mem_filter.mp hk
    exact ⟨by simpa using h2, hE k h1⟩
  obtain ⟨σ, hσ, _⟩ := naSem (p := 0) (c := 0) (ns := List.replicate (a.den m).shape.length 0) (s := (a.den m).shape)
    (seen := false) (fk := fk) (τ := τ) (by simp) (naKeysOk_zeros _ _ _)
    (by rw [← List.replicate_succ, naShape_zeros]; exact hτ)
  rw [containedKeys_zeros _ fk hC] at hσ
  refine ⟨hdn, ⟨σ, hσ⟩, ?_⟩
  by_cases he : Exact fk
  · rw [arrayGetitem_exact (hwf.shape_eq m) hexp he] at h
    exact ⟨b, by rw [dropNew_exact he]; exact h, Or.inl ⟨he, rfl⟩⟩
  · have hn : fk.any Key.isNewaxis = true := by
      by_contra hn
      apply he
      intro k hk
      refine ⟨?_, hE k hk⟩
      have := List.any_eq_false.mp (by simpa using hn) k hk
      simpa using this
    unfold arrayGetitem at h
    rw [hwf.shape_eq m] at h
    simp only [bind, Except.bind, fullKeys_of_expandKeys ks fk _ hexp] at h
    rw [if_pos hn, List.replicate_succ] at h
    obtain ⟨b', na, h1, h2⟩ := newAxesGetitem_form m (a := a) (by simp) (keys := fk) (fk := fk) (τ := τ)
      (by rw [← List.replicate_succ, naShape_zeros]; exact expandKeys_self hE hC)
      (by rw [← List.replicate_succ, naShape_zeros]; exact hτ) (naKeysOk_zeros _ _ _) h
    rw [containedKeys_zeros _ fk hC] at h1
    have hcl : nConsuming (fk.filter (fun k => !k.isNewaxis)) = (a.den m).shape.length := by
      rw [← hC]; unfold nConsuming; simp
    have e := fullKeys_of_expandKeys _ _ _ (expandKeys_self (fun k hk => (hdn k hk).2) hcl)
    unfold dropNew at e
    rw [e] at h1
    exact ⟨b', h1, Or.inr ⟨he, na, h2⟩⟩

theorem Kept.lift [Inhabited V] {m : Mode α V} {limit : Nat} {nm : Bool} {cut : Cut} {full : List Key → Res (Arr α)} {a b : Arr α}
    (hwf : a.WF) {ks fk : List Key} {τ : List Sel} (hexp : expandKeys ks (a.den m).shape.length = .ok fk)
    (hτ : resolve fk (a.den m).shape = .ok τ) (hne : cut = .arrays → Exact fk)
    (h : arrayGetitem full a.shape ks = .ok b)
    (hfull : ∀ σ b', Exact (dropNew fk) → resolve (dropNew fk) (a.den m).shape = .ok σ → full (dropNew fk) = .ok b' →
      Kept m limit nm cut a (dropNew fk) b') : Kept m limit nm cut a fk b := by
  obtain ⟨hdn, ⟨σ, hσ⟩, b', hb', h⟩ := arrayGetitem_form m hwf hexp hτ h
  have hk := hfull σ b' hdn hσ hb'
  rcases h with ⟨he, rfl⟩ | ⟨he, na, h⟩
  · rwa [dropNew_exact he] at hk
  · have hca : cut ≠ .arrays := fun h => he (hne h)
    rcases h with rfl | ⟨d, l, rfl⟩
    · exact ⟨⟨hca, hk.ok⟩, fun _ _ => rfl, fun _ _ => trivial, fun _ h => absurd h he, fun hn f ar har hp =>
        ⟨by cases ar <;> simp_all, hk.plain hn f ar (fun h => absurd (har h) he) hp⟩⟩
    · exact ⟨⟨hca, hca, hk.ok⟩, fun _ _ => rfl, fun _ _ => trivial, fun _ h => absurd h he, fun hn f ar har hp =>
        ⟨by cases ar <;> simp_all, by cases ar <;> simp_all, hk.plain hn f ar (fun h => absurd (har h) he) hp⟩⟩

/-! ### distinct keys do not enlarge anything -/

theorem nodup_bounded_length {l : List Nat} {n : Nat} (hn : l.Nodup) (hb : ∀ i ∈ l, i < n) : l.length ≤ n := by
  have := (List.subperm_of_subset hn (fun x hx => List.mem_range.mpr (hb x hx))).length_le
  simpa using this

theorem pyRange_nodup {a b c : Int} (hc : c ≠ 0) : (pyRange a b c).Nodup := by
  unfold pyRange
  refine List.Nodup.map ?_ List.nodup_range
  intro x y h
  simp only [add_right_inj, mul_eq_mul_right_iff] at h
  rcases h with h | h
  · exact_mod_cast h
  · exact absurd h hc

theorem range_nodup {s : PySlice} {n : Nat} {r : List Int} (h : s.range n = .ok r) : r.Nodup := by
  unfold PySlice.range at h
  obtain ⟨⟨a, b, c⟩, hi, h⟩ := bind_ok.mp h
  cases h
  refine pyRange_nodup ?_
  unfold PySlice.indices at hi
  simp only at hi
  split at hi
  · cases hi
  · rename_i hc
    cases hi
    exact hc

theorem map_toNat_nodup {l : List Int} (hn : l.Nodup) (h0 : ∀ i ∈ l, 0 ≤ i) : (l.map Int.toNat).Nodup := by
  rw [List.nodup_map_iff_inj_on hn]
  intro x hx y hy h
  have := h0 x hx
  have := h0 y hy
  omega

theorem truePositions_nodup (l : List Bool) : (truePositions l).Nodup := by
  unfold truePositions
  exact List.Nodup.filter _ List.nodup_range

theorem resolve1_distinct {k : Key} {n : Nat} {l : List Nat} (hd : k.distinct) (h : resolve1 k n = .ok (.pick l)) :
    l.length ≤ n := by
  have hseq : ∀ l' : List Int, l'.Nodup ∧ (∀ i ∈ l', 0 ≤ i) →
      (if l'.all (inRange · n) then Except.ok (Sel.pick (l'.map (normIdx · n))) else .error PyErr.index) = Except.ok (Sel.pick l) →
      l.length ≤ n := by
    intro l' ⟨hn, h0⟩ h
    split at h
    · rename_i hall
      cases h
      have e : l'.map (normIdx · n) = l'.map Int.toNat := by
        apply List.map_congr_left
        intro i hi
        exact normIdx_nonneg (h0 i hi)
      rw [e]
      refine nodup_bounded_length (map_toNat_nodup hn h0) ?_
      intro i hi
      obtain ⟨j, hj, rfl⟩ := List.mem_map.mp hi
      have := List.all_eq_true.mp hall j hj
      have h0 := h0 j hj
      simp [inRange] at this; omega
    · cases h
  cases k with
  | int i => simp only [resolve1] at h; split at h <;> cases h
  | slice s =>
    obtain ⟨r, hr, h⟩ := resolve1_slice h
    cases h
    refine nodup_bounded_length (map_toNat_nodup (range_nodup hr) (fun i hi => (range_mem hr i hi).1)) ?_
    intro i hi
    obtain ⟨j, hj, rfl⟩ := List.mem_map.mp hi
    have := range_mem hr j hj
    omega
  | tuple l' => exact hseq l' hd h
  | list l' => exact hseq l' hd h
  | iarr l' => exact hseq l' hd h
  | barr l' =>
    simp only [resolve1] at h
    split at h
    · rename_i hl
      cases h
      exact le_trans (nodup_bounded_length (truePositions_nodup l') (truePositions_lt l')) hl
    · cases h
  | newaxis => cases h
  | ellipsis => cases h
  | bad => cases h

theorem selShape_suffix {limit : Nat} : ∀ (fk : List Key) (s : List Nat) (σ : List Sel), Exact fk → (∀ k ∈ fk, k.distinct) →
    resolve fk s = .ok σ → (∀ i, (s.drop i).prod ≤ limit) →
    (selShape σ).prod ≤ s.prod ∧ ∀ i, ((selShape σ).drop i).prod ≤ limit
  | [], s, σ, _, _, h, hf => by
    obtain ⟨rfl, rfl⟩ := resolve_nil_iff.mp h
    exact ⟨le_refl _, fun i => by simpa [selShape] using hf i⟩
  | k :: fk, s, σ, he, hd, h, hf => by
    obtain ⟨n, ns, x, σ', rfl, rfl, hx, h'⟩ := (resolve_cons_iff (he k (by simp)).1).mp h
    obtain ⟨h1, h2⟩ := selShape_suffix fk ns σ' he.tail (fun k hk => hd k (by simp [hk])) h'
      (fun i => by simpa using hf (i + 1))
    have hok := resolve1_ok (he k (by simp)).1 hx
    have h0 := hf 0
    rw [List.drop_zero, List.prod_cons] at h0
    cases x with
    | «at» i =>
      have hi : i < n := hok
      refine ⟨?_, h2⟩
      rw [List.prod_cons]
      exact le_trans h1 (Nat.le_mul_of_pos_left _ (by omega))
    | pick l =>
      have hl := resolve1_distinct (hd k (by simp)) hx
      have h3 : (selShape (.pick l :: σ')).prod ≤ (n :: ns).prod := by
        simp only [selShape, List.prod_cons]
        exact Nat.mul_le_mul hl h1
      refine ⟨h3, fun i => ?_⟩
      cases i with
      | zero => rw [List.prod_cons] at h3; exact le_trans h3 h0
      | succ i => exact h2 i
    | new => exact absurd hok (by simp [Sel.ok])

theorem fits_index_distinct {limit : Nat} : ∀ (sk : Skel) (fk : List Key), sk.WF → Exact fk → (∀ k ∈ fk, k.distinct) →
    (∃ σ, resolve fk sk.shape = .ok σ) → sk.fits limit → (sk.index fk).fits limit
  | .prod s, fk, _, he, hd, ⟨σ, h⟩, hf => by
    unfold Skel.index
    simp only [Skel.shape] at h
    rw [h]
    exact (selShape_suffix fk s σ he hd h hf).2
  | .agg s axis, fk, hw, he, hd, ⟨σ, h⟩, hf => by
    obtain ⟨h1, σ', h2, _⟩ := resolve_insert_full hw.2 he h
    refine fits_index_distinct s _ hw.1 h1 ?_ ⟨σ', h2⟩ hf
    intro k hk
    simp only [List.mem_append, List.mem_singleton] at hk
    rcases hk with (hk | rfl) | hk
    · exact hd k (List.mem_of_mem_take hk)
    · trivial
    · exact hd k (List.mem_of_mem_drop hk)

theorem selShape_prod_le : ∀ (fk : List Key) (s : List Nat) (σ : List Sel), Exact fk → (∀ k ∈ fk, k.distinct) →
    resolve fk s = .ok σ → (selShape σ).prod ≤ s.prod
  | [], s, σ, _, _, h => by
    obtain ⟨rfl, rfl⟩ := resolve_nil_iff.mp h
    exact le_refl _
  | k :: fk, s, σ, he, hd, h => by
    obtain ⟨n, ns, x, σ', rfl, rfl, hx, h'⟩ := (resolve_cons_iff (he k (by simp)).1).mp h
    have h1 := selShape_prod_le fk ns σ' he.tail (fun k hk => hd k (by simp [hk])) h'
    have hok := resolve1_ok (he k (by simp)).1 hx
    cases x with
    | «at» i =>
      have hi : i < n := hok
      rw [List.prod_cons]
      exact le_trans h1 (Nat.le_mul_of_pos_left _ (by omega))
    | pick l =>
      have hl := resolve1_distinct (hd k (by simp)) hx
      simp only [selShape, List.prod_cons]
      exact Nat.mul_le_mul hl h1
    | new => exact absurd hok (by simp [Sel.ok])

theorem scalars_le (l : List Key) : (l.filter Key.isScalar).length ≤ l.length := List.length_filter_le _ _

/-- Positions after scalar keys are dropped, for a source and an aggregation over `axis`. -/
theorem skipAxis_scalars {fk : List Key} {axis i : Nat} (hax : axis ≤ fk.length) (hi : i < fk.length) (hk : (fk.getD i Key.full).isScalar = false) :
    skipAxis (axis - ((fk.take axis).filter Key.isScalar).length) (i - ((fk.take i).filter Key.isScalar).length) =
      skipAxis axis i - (((fk.take axis ++ [Key.full] ++ fk.drop axis).take (skipAxis axis i)).filter Key.isScalar).length := by
  have hli : (fk.take i).length = i := by rw [List.length_take]; omega
  have hla : (fk.take axis).length = axis := by rw [List.length_take]; omega
  have s1 := scalars_le (fk.take i)
  have s2 := scalars_le (fk.take axis)
  rw [hli] at s1
  rw [hla] at s2
  unfold skipAxis
  by_cases h : i < axis
  · rw [if_pos h]
    have e1 : (fk.take axis ++ [Key.full] ++ fk.drop axis).take i = fk.take i := by
      rw [List.append_assoc, List.take_append_of_le_length (by omega), List.take_take, Nat.min_eq_left (by omega)]
    rw [e1]
    have e2 : fk.take axis = fk.take i ++ fk[i] :: (fk.take axis).drop (i + 1) := by
      have : fk.take axis = (fk.take axis).take i ++ (fk.take axis).drop i := (List.take_append_drop _ _).symm
      rw [List.take_take, Nat.min_eq_left (by omega), List.drop_eq_getElem_cons (by omega), List.getElem_take] at this
      exact this
    have e3 : ((fk.take axis).drop (i + 1)).length = axis - (i + 1) := by rw [List.length_drop, hla]
    have s3 := scalars_le ((fk.take axis).drop (i + 1))
    have hk' : fk[i].isScalar = false := by
      rw [List.getD_eq_getElem?_getD, List.getElem?_eq_getElem hi] at hk
      exact hk
    have e4 : ((fk.take axis).filter Key.isScalar).length = ((fk.take i).filter Key.isScalar).length + (((fk.take axis).drop (i + 1)).filter Key.isScalar).length := by
      conv_lhs => rw [e2]
      rw [List.filter_append, List.length_append, List.filter_cons, hk']
      rfl
    rw [if_pos (by omega)]
  · rw [if_neg h]
    have e1 : (fk.take axis ++ [Key.full] ++ fk.drop axis).take (i + 1) = fk.take axis ++ [Key.full] ++ (fk.drop axis).take (i - axis) := by
      rw [List.take_append, List.take_of_length_le (by rw [List.length_append, hla]; simp; omega)]
      congr 2
      rw [List.length_append, hla]
      simp
    have e2 : fk.take i = fk.take axis ++ (fk.drop axis).take (i - axis) := by
      have : fk.take (axis + (i - axis)) = fk.take axis ++ (fk.drop axis).take (i - axis) := List.take_add
      rw [← this]
      congr 1
      omega
    have e4 : ((fk.take i).filter Key.isScalar).length = ((fk.take axis).filter Key.isScalar).length + (((fk.drop axis).take (i - axis)).filter Key.isScalar).length := by
      rw [e2, List.filter_append, List.length_append]
    have s3 := scalars_le ((fk.drop axis).take (i - axis))
    have e5 : ((fk.drop axis).take (i - axis)).length = i - axis := by rw [List.length_take, List.length_drop]; omega
    rw [e1, List.filter_append, List.filter_append, List.length_append, List.length_append]
    have e6 : ([Key.full].filter Key.isScalar).length = 0 := rfl
    rw [e6, if_neg (by omega)]
    omega

theorem getD_insert_full {fk : List Key} {axis i : Nat} (hax : axis ≤ fk.length) :
    (fk.take axis ++ [Key.full] ++ fk.drop axis).getD (skipAxis axis i) Key.full = fk.getD i Key.full := by
  have hla : (fk.take axis).length = axis := by rw [List.length_take]; omega
  unfold skipAxis
  simp only [List.getD_eq_getElem?_getD]
  split
  · rename_i h
    rw [List.append_assoc, List.getElem?_append_left (by omega), List.getElem?_take, if_pos h]
  · rename_i h
    rw [List.getElem?_append_right (by rw [List.length_append, hla]; simp; omega), List.getElem?_drop, List.length_append, hla]
    congr 2
    simp only [List.length_singleton]
    omega

theorem holds_index_distinct {limit r : Nat} : ∀ (sk : Skel) (fk : List Key) (i : Nat), sk.WF → Exact fk → (∀ k ∈ fk, k.distinct) →
    (∃ σ, resolve fk sk.shape = .ok σ) → i < sk.shape.length → (fk.getD i Key.full).isScalar = false → sk.holds limit r i →
    (sk.index fk).holds limit r (i - ((fk.take i).filter Key.isScalar).length)
  | .prod s, fk, i, _, he, hd, ⟨σ, h⟩, hi, hk, hf => by
    unfold Skel.index
    simp only [Skel.shape] at h hi
    rw [h]
    have hlen := (resolve_length he h).1
    have hfi : i < fk.length := by omega
    have hep : Exact (fk.take i) := fun x hx => he x (List.mem_of_mem_take hx)
    have her : Exact (fk.drop (i + 1)) := fun x hx => he x (List.mem_of_mem_drop hx)
    have h0 := h
    rw [← List.take_append_drop i fk, ← List.take_append_drop i s] at h0
    have hkl : (fk.take i).length = (s.take i).length := by rw [List.length_take, List.length_take]; omega
    obtain ⟨τp, τr, rfl, hτp, hτr⟩ := resolve_append_inv hep hkl h0
    rw [List.drop_eq_getElem_cons hfi, List.drop_eq_getElem_cons hi] at hτr
    obtain ⟨n, ns, x, σ', e, rfl, hx, h'⟩ := (resolve_cons_iff (he _ (List.getElem_mem hfi)).1).mp hτr
    injection e with e1 e2
    subst e1 e2
    have hsc := scalar_count hep hτp
    have hli : (fk.take i).length = i := by rw [List.length_take]; omega
    rw [hli] at hsc
    have hk' : fk[i].isScalar = false := by
      rw [List.getD_eq_getElem?_getD, List.getElem?_eq_getElem hfi] at hk
      exact hk
    have hdr : (selShape (τp ++ x :: σ')).drop (i - ((fk.take i).filter Key.isScalar).length + 1) = selShape σ' := by
      rw [hsc, selShape_append, List.drop_append, List.drop_of_length_le (by omega)]
      rw [List.nil_append]
      have e : (selShape τp).length + 1 - (selShape τp).length = 1 := by omega
      rw [e]
      cases x with
      | «at» j => 
        have hs := resolve1_scalar (he _ (List.getElem_mem hfi)).1 hx
        simp [Sel.isPick, hk'] at hs
      | pick l => rfl
      | new => exact absurd (resolve1_ok (he _ (List.getElem_mem hfi)).1 hx) (by simp [Sel.ok])
    show r * ((selShape (τp ++ x :: σ')).drop _).prod ≤ limit
    rw [hdr]
    exact le_trans (Nat.mul_le_mul_left r (selShape_prod_le _ _ _ her (fun k hk => hd k (List.mem_of_mem_drop hk)) h')) hf
  | .agg s axis, fk, i, hw, he, hd, ⟨σ, h⟩, hi, hk, hf => by
    obtain ⟨h1, σ', h2, _⟩ := resolve_insert_full hw.2 he h
    have hel : (s.shape.eraseIdx axis).length = s.shape.length - 1 := by rw [List.length_eraseIdx, if_pos hw.2]
    have hlen := (resolve_length he h).1
    have hi' : i < (s.shape.eraseIdx axis).length := hi
    have hlen' : fk.length = (s.shape.eraseIdx axis).length := hlen
    have hwa := hw.2
    have hax : axis ≤ fk.length := by omega
    unfold Skel.index
    show Skel.holds limit r _ (skipAxis _ _)
    rw [skipAxis_scalars hax (by omega) hk]
    refine holds_index_distinct s _ _ hw.1 h1 ?_ ⟨σ', h2⟩ (skipAxis_lt (by omega) hw.2) ?_ hf
    · intro k hk
      simp only [List.mem_append, List.mem_singleton] at hk
      rcases hk with (hk | rfl) | hk
      · exact hd k (List.mem_of_mem_take hk)
      · trivial
      · exact hd k (List.mem_of_mem_drop hk)
    · rw [getD_insert_full hax]; exact hk

/-! ### mosaics -/

theorem mosaicKeysOk.and {lens : List Nat} {axis : Nat} {G G' : Nat → List Key → Prop} {fk : List Key}
    (h : mosaicKeysOk lens axis G fk) (h' : mosaicKeysOk lens axis G' fk) :
    mosaicKeysOk lens axis (fun t ks => G t ks ∧ G' t ks) fk := by
  unfold mosaicKeysOk at h h' ⊢
  simp only at h h' ⊢
  have many : ∀ is : List Int, (is ≠ [] ∧ (∀ i ∈ is, 0 ≤ i) ∧ ∀ g ∈ groupTiles lens is,
        G g.1 (fk.set axis (tileKey ((tileOffsets lens).getD g.1 0) g.2))) →
      (is ≠ [] ∧ (∀ i ∈ is, 0 ≤ i) ∧ ∀ g ∈ groupTiles lens is,
        G' g.1 (fk.set axis (tileKey ((tileOffsets lens).getD g.1 0) g.2))) →
      (is ≠ [] ∧ (∀ i ∈ is, 0 ≤ i) ∧ ∀ g ∈ groupTiles lens is,
        G g.1 (fk.set axis (tileKey ((tileOffsets lens).getD g.1 0) g.2)) ∧
        G' g.1 (fk.set axis (tileKey ((tileOffsets lens).getD g.1 0) g.2))) :=
    fun is a b => ⟨a.1, a.2.1, fun g hg => ⟨a.2.2 g hg, b.2.2 g hg⟩⟩
  split at h
  · rename_i hs
    rw [if_pos hs] at h' ⊢
    exact fun t ht => ⟨h t ht, h' t ht⟩
  · rename_i hs
    rw [if_neg hs] at h' ⊢
    generalize fk.getD axis Key.full = k at h h' ⊢
    cases k with
    | int i => exact ⟨h.1, h.2, h'.2⟩
    | slice s => exact fun r hr => ⟨many r (h r hr).1 (h' r hr).1, (h r hr).2⟩
    | tuple l => exact many _ h h'
    | list l => exact many _ h h'
    | iarr l => exact many _ h h'
    | barr l => exact h
    | newaxis => exact h
    | ellipsis => exact h
    | bad => exact h

theorem mapM_mono {β γ : Type} {f g : β → Res γ} : ∀ {l : List β} {r : List γ}, (∀ x y, f x = .ok y → g x = .ok y) →
    l.mapM f = .ok r → l.mapM g = .ok r
  | [], r, _, h => by simpa using h
  | x :: l, r, hm, h => by
    rw [List.mapM_cons] at h ⊢
    obtain ⟨y, hy, h⟩ := bind_ok.mp h
    obtain ⟨ys, hys, h⟩ := bind_ok.mp h
    rw [hm x y hy, mapM_mono hm hys]
    exact h

theorem mosaicMany_mono [Inhabited α] {f g : Nat → List Key → Res (Arr α)} {lens : List Nat} {axis : Nat} {keys : List Key}
    {is : List Int} {rev : Bool} {b : Arr α} (hm : ∀ t ks y, f t ks = .ok y → g t ks = .ok y)
    (h : mosaicMany f lens axis keys is rev = .ok b) : mosaicMany g lens axis keys is rev = .ok b := by
  unfold mosaicMany at h ⊢
  obtain ⟨ts, hts, h⟩ := bind_ok.mp h
  rw [mapM_mono (fun x y hx => hm _ _ y hx) hts]
  exact h

theorem mosaicFull_mono [Inhabited α] {f g : Nat → List Key → Res (Arr α)} {tshape : Nat → Res (List Nat)} {n axis : Nat}
    {fk : List Key} {b : Arr α} (hm : ∀ t ks y, f t ks = .ok y → g t ks = .ok y)
    (h : mosaicFull f tshape n axis fk = .ok b) : mosaicFull g tshape n axis fk = .ok b := by
  unfold mosaicFull at h ⊢
  simp only at h ⊢
  split at h
  · rename_i hs
    rw [if_pos hs]
    obtain ⟨ts, hts, h⟩ := bind_ok.mp h
    rw [mapM_mono (fun x y hx => hm _ _ y hx) hts]
    exact h
  · rename_i hs
    rw [if_neg hs]
    obtain ⟨lens, hl, h⟩ := bind_ok.mp h
    rw [hl]
    show mosaicAxis g lens axis _ = _
    unfold mosaicAxis at h ⊢
    split at h
    · exact hm _ _ _ h
    · obtain ⟨r, hr, h⟩ := bind_ok.mp h
      rw [hr]
      exact mosaicMany_mono hm h
    · exact mosaicMany_mono hm h
    · exact mosaicMany_mono hm h
    · exact mosaicMany_mono hm h
    · exact h
    · cases h

/-- The shape of the result of indexing a mosaic. -/
theorem mosaicFull_cases [Inhabited α] {f : Nat → List Key → Res (Arr α)} {tshape : Nat → Res (List Nat)} {n axis : Nat}
    {fk : List Key} {b : Arr α} (h : mosaicFull f tshape n axis fk = .ok b) :
    (∃ (bs : List (Arr α)), b = .mosaic bs.length (fun i => bs.getD i default)
        (axis - (((trimKeys fk).take axis).filter Key.isScalar).length) ∧ (∀ b' ∈ bs, ∃ t ks, f t ks = .ok b') ∧
        (axis < (trimKeys fk).length → ((trimKeys fk).getD axis Key.full).isScalar = false)) ∨
    (((trimKeys fk).getD axis Key.full).isScalar = true ∧ axis < (trimKeys fk).length ∧ ∃ t ks, f t ks = .ok b) := by
  have many : ∀ {lens keys is rev}, mosaicMany f lens axis keys is rev = .ok b →
      (keys.getD axis Key.full).isScalar = false →
      ∃ (bs : List (Arr α)), b = .mosaic bs.length (fun i => bs.getD i default)
        (axis - ((keys.take axis).filter Key.isScalar).length) ∧
      (∀ b' ∈ bs, ∃ t ks, f t ks = .ok b') ∧ (axis < keys.length → (keys.getD axis Key.full).isScalar = false) := by
    intro lens keys is rev h hns
    unfold mosaicMany at h
    obtain ⟨ts, hts, h⟩ := bind_ok.mp h
    refine ⟨_, mkMosaic_form h, ?_, fun _ => hns⟩
    intro b' hb'
    have hb' : b' ∈ ts := by
      split at hb'
      · exact List.mem_reverse.mp hb'
      · exact hb'
    obtain ⟨g, _, hin⟩ := forall₂_mem_left (mapM_ok_inv _ _ _ hts).flip hb'
    exact ⟨_, _, hin⟩
  unfold mosaicFull at h
  simp only at h
  split at h
  · obtain ⟨ts, hts, h⟩ := bind_ok.mp h
    rw [List.take_of_length_le (by assumption)]
    refine Or.inl ⟨_, mkMosaic_form h, ?_, fun hlt => by omega⟩
    intro b' hb'
    obtain ⟨g, _, hin⟩ := forall₂_mem_left (mapM_ok_inv _ _ _ hts).flip hb'
    exact ⟨_, _, hin⟩
  · rename_i hs
    obtain ⟨lens, hl, h⟩ := bind_ok.mp h
    unfold mosaicAxis at h
    split at h
    · rename_i i hk
      exact Or.inr ⟨by rw [hk]; rfl, by omega, _, _, h⟩
    · rename_i hk
      obtain ⟨r, hr, h⟩ := bind_ok.mp h
      exact Or.inl (many h (by rw [hk]; rfl))
    · rename_i hk; exact Or.inl (many h (by rw [hk]; rfl))
    · rename_i hk; exact Or.inl (many h (by rw [hk]; rfl))
    · rename_i hk; exact Or.inl (many h (by rw [hk]; rfl))
    · split at h <;> cases h
    · cases h

/-- The axis of an indexed mosaic stays non-empty. -/
theorem mosaic_axis_pos {fk : List Key} {s lens : List Nat} {axis : Nat} {τ : List Sel} {G : Nat → List Key → Prop}
    (hax : axis < s.length) (he : Exact fk) (hτ : resolve fk (s.set axis lens.sum) = .ok τ)
    (hg : mosaicKeysOk lens axis G fk) (hpos : 0 < lens.sum)
    (hsc : axis < (trimKeys fk).length → ((trimKeys fk).getD axis Key.full).isScalar = false) :
    0 < (selShape τ).getD (axis - (((trimKeys fk).take axis).filter Key.isScalar).length) 0 := by
  obtain ⟨sp, n, sr, hs, hsp⟩ : ∃ sp n sr, s = sp ++ n :: sr ∧ sp.length = axis := by
    refine ⟨s.take axis, s[axis], s.drop (axis + 1), ?_, by rw [List.length_take]; omega⟩
    rw [← List.drop_eq_getElem_cons hax, List.take_append_drop]
  subst hs
  rw [set_middle _ _ _ _ _ hsp] at hτ
  have hlen := (resolve_length he hτ).1
  obtain ⟨kp, k, kr, hfk, hkp⟩ : ∃ kp k kr, fk = kp ++ k :: kr ∧ kp.length = axis := by
    have h1 : axis < fk.length := by rw [hlen]; simp; omega
    refine ⟨fk.take axis, fk[axis], fk.drop (axis + 1), ?_, by rw [List.length_take]; omega⟩
    rw [← List.drop_eq_getElem_cons h1, List.take_append_drop]
  have hep : Exact kp := fun x hx => he x (by rw [hfk]; simp [hx])
  have hek : Exact (k :: kr) := fun x hx => he x (by rw [hfk]; exact List.mem_append_right _ hx)
  have hτ0 := hτ
  rw [hfk] at hτ0
  obtain ⟨τp, τkr, rfl, hτp, hτkr⟩ := resolve_append_inv hep (by rw [hkp, hsp]) hτ0
  obtain ⟨n', ns', tk, τr, h1, rfl, htk, hτr⟩ := (resolve_cons_iff (hek k List.mem_cons_self).1).mp hτkr
  cases h1
  obtain ⟨rr, hrr⟩ := trimKeys_spec fk
  have htake : (((trimKeys fk).take axis).filter Key.isScalar).length = (kp.filter Key.isScalar).length := by
    have h2 : fk.take axis = kp := by rw [hfk]; exact List.take_left' hkp
    rw [← h2]
    conv_rhs => rw [hrr]
    rw [List.take_append, List.filter_append, List.length_append]
    have : ((List.replicate rr Key.full).take (axis - (trimKeys fk).length)).filter Key.isScalar = [] := by
      rw [List.filter_eq_nil_iff]
      intro x hx
      rw [List.eq_of_mem_replicate (List.mem_of_mem_take hx)]; simp [Key.full, Key.isScalar]
    rw [this]; simp
  have hscal := scalar_count hep hτp
  rw [hkp] at hscal
  rw [htake, hscal, selShape_append]
  have hkget' : fk.getD axis Key.full = k := by rw [hfk]; exact getD_middle _ _ _ _ _ hkp
  suffices h : ∃ l, tk = .pick l ∧ 0 < l.length by
    obtain ⟨l, rfl, hl⟩ := h
    rw [selShape, getD_middle _ _ _ _ _ rfl]
    exact hl
  have hseq : ∀ l : List Int, l ≠ [] → resolve1 k lens.sum = resolve1 (.tuple l) lens.sum →
      ∃ l, tk = .pick l ∧ 0 < l.length := by
    intro l hne hr
    rw [hr] at htk
    simp only [resolve1] at htk
    split at htk
    · cases htk
      exact ⟨_, rfl, by rw [List.length_map]; exact List.length_pos_iff.mpr hne⟩
    · cases htk
  unfold mosaicKeysOk at hg
  simp only at hg
  split at hg
  · rename_i hshort
    have hk : k = Key.full := by
      rw [← hkget', hrr, List.getD_eq_getElem?_getD, List.getElem?_append_right hshort, List.getElem?_replicate]
      split <;> rfl
    subst hk
    rw [resolve1_full] at htk
    cases htk
    exact ⟨_, rfl, by simpa using hpos⟩
  · rename_i hshort
    have hkget : (trimKeys fk).getD axis Key.full = k := by
      rw [← hkget']
      conv_rhs => rw [hrr]
      rw [List.getD_eq_getElem?_getD, List.getD_eq_getElem?_getD, List.getElem?_append_left (by omega)]
    have hsc := hsc (by omega)
    rw [hkget] at hsc
    rw [hkget'] at hg
    cases k with
    | int i => cases hsc
    | slice sl =>
      obtain ⟨r, hr, rfl⟩ := resolve1_slice htk
      exact ⟨_, rfl, by rw [List.length_map]; exact List.length_pos_iff.mpr (hg r hr).1.1⟩
    | tuple l => exact hseq l hg.1 rfl
    | list l => exact hseq l hg.1 rfl
    | iarr l => exact hseq l hg.1 rfl
    | barr l => exact hg.elim
    | newaxis => exact hg.elim
    | ellipsis => exact hg.elim
    | bad => exact hg.elim

/-! ### stacks -/

theorem stackFull_cases {inner : List Nat → List Key → Res (Arr α)} {ss : List Nat} {items : List Nat → Arr α}
    {fk : List Key} {σ : List Sel} {b : Arr α} (he : Exact (fk.take ss.length)) (hσ : resolve (fk.take ss.length) ss = .ok σ)
    (hlist : ∀ l, Key.list l ∉ fk.take ss.length) (hsafe : fancySafe (fk.take ss.length))
    (h : stackFull inner ss items fk = .ok b) :
    (selShape σ = [] ∧ ∃ j, InB ss j ∧ inner j (fk.drop ss.length) = .ok b) ∨
    (selShape σ ≠ [] ∧ ∃ F, b = .stack (selShape σ) F ∧ ∀ i, InB (selShape σ) i → ∃ j, InB ss j ∧
      inner j (fk.drop ss.length) = .ok (F i)) := by
  have hl1 : (fk.take ss.length).length = ss.length := (resolve_length he hσ).1
  have hls : slicedShape ss (fk.take ss.length) = .ok (selShape σ) :=
    C02_sliced_shape_is_numpy_shape (⟨ss, fun _ => ()⟩ : NDA Unit) _ (fk.take ss.length) hlist
      (npIndex_exact (⟨ss, fun _ => ()⟩ : NDA Unit) _ σ hl1 he hσ)
  obtain ⟨sel, hsel, hsel1, hsel2⟩ := npFancy_ok (⟨ss, id⟩ : NDA (List Nat)) he hσ hsafe
  have hselshape : sel.shape = selShape σ := hsel1
  have hsrc : ∀ i, InB (selShape σ) i → sel.get i = selSrc σ i := by
    intro i hi
    have := hsel2 i (by rw [hselshape]; exact hi)
    simpa [NDA.ortho] using this
  unfold stackFull at h
  simp only [hls, hsel, bind, Except.bind] at h
  split at h
  · rename_i hn
    have hn : selShape σ = [] := by simpa using hn
    have h0 : InB (selShape σ) [] := by rw [hn]; trivial
    exact Or.inl ⟨hn, sel.get [], by rw [hsrc [] h0]; exact selSrc_inB hσ [] h0, h⟩
  · rename_i hn
    right
    refine ⟨by simpa using hn, ?_⟩
    split at h
    · cases h
    · rename_i v hv
      unfold mkStack at h
      split at h
      · cases h
      · simp only [bind, Except.bind] at h
        split at h
        · cases h
        · split at h
          · cases h
          · cases h
            rw [hselshape]
            refine ⟨_, rfl, ?_⟩
            intro i hi
            refine ⟨sel.get i, by rw [hsrc i hi]; exact selSrc_inB hσ i hi, ?_⟩
            rw [if_pos ((mem_ndindex _ _).mpr hi)]
            have hf := mapM_ok_inv _ _ _ hv
            obtain ⟨y, _, hy⟩ := forall₂_mem_left hf ((mem_ndindex _ _).mpr hi)
            rw [hselshape, if_neg (by simpa using hi)] at hy
            rw [hy]; rfl

theorem selShape_nil_scalar {ks : List Key} : ∀ {sh : List Nat} {σ : List Sel}, Exact ks → resolve ks sh = .ok σ →
    selShape σ = [] → ks.all Key.isScalar = true := by
  induction ks with
  | nil => intro _ _ _ _ _; rfl
  | cons k ks ih =>
    intro sh σ he h hs
    obtain ⟨n, ns, x, σ', rfl, rfl, hx, h'⟩ := (resolve_cons_iff (he k (by simp)).1).mp h
    have hsc := resolve1_scalar (he k (by simp)).1 hx
    cases x with
    | «at» i =>
      rw [List.all_cons, ih he.tail h' hs]
      simp only [Sel.isPick] at hsc
      revert hsc
      cases k.isScalar <;> simp
    | pick l => simp [selShape] at hs
    | new => simp [selShape] at hs

theorem selShape_length_le : ∀ (σ : List Sel), (selShape σ).length ≤ σ.length
  | [] => le_refl _
  | .at _ :: σ => by have := selShape_length_le σ; simp only [selShape, List.length_cons]; omega
  | .pick _ :: σ => by have := selShape_length_le σ; simp only [selShape, List.length_cons]; omega
  | .new :: σ => by have := selShape_length_le σ; simp only [selShape, List.length_cons]; omega

/-- The keys a transposed array gives to its array are valid. -/
theorem transposed_keys [Inhabited V] (m : Mode α V) {a : Arr α} {axes : List Nat} (hwf : (Arr.transposed a axes).WF)
    {fk : List Key} {τ : List Sel} (he : Exact fk) (hτ : resolve fk ((Arr.transposed a axes).den m).shape = .ok τ) :
    ∃ rem σ, axesInverse axes fk = .ok rem ∧ Exact rem ∧ resolve rem (a.den m).shape = .ok σ := by
  by_contra hc
  have := transposedFull_ok m hwf he hτ (inner := fun _ => .error .type) (by
    intro rem σ h1 h2 h3
    exact absurd ⟨rem, σ, h1, h2, h3⟩ hc)
  obtain ⟨b, hb, _⟩ := this
  unfold transposedFull at hb
  obtain ⟨_, _, hb⟩ := bind_ok.mp hb
  cases hb

end Biggus

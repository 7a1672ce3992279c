import Verif.Proofs.GroupProdKeys
import Verif.Proofs.EvalClosed
/-
The keys of the chunks of a streamed array, as the dask engine uses them.
-/
namespace Biggus

variable {α V : Type}

/-! ### Fixing all dimensions but one -/

theorem cart_insertIdx {β : Type} : ∀ (N : List (List β)) (p : Nat) (r : List β) (x : β), p < N.length → r ∈ cart (N.eraseIdx p) → x ∈ N.getD p [] →
    r.insertIdx p x ∈ cart N
  | [], p, r, x, hp, _, _ => by simp at hp
  | c :: N, 0, r, x, _, hr, hx => by
    simp only [List.eraseIdx_cons_zero] at hr
    simp only [List.insertIdx_zero, cart, List.mem_flatMap, List.mem_map]
    exact ⟨x, by simpa using hx, r, hr, rfl⟩
  | c :: N, p + 1, r, x, hp, hr, hx => by
    simp only [List.eraseIdx_cons_succ, cart, List.mem_flatMap, List.mem_map] at hr
    obtain ⟨y, hy, r', hr', rfl⟩ := hr
    simp only [List.insertIdx_succ_cons, cart, List.mem_flatMap, List.mem_map]
    exact ⟨y, hy, _, cart_insertIdx N p r' x (by simpa using hp) hr' (by simpa using hx), rfl⟩

theorem cart_eraseIdx {β : Type} : ∀ (N : List (List β)) (p : Nat) (k : List β), k ∈ cart N → k.eraseIdx p ∈ cart (N.eraseIdx p)
  | [], p, k, hk => by
    simp only [cart, List.mem_singleton] at hk
    subst hk
    simp [cart]
  | c :: N, 0, k, hk => by
    simp only [cart, List.mem_flatMap, List.mem_map] at hk
    obtain ⟨x, _, k', hk', rfl⟩ := hk
    simpa using hk'
  | c :: N, p + 1, k, hk => by
    simp only [cart, List.mem_flatMap, List.mem_map] at hk
    obtain ⟨x, hx, k', hk', rfl⟩ := hk
    simp only [List.eraseIdx_cons_succ, cart, List.mem_flatMap, List.mem_map]
    exact ⟨x, hx, _, cart_eraseIdx N p k' hk', rfl⟩

theorem filter_eq_of_nodup {β : Type} : ∀ (l : List β) (x : β) (P : β → Bool), l.Nodup → x ∈ l → (∀ y ∈ l, P y = true ↔ y = x) → l.filter P = [x]
  | [], x, _, _, hx, _ => by cases hx
  | y :: l, x, P, hnd, hx, hP => by
    rw [List.nodup_cons] at hnd
    by_cases he : y = x
    · subst he
      rw [List.filter_cons, if_pos ((hP y List.mem_cons_self).mpr rfl)]
      congr 1
      apply List.filter_eq_nil_iff.mpr
      intro z hz h
      have := (hP z (List.mem_cons_of_mem _ hz)).mp h
      subst this
      exact hnd.1 hz
    · rw [List.filter_cons, if_neg (fun h => he ((hP y List.mem_cons_self).mp h))]
      rcases List.mem_cons.mp hx with rfl | hx
      · exact absurd rfl he
      · exact filter_eq_of_nodup l x P hnd.2 hx (fun y hy => hP y (List.mem_cons_of_mem _ hy))

/-- The choices that agree with `r` everywhere but at `p`. -/
theorem cart_filter {β : Type} [DecidableEq β] : ∀ (N : List (List β)) (p : Nat) (r : List β), (∀ c ∈ N, c.Nodup) → p < N.length →
    r ∈ cart (N.eraseIdx p) → (cart N).filter (fun k => decide (k.eraseIdx p = r)) = (N.getD p []).map (fun x => r.insertIdx p x)
  | [], p, r, _, hp, _ => by simp at hp
  | c :: N, 0, r, hnd, _, hr => by
    simp only [List.eraseIdx_cons_zero] at hr
    have hN := nodup_cart N (fun c hc => hnd c (List.mem_cons_of_mem _ hc))
    simp only [cart, List.filter_flatMap, List.filter_map, List.insertIdx_zero, List.getD_cons_zero]
    clear hnd
    induction c with
    | nil => rfl
    | cons x c ih =>
      rw [List.flatMap_cons, List.map_cons, ih (by simp), filter_eq_of_nodup (cart N) r _ hN hr (by
        intro y _
        exact ⟨fun h => of_decide_eq_true h, fun h => decide_eq_true h⟩)]
      rfl
  | c :: N, p + 1, r, hnd, hp, hr => by
    simp only [List.eraseIdx_cons_succ, cart, List.mem_flatMap, List.mem_map] at hr
    obtain ⟨y, hy, r', hr', rfl⟩ := hr
    have ih := cart_filter N p r' (fun c hc => hnd c (List.mem_cons_of_mem _ hc)) (by simpa using hp) hr'
    have hc := hnd c List.mem_cons_self
    have hsplit : ∀ (l : List β), l.Nodup → l.flatMap (fun x => ((cart N).map (x :: ·)).filter (fun k => decide (k.eraseIdx (p + 1) = y :: r'))) =
        if y ∈ l then (N.getD p []).map (fun x => y :: r'.insertIdx p x) else [] := by
      intro l
      induction l with
      | nil => intro _; simp
      | cons z l ihl =>
        intro hz
        rw [List.nodup_cons] at hz
        rw [List.flatMap_cons, ihl hz.2]
        by_cases hzy : z = y
        · subst hzy
          rw [if_neg hz.1, if_pos List.mem_cons_self, List.append_nil, List.filter_map]
          have : (fun k : List β => decide ((z :: k).eraseIdx (p + 1) = z :: r')) = fun k => decide (k.eraseIdx p = r') := by
            funext k
            simp
          rw [Function.comp_def, this, ih, List.map_map]
          rfl
        · have : ((cart N).map (z :: ·)).filter (fun k => decide (k.eraseIdx (p + 1) = y :: r')) = [] := by
            apply List.filter_eq_nil_iff.mpr
            intro k hk
            obtain ⟨k', _, rfl⟩ := List.mem_map.mp hk
            simp [hzy]
          rw [this, List.nil_append]
          by_cases hyl : y ∈ l
          · rw [if_pos hyl, if_pos (List.mem_cons_of_mem _ hyl)]
          · rw [if_neg hyl, if_neg (by simp [hyl, Ne.symm hzy])]
    simp only [cart, List.filter_flatMap]
    rw [hsplit c hc, if_pos hy]
    simp

/-- The chunks of one output region of an aggregation come in the order of the aggregated axis, whatever the iteration order. -/
theorem chunkKeysOf_filter {cuts : List (List Key)} {axis : Nat} {order : List Nat} {o : List Key} (hnd : ∀ c ∈ cuts, c.Nodup)
    (ha : axis < cuts.length) (hp : order.Perm (List.range cuts.length)) (ho : o ∈ cart (cuts.eraseIdx axis)) (hne : cuts.getD axis [] ≠ []) :
    (chunkKeysOf cuts order).filter (fun k => decide (k.eraseIdx axis = o)) = (cuts.getD axis []).map (fun c => o.insertIdx axis c) := by
  have hl := order_length hp
  have hol : o.length + 1 = cuts.length := by
    rw [cart_length ho, List.length_eraseIdx, if_pos ha]; omega
  set p := order.idxOf axis with hpdef
  have hpl : p < cuts.length := order_idxOf_lt hp axis ha
  set φ : Key → List Key := fun c => order.map (fun i => (o.insertIdx axis c).getD i Key.full) with hφ
  have hφl : ∀ c, (φ c).length = cuts.length := by intro c; simp [hφ, hl]
  have hinsl : ∀ c, (o.insertIdx axis c).length = cuts.length := by
    intro c; rw [List.length_insertIdx, if_pos (by omega)]; omega
  have hun : ∀ c, unperm order (φ c) = o.insertIdx axis c := fun c => perm_unperm hp _ (hinsl c)
  set r := (φ Key.full).eraseIdx p with hr
  have hφr : ∀ c, (φ c).eraseIdx p = r := by
    intro c
    rw [hr]
    apply List.ext_getElem?
    intro i
    rw [List.getElem?_eraseIdx, List.getElem?_eraseIdx]
    have key : ∀ j, j ≠ p → (φ c)[j]? = (φ Key.full)[j]? := by
      intro j hj
      by_cases hjl : j < order.length
      · simp only [hφ]
        rw [List.getElem?_map, List.getElem?_map, List.getElem?_eq_getElem hjl]
        simp only [Option.map_some, Option.some.injEq]
        have hne' : order[j] ≠ axis := by
          intro e
          apply hj
          rw [hpdef, ← e]
          exact ((order_nodup hp).idxOf_getElem j hjl).symm
        rw [List.getD_eq_getElem?_getD, List.getD_eq_getElem?_getD, List.getElem?_insertIdx, List.getElem?_insertIdx]
        split
        · rfl
        · rename_i h1
          simp
      · rw [List.getElem?_eq_none (by rw [hφl]; omega), List.getElem?_eq_none (by rw [hφl]; omega)]
    split
    · exact key i (by omega)
    · exact key (i + 1) (by omega)
  have hφp : ∀ c, (φ c).getD p Key.full = c := by
    intro c
    simp only [hφ]
    rw [getD_map' order _ _ _ 0 (by rw [hl]; exact hpl), hpdef, order_getD_idxOf hp axis ha, List.getD_eq_getElem?_getD,
      List.getElem?_insertIdx_self, if_pos (by omega)]
    rfl
  have hφi : ∀ c, φ c = r.insertIdx p c := by
    intro c
    have hlt : p < (φ c).length := by rw [hφl]; exact hpl
    have hc : (φ c)[p] = c := by
      have := hφp c
      rwa [List.getD_eq_getElem?_getD, List.getElem?_eq_getElem hlt] at this
    have := List.insertIdx_eraseIdx_getElem hlt
    rw [hφr c, hc] at this
    exact this.symm
  obtain ⟨c0, cr, hc0⟩ := List.exists_cons_of_ne_nil hne
  set M := order.map (fun i => cuts.getD i []) with hM
  have hMl : M.length = cuts.length := by simp [hM, hl]
  have hMp : M.getD p [] = cuts.getD axis [] := by
    rw [hM, getD_map' order _ _ _ 0 (by rw [hl]; exact hpl), hpdef, order_getD_idxOf hp axis ha]
  have hMnd : ∀ c ∈ M, c.Nodup := by
    intro c hc
    obtain ⟨i, _, rfl⟩ := List.mem_map.mp hc
    rw [List.getD_eq_getElem?_getD]
    cases h : cuts[i]? with
    | none => simp
    | some c => exact hnd c (List.mem_of_getElem? h)
  have hrm : r ∈ cart (M.eraseIdx p) := by
    rw [← hφr c0]
    apply cart_eraseIdx
    rw [mem_cart_perm hp cuts rfl]
    refine ⟨hφl c0, ?_⟩
    rw [hun]
    exact cart_insertIdx cuts axis o c0 ha ho (by rw [hc0]; simp)
  rw [chunkKeysOf_eq, List.filter_map]
  have hpred : (cart M).filter ((fun k => decide (k.eraseIdx axis = o)) ∘ unperm order) = (cart M).filter (fun k => decide (k.eraseIdx p = r)) := by
    apply List.filter_congr
    intro k hk
    have hkl := ((mem_cart_perm hp cuts rfl k).mp hk).1
    simp only [Function.comp]
    rw [decide_eq_decide]
    constructor
    · intro h
      have hul : axis < (unperm order k).length := by rw [unperm_length, hl]; exact ha
      have hu : unperm order k = o.insertIdx axis ((unperm order k)[axis]) := by
        rw [← h, List.insertIdx_eraseIdx_getElem hul]
      have : k = φ ((unperm order k)[axis]) := by
        simp only [hφ]
        rw [← hu, unperm_perm hp k hkl]
      rw [this, hφr]
    · intro h
      have hkp : p < k.length := by omega
      have : k = φ k[p] := by
        rw [hφi, ← h, List.insertIdx_eraseIdx_getElem hkp]
      rw [this, hun, List.eraseIdx_insertIdx_self]
  rw [hpred, cart_filter M p r hMnd (by omega) hrm, hMp, List.map_map]
  apply List.map_congr_left
  intro c _
  simp only [Function.comp]
  rw [← hφi, hun]

/-! ### Slices -/

/-- The slice of a key that is a slice. -/
def keySlice : Key → PySlice
  | .slice s => s
  | _ => PySlice.full

/-- The slices into which one dimension is cut. -/
structure DimCut (n : Nat) (c : List PySlice) : Prop where
  fine : ∀ s ∈ c, KeyFine n s
  spec : DimSpec n (c.map (fun s => normalizeSlice s n))

/-- The slices into which an array is cut. -/
def Skel.slices (limit : Nat) (sk : Skel) : List (List PySlice) := (sk.cuts limit).map (fun c => c.map keySlice)

theorem normalizeSlice_span {n a b : Nat} : normalizeSlice ⟨some (a : Int), some (b : Int), none⟩ n = nslice n (a, b) := by
  unfold normalizeSlice nslice pyOr
  have ha : ¬ ((a : Int) < 0) := by omega
  have hb : ¬ ((b : Int) < 0) := by omega
  by_cases h : a = 0 <;> by_cases h2 : b = n <;> simp [h, h2, ha, hb]

theorem span_proper {n a b : Nat} (hab : a < b) (hb : b ≤ n) : Proper n ⟨some (a : Int), some (b : Int), none⟩ := by
  refine ⟨.inl rfl, ?_, ?_, ?_⟩
  · intro x hx
    cases hx
    omega
  · intro x hx
    cases hx
    omega
  · rw [sel_one rfl]
    have h1 : loB n (some (a : Int)) = a := by
      unfold loB clampIdx
      simp only
      split_ifs <;> omega
    have h2 : hiB n (some (b : Int)) = b := by
      unfold hiB clampIdx
      simp only
      split_ifs <;> omega
    rw [h1, h2, pyRange_posl]
    unfold posl
    intro h
    have := congrArg List.length h
    simp at this
    omega

theorem full_proper {n : Nat} (hn : 0 < n) : Proper n PySlice.full := by
  refine ⟨.inl rfl, (fun x hx => by cases hx), (fun x hx => by cases hx), ?_⟩
  unfold PySlice.full
  rw [sel_one rfl]
  have h1 : loB n none = (0 : Nat) := rfl
  have h2 : hiB n none = n := rfl
  rw [h1, h2, pyRange_posl]
  unfold posl
  intro h
  have := congrArg List.length h
  simp at this
  omega

theorem normalizeSlice_full (n : Nat) : normalizeSlice PySlice.full n = PySlice.full := by
  have hb : ¬ ((n : Int) < 0) := by omega
  simp [normalizeSlice, PySlice.full, pyOr, hb]

theorem contig_steps {n step : Nat} (hs : 0 < step) : ∀ (m j : Nat), (∀ k, k < j + m → k * step < n) → n ≤ (j + m) * step →
    Contig n (min (j * step) n) ((List.range' j m).map (fun k => (k * step, min (k * step + step) n)))
  | 0, j, _, h2 => by
    show min (j * step) n = n
    rw [Nat.add_zero] at h2
    omega
  | m + 1, j, h1, h2 => by
    rw [List.range'_succ, List.map_cons]
    have hj := h1 j (by omega)
    have ih := contig_steps hs m (j + 1) (fun k hk => h1 k (by omega)) (by rw [show j + 1 + m = j + (m + 1) by omega]; exact h2)
    rw [Nat.succ_mul] at ih
    refine ⟨by omega, ?_, ?_, ih⟩
    · simp only; omega
    · simp only; omega

theorem dimCut_steps {n step m : Nat} (hs : 0 < step) (h1 : ∀ k, k < m → k * step < n) (h2 : n ≤ m * step) (hn : 0 < n) :
    DimCut n ((List.range m).map (fun k => keySlice (Key.span (k * step) (min (k * step + step) n)))) := by
  constructor
  · intro s hsm
    obtain ⟨k, hk, rfl⟩ := List.mem_map.mp hsm
    have := h1 k (List.mem_range.mp hk)
    exact ⟨fun h => by omega, fun _ => span_proper (by omega) (by omega)⟩
  · refine ⟨fun h => by omega, fun _ => ⟨(List.range' 0 m).map (fun k => (k * step, min (k * step + step) n)), ?_, ?_⟩⟩
    · have := contig_steps hs m 0 (fun k hk => h1 k (by omega)) (by rw [Nat.zero_add]; exact h2)
      simpa using this
    · rw [List.map_map, List.map_map, List.range_eq_range']
      apply List.map_congr_left
      intro k _
      exact normalizeSlice_span

theorem dimCut_full (n : Nat) : DimCut n [PySlice.full] := by
  constructor
  · intro s hs
    rw [List.mem_singleton] at hs
    subst hs
    exact ⟨fun _ => rfl, fun h => full_proper h⟩
  · refine ⟨fun _ => by simp [normalizeSlice_full], fun h => ⟨[(0, n)], ⟨rfl, h, le_refl _, rfl⟩, ?_⟩⟩
    rw [List.map_cons, List.map_nil, normalizeSlice_full]
    simp [nslice, PySlice.full]

theorem dimSlices_dimCut (limit m n : Nat) : DimCut n ((dimSlices limit true m n).map keySlice) := by
  rcases dimSlices_cases limit true m n with ⟨_, h⟩ | ⟨_, hn, h⟩ | ⟨h1, h2, h3, h⟩
  · rw [h]; exact dimCut_full n
  · rw [h, List.map_map]
    have := dimCut_steps (n := n) (step := 1) (m := n) (by omega) (fun k hk => by omega) (by omega) hn
    have he : (List.range n).map (fun k => keySlice (Key.span (k * 1) (min (k * 1 + 1) n))) =
        (List.range n).map (keySlice ∘ fun i => if true = true then Key.span i (i + 1) else Key.int (i : Nat)) := by
      apply List.map_congr_left
      intro k hk
      have := List.mem_range.mp hk
      simp only [Function.comp, if_true, Nat.mul_one]
      rw [Nat.min_eq_left (by omega)]
    rwa [he] at this
  · rw [h, List.map_map]
    have hs : 0 < limit / m := Nat.div_pos h1 h3
    have hn : 0 < n := by
      rcases Nat.eq_zero_or_pos n with h | h
      · subst h; simp at h2
      · exact h
    apply dimCut_steps hs (fun k hk => step_lt n _ k hs hk) _ hn
    have := Nat.lt_div_mul_add (a := n + limit / m - 1) hs
    omega

theorem prod_slices (limit : Nat) : ∀ (s : List Nat), List.Forall₂ DimCut s ((allSlicesInner limit true s).map (fun c => c.map keySlice))
  | [] => .nil
  | n :: ns => by
    rw [allSlices_cons, List.map_cons]
    exact .cons (dimSlices_dimCut _ _ _) (prod_slices limit ns)

theorem forall₂_eraseIdx' {β γ : Type} {R : β → γ → Prop} {l : List β} {l' : List γ} (h : List.Forall₂ R l l') (i : Nat) :
    List.Forall₂ R (l.eraseIdx i) (l'.eraseIdx i) := by
  induction h generalizing i with
  | nil => exact .nil
  | cons hr ht ih =>
    cases i with
    | zero => exact ht
    | succ i => exact .cons hr (ih i)

theorem Skel.slices_ok (limit : Nat) : ∀ (sk : Skel), sk.WF → List.Forall₂ DimCut sk.shape (sk.slices limit)
  | .prod s, _ => prod_slices limit s
  | .agg s axis, h => by
    have ih := Skel.slices_ok limit s h.1
    show List.Forall₂ DimCut (s.shape.eraseIdx axis) (((s.cuts limit).eraseIdx axis).map _)
    rw [← List.eraseIdx_map]
    exact forall₂_eraseIdx' ih axis

end Biggus

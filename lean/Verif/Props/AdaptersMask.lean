import Verif.Props.Adapters
import Verif.Proofs.Iter
/-
C05 after any keys that contain boolean masks: a dimension from which a mask has selected cannot be indexed with an integer any more.
-/
namespace Biggus

open Spec

variable {α V : Type} [Inhabited α] [Inhabited V]

theorem pyGetSlice_full {β : Type} (l : List β) : ∃ r, pyGetSlice l PySlice.full = .ok r := by
  obtain ⟨w, hw, _⟩ := range_full l.length
  unfold pyGetSlice
  rw [hw]
  exact ⟨_, rfl⟩

theorem adapterLoop_mask (l : List Bool) (rest : List Key) (i : Int) (q : Nat) : ∀ (pre : List Key) {sh s : List Nat} {tl : List Key},
    (∀ k ∈ pre, k.storable = true) → slicedShapeLoop (pre ++ tl) sh = .ok s →
    adapterLoop (pre ++ .barr l :: rest) sh (oneInt (pre.countP fun k => !k.isScalar) i q) = .error (if inRange i l.length then .type else .index) := by
  intro pre
  induction pre with
  | nil =>
    intro sh s tl _ _
    simp only [List.nil_append, List.countP_nil, oneInt_zero, adapterLoop, remapBool, bind, Except.bind]
    by_cases h : inRange i l.length = true <;> simp [h]
  | cons k pre ih =>
    intro sh s tl hst hs
    have hst' : ∀ k ∈ pre, k.storable = true := fun k hk => hst k (List.mem_cons_of_mem _ hk)
    cases k with
    | int j =>
      simp only [List.cons_append, slicedShapeLoop] at hs
      have h := ih hst' hs
      rw [List.countP_cons_of_neg (by simp [Key.isScalar])]
      cases hk : oneInt (pre.countP fun k => !k.isScalar) i q with
      | nil => have := oneInt_length (pre.countP fun k => !k.isScalar) i q; rw [hk] at this; simp at this
      | cons k ks =>
        rw [hk] at h
        simp only [List.cons_append, adapterLoop, h, bind, Except.bind]
    | slice sl =>
      rw [List.countP_cons_of_pos (by simp [Key.isScalar]), oneInt_succ]
      cases sh with
      | nil => simp [slicedShapeLoop] at hs
      | cons n sh =>
        simp only [List.cons_append, slicedShapeLoop] at hs
        obtain ⟨ind, h1, hs⟩ := bind_ok.mp hs
        obtain ⟨s', h2, _⟩ := bind_ok.mp hs
        obtain ⟨r, hr⟩ := pyGetSlice_full ind
        simp only [List.cons_append, adapterLoop, List.headD_cons, h1, Key.full, remapKey, hr, bind, Except.bind, pure, Except.pure, List.tail_cons, ih hst' h2]
    | tuple t =>
      rw [List.countP_cons_of_pos (by simp [Key.isScalar]), oneInt_succ]
      simp only [List.cons_append, slicedShapeLoop] at hs
      obtain ⟨s', h2, _⟩ := bind_ok.mp hs
      obtain ⟨r, hr⟩ := pyGetSlice_full t
      simp only [List.cons_append, adapterLoop, Key.full, remapKey, hr, bind, Except.bind, pure, Except.pure, ih hst' h2]
    | barr t =>
      rw [List.countP_cons_of_pos (by simp [Key.isScalar]), oneInt_succ]
      simp only [List.cons_append, slicedShapeLoop] at hs
      obtain ⟨s', h2, _⟩ := bind_ok.mp hs
      obtain ⟨r, hr⟩ := pyGetSlice_full t
      simp only [List.cons_append, adapterLoop, Key.full, remapBool, hr, bind, Except.bind, pure, Except.pure, ih hst' h2]
    | _ => have := hst _ List.mem_cons_self; simp [Key.storable] at this

/-- C05 after any keys with a boolean mask `l` among them, for the dimension this mask has selected from: it is dimension `p`, `p` being the number of previous keys before the mask
which are not integers.  `array[:, ..., :, i]` with an integer `i` at this dimension and full slices elsewhere never succeeds; it raises `TypeError` if `i` is in range for the
mask (of as many elements as the mask has) and `IndexError` otherwise. -/
theorem C05_integer_where_a_mask_was (o : Bool) (c : Concrete α) (pre : List Key) (l : List Bool) (rest : List Key) (x : NDA (Option α))
    (hst : ∀ k ∈ pre ++ rest, k.storable = true) (hx : npIndex c.data (pre ++ .barr l :: rest) = .ok x) (i : Int) (p : Nat)
    (hp : p = (pre.filter fun k => !k.isScalar).length) (keys : List Key)
    (hk : expandKeys keys x.shape.length = .ok (List.replicate p Key.full ++ .int i :: List.replicate (x.shape.length - p - 1) Key.full)) :
    (Arr.adapter o c (pre ++ .barr l :: rest)).getitem keys = if -(l.length : Int) ≤ i ∧ i < l.length then .error .type else .error .index := by
  let m : Mode α (Option α) := ⟨fun _ x => x, fun _ x => x, some, fun _ x => x, fun _ x => x, fun _ => ⟨Unit, (), fun _ _ => (), fun _ _ => none, none⟩,
    fun _ => none, fun _ => none⟩
  have hwf : (Arr.adapter o c (pre ++ .barr l :: rest)).WF := by
    refine ⟨fun k hk => ?_, x, hx⟩
    rcases List.mem_append.mp hk with hk | hk
    · exact hst k (List.mem_append_left _ hk)
    · rcases List.mem_cons.mp hk with rfl | hk
      · rfl
      · exact hst k (List.mem_append_right _ hk)
  have hden : (Arr.adapter o c (pre ++ .barr l :: rest)).den m = x := den_adapter m o c _ x hx
  have hsh : slicedShape c.data.shape (pre ++ .barr l :: rest) = .ok x.shape := by
    have := hwf.shape_eq m
    rw [hden] at this
    exact this
  have hfull : ∃ tl, slicedShapeLoop (pre ++ tl) c.data.shape = .ok x.shape := by
    have h := hsh
    unfold slicedShape at h
    obtain ⟨fk, h1, h2⟩ := bind_ok.mp h
    have hex : Exact (pre ++ .barr l :: rest) := fun k hk => storable_exact (hwf.1 k hk)
    obtain ⟨fk', σ, q1, _, _⟩ := npIndex_ok_iff.mp hx
    rw [fullKeys_of_expandKeys _ _ _ q1] at h1
    cases h1
    rw [expandKeys_noEllipsis _ _ (List.any_eq_false.mpr fun k hk => by rw [(hex k hk).2]; decide)] at q1
    split at q1
    · cases q1
      exact ⟨_, by rw [List.append_assoc] at h2; exact h2⟩
    · cases q1
  obtain ⟨tl, htl⟩ := hfull
  have he := oneInt_exact p i (x.shape.length - p - 1)
  rw [Arr.getitem, arrayGetitem_exact hsh hk he]
  have h := adapterLoop_mask l rest i (x.shape.length - p - 1) pre (fun k hk => hst k (List.mem_append_left _ hk)) htl
  rw [List.countP_eq_length_filter, ← hp] at h
  unfold oneInt at h
  unfold adapterFull
  rw [h]
  by_cases h : -(l.length : Int) ≤ i ∧ i < l.length
  · have : inRange i l.length = true := by simpa [inRange] using h
    simp [this, h, bind, Except.bind]
  · have : inRange i l.length = false := by
      rw [Bool.eq_false_iff]; intro hh; exact h (by simpa [inRange] using hh)
    simp [this, h, bind, Except.bind]

theorem adapterLoop_mask_never (l : List Bool) (rest : List Key) (i : Int) : ∀ (pre : List Key) {sh : List Nat} {ks : List Key},
    (∀ k ∈ pre, k.storable = true) → ks[pre.countP fun k => !k.isScalar]? = some (.int i) →
    ∀ r, adapterLoop (pre ++ .barr l :: rest) sh ks ≠ .ok r := by
  intro pre
  induction pre with
  | nil =>
    intro sh ks _ hk r h
    cases ks with
    | nil => simp at hk
    | cons k ks =>
      simp only [List.countP_nil, List.getElem?_cons_zero, Option.some.injEq] at hk
      subst hk
      simp only [List.nil_append, adapterLoop, remapBool] at h
      obtain ⟨k', h1, _⟩ := bind_ok.mp h
      split at h1 <;> cases h1
  | cons k pre ih =>
    intro sh ks hst hk r h
    have hst' : ∀ k ∈ pre, k.storable = true := fun k hk => hst k (List.mem_cons_of_mem _ hk)
    cases ks with
    | nil => simp at hk
    | cons k0 ks =>
      cases k with
      | int j =>
        rw [List.countP_cons_of_neg (by simp [Key.isScalar])] at hk
        simp only [List.cons_append, adapterLoop] at h
        obtain ⟨r', h1, _⟩ := bind_ok.mp h
        exact ih hst' hk _ h1
      | slice sl =>
        rw [List.countP_cons_of_pos (by simp [Key.isScalar]), List.getElem?_cons_succ] at hk
        simp only [List.cons_append, adapterLoop] at h
        obtain ⟨_, _, h⟩ := bind_ok.mp h
        obtain ⟨_, _, h⟩ := bind_ok.mp h
        obtain ⟨r', h1, _⟩ := bind_ok.mp h
        exact ih hst' hk _ h1
      | tuple t =>
        rw [List.countP_cons_of_pos (by simp [Key.isScalar]), List.getElem?_cons_succ] at hk
        simp only [List.cons_append, adapterLoop] at h
        obtain ⟨_, _, h⟩ := bind_ok.mp h
        obtain ⟨r', h1, _⟩ := bind_ok.mp h
        exact ih hst' hk _ h1
      | barr t =>
        rw [List.countP_cons_of_pos (by simp [Key.isScalar]), List.getElem?_cons_succ] at hk
        simp only [List.cons_append, adapterLoop] at h
        obtain ⟨_, _, h⟩ := bind_ok.mp h
        obtain ⟨r', h1, _⟩ := bind_ok.mp h
        exact ih hst' hk _ h1
      | _ => have := hst _ List.mem_cons_self; simp [Key.storable] at this

/-- The same whatever the other keys are (without `newaxis`): `fk` is what the keys are once `...` is expanded. -/
theorem C05_integer_where_a_mask_was_any_keys (o : Bool) (c : Concrete α) (pre : List Key) (l : List Bool) (rest : List Key) (x : NDA (Option α))
    (hst : ∀ k ∈ pre ++ rest, k.storable = true) (hx : npIndex c.data (pre ++ .barr l :: rest) = .ok x) (i : Int) (keys fk : List Key)
    (hk : expandKeys keys x.shape.length = .ok fk) (hn : Key.newaxis ∉ fk)
    (hi : fk[(pre.filter fun k => !k.isScalar).length]? = some (.int i)) :
    ∃ e, (Arr.adapter o c (pre ++ .barr l :: rest)).getitem keys = .error e := by
  let m : Mode α (Option α) := ⟨fun _ x => x, fun _ x => x, some, fun _ x => x, fun _ x => x, fun _ => ⟨Unit, (), fun _ _ => (), fun _ _ => none, none⟩,
    fun _ => none, fun _ => none⟩
  have hwf : (Arr.adapter o c (pre ++ .barr l :: rest)).WF := by
    refine ⟨fun k hk => ?_, x, hx⟩
    rcases List.mem_append.mp hk with hk | hk
    · exact hst k (List.mem_append_left _ hk)
    · rcases List.mem_cons.mp hk with rfl | hk
      · rfl
      · exact hst k (List.mem_append_right _ hk)
  have hden : (Arr.adapter o c (pre ++ .barr l :: rest)).den m = x := den_adapter m o c _ x hx
  have hsh : slicedShape c.data.shape (pre ++ .barr l :: rest) = .ok x.shape := by
    have := hwf.shape_eq m
    rw [hden] at this
    exact this
  cases hg : (Arr.adapter o c (pre ++ .barr l :: rest)).getitem keys with
  | error e => exact ⟨e, rfl⟩
  | ok b =>
    exfalso
    have hex : Exact fk := fun k hk' => ⟨by cases k <;> first | rfl | exact absurd hk' hn, (expandKeys_spec hk).1 k hk'⟩
    rw [Arr.getitem, arrayGetitem_exact hsh hk hex] at hg
    unfold adapterFull at hg
    obtain ⟨r, h1, _⟩ := bind_ok.mp hg
    rw [← List.countP_eq_length_filter] at hi
    exact adapterLoop_mask_never l rest i pre (fun k hk => hst k (List.mem_append_left _ hk)) hi r h1

/-- The hypotheses are met by a source of shape (2, 3, 4) indexed with `[1:, 2, [True, False, True, True]]` and then with `[:, i]` or `[..., i]`: two dimensions are left, the second of which,
of length 3, is the mask's. -/
example : (npIndex exSource.data [.slice ⟨some 1, none, none⟩, .int 2, .barr [true, false, true, true]]).map (fun x => x.shape) = .ok [1, 3] ∧
    expandKeys [.ellipsis, .int 2] 2 = .ok (List.replicate 1 Key.full ++ .int 2 :: List.replicate 0 Key.full) ∧
    ((Arr.adapter true exSource [.slice ⟨some 1, none, none⟩, .int 2, .barr [true, false, true, true]]).getitem [.ellipsis, .int 2] >>= Arr.shape) = .error .type ∧
    ((Arr.adapter true exSource [.slice ⟨some 1, none, none⟩, .int 2, .barr [true, false, true, true]]).getitem [.full, .int 3] >>= Arr.shape) = .error .type ∧
    ((Arr.adapter true exSource [.slice ⟨some 1, none, none⟩, .int 2, .barr [true, false, true, true]]).getitem [.full, .int (-5)] >>= Arr.shape) = .error .index ∧
    ((Arr.adapter true exSource [.slice ⟨some 1, none, none⟩, .int 2, .barr [true, false, true, true]]).getitem [.tuple [0, 0], .int 1] >>= Arr.shape) = .error .type ∧
    ((Arr.adapter true exSource [.slice ⟨some 1, none, none⟩, .int 2, .barr [true, false, true, true]]).getitem [.int 0] >>= Arr.shape) = .ok [3] := by
  refine ⟨by decide +kernel, by decide +kernel, by decide +kernel, by decide +kernel, by decide +kernel, by decide +kernel, by decide +kernel⟩

end Biggus

import Verif.Proofs.Adapters
/-
C03, C04, C05: adapters over a data source.

`m.leaf c.fill` is how an element of the source `c` is seen by `ndarray()` (masked elements become the fill value) or by
`masked_array()` (unchanged).
-/
namespace Biggus
open Spec

variable {α V : Type} [Inhabited α] [Inhabited V]

/-- An adapter without stored keys is well formed. -/
theorem fresh_adapter_WF (o : Bool) (c : Concrete α) : (Arr.adapter o c []).WF := by
  refine ⟨by simp, ?_⟩
  obtain ⟨σ, hσ⟩ := resolve_full_exists c.data.shape
  exact ⟨_, npIndex_ok_iff.mpr ⟨List.replicate c.data.shape.length Key.full, σ, by simp [expandKeys, nConsuming], hσ, rfl⟩⟩

/-- Indexing history of an adapter: what is known after the keys `kss`. -/
theorem adapter_history (m : Mode α V) (o : Bool) (c : Concrete α) (kss : List (List Key)) :
    ∀ (stored : List Key) (x r : NDA V), (Arr.adapter o c stored).WF → (∀ k ∈ stored, ∀ l, k ≠ .barr l) →
    stored.length = c.data.shape.length → (Arr.adapter o c stored).den m ≈ₐ x →
    (∀ ks ∈ kss, Key.newaxis ∉ ks) → indexAll x kss = .ok r →
    ∃ keys, kss.foldlM (fun a ks => Arr.getitem a ks) (.adapter o c stored) = .ok (.adapter o c keys) ∧
      (Arr.adapter o c keys).WF ∧ (Arr.adapter o c keys).den m ≈ₐ r ∧ (∀ k ∈ keys, ∀ l, k ≠ .barr l) ∧
      (kss = [] ∧ keys = stored ∨ allIntTuple keys) := by
  induction kss with
  | nil =>
    intro stored x r hwf hb hl hx _ hr
    cases hr
    exact ⟨stored, rfl, hwf, hx, hb, Or.inl ⟨rfl, rfl⟩⟩
  | cons ks kss ih =>
    intro stored x r hwf hb hl hx hn hr
    unfold indexAll at hr
    rw [List.foldlM_cons] at hr
    obtain ⟨y, hy, hr⟩ := bind_ok.mp hr
    obtain ⟨y', hy', hyy⟩ := npIndex_congr hx.symm hy
    obtain ⟨fk, keys, hf, hex, hloop, hget, hwf', hden⟩ := adapter_getitem_form m hwf hb (hn ks List.mem_cons_self) rfl hy'
    obtain ⟨hst, r0, hr0⟩ := hwf
    obtain ⟨fk0, σ, h1, h2, rfl⟩ := npIndex_ok_iff.mp hr0
    have hfk0 := expandKeys_storable hst h1
    rw [hl, Nat.sub_self, List.replicate_zero, List.append_nil] at hfk0
    subst hfk0
    have hlen : fk.length = (selShape σ).length := by
      rw [den_adapter m o c _ _ hr0] at hf
      have h' : nConsuming fk = (selShape σ).length := (expandKeys_spec hf).2
      have : nConsuming fk = fk.length := by
        unfold nConsuming
        rw [List.filter_eq_self.mpr]
        intro k hk; simp [(hex k hk).1]
      omega
    have hit := adapterLoop_intTuple _ _ fk keys σ (fun k hk => ⟨hst k hk, hb k hk⟩) h2 hlen hloop
    obtain ⟨fk', τ, q1, q2, q3⟩ := npIndex_ok_iff.mp hy'
    rw [hf] at q1
    cases q1
    rw [den_adapter m o c _ _ hr0] at q2
    obtain ⟨ks1, ρ, ha, hs1, hc, _⟩ := adapterLoop_ok 0 (fun k hk => ⟨hst k hk, hb k hk⟩) hex (by simpa using h2) q2
    rw [hloop] at ha
    cases ha
    have hkl : keys.length = c.data.shape.length := (resolve_length (storable_Exact hs1) hc).1
    obtain ⟨keys', g1, g2, g3, g4, g5⟩ := ih keys y r hwf' hit.no_barr hkl (hden.trans hyy.symm)
      (fun ks hks => hn ks (List.mem_cons_of_mem _ hks)) hr
    refine ⟨keys', ?_, g2, g3, g4, Or.inr ?_⟩
    · rw [List.foldlM_cons, hget]; exact g1
    · rcases g5 with ⟨_, rfl⟩ | g5
      · exact hit
      · exact g5

/-- Auxiliary: the fresh adapter stands for the data. -/
theorem fresh_adapter_den (m : Mode α V) (o : Bool) (c : Concrete α) :
    (Arr.adapter o c []).den m ≈ₐ c.data.map (m.leaf c.fill) := by
  obtain ⟨_, r, hr⟩ := fresh_adapter_WF o c
  rw [den_adapter m o c [] r hr]
  obtain ⟨fk, σ, h1, h2, rfl⟩ := npIndex_ok_iff.mp hr
  have : fk = List.replicate c.data.shape.length Key.full := by
    have := expandKeys_storable (by simp) h1
    simpa using this
  subst this
  obtain ⟨h3, h4⟩ := resolve_full h2
  refine ⟨h3, fun idx hi => ?_⟩
  simp only [NDA.map, NDA.ortho]
  rw [h4 idx (by rw [← h3]; exact hi)]

theorem indexAll_map {β γ : Type} (f : β → γ) (kss : List (List Key)) : ∀ (x r : NDA β), indexAll x kss = .ok r →
    indexAll (x.map f) kss = .ok (r.map f) := by
  induction kss with
  | nil => intro x r h; cases h; rfl
  | cons ks kss ih =>
    intro x r h
    unfold indexAll at h ⊢
    rw [List.foldlM_cons] at h ⊢
    obtain ⟨y, hy, h⟩ := bind_ok.mp h
    rw [npIndex_map, hy]
    exact ih y r h

/-- The keys select more than a single element. -/
theorem zeroDimSafe_of {m : Mode α V} {o : Bool} {c : Concrete α} {keys : List Key} {x : NDA V} (hwf : (Arr.adapter o c keys).WF)
    (hden : (Arr.adapter o c keys).den m ≈ₐ x) (h : x.shape ≠ [] ∨ m.sourceSafe c) : m.zeroDimSafe c keys := by
  refine h.imp_left (fun h h' => h ?_)
  have := hwf.shape_eq m
  rw [show (Arr.adapter o c keys).shape = slicedShape c.data.shape keys from rfl, h'] at this
  injection this with this
  rw [← hden.1, ← this]

/-- C03.  `A[k1][k2]...[kn]` on a fresh adapter over the source `c`: if NumPy's orthogonal indexing of the data by the
same keys one after the other gives `r`, then every step succeeds and the result of all steps evaluates to `r` - for
sources that index orthogonally, and for NumPy sources if nothing, or at least two times, has been indexed, or if the
keys can be read orthogonally (`takeSafe`, see C04).  `newaxis` is C08; the first key must not be a boolean mask if
more keys follow (see `C03_stored_mask_wrong`); a single, masked element is not read as the fill value
(`C03_masked_scalar_wrong`). -/
theorem C03_repeated_indexing_partial (m : Mode α V) (limit : Nat) (o : Bool) (c : Concrete α) (kss : List (List Key))
    (r : NDA (Option α)) (hn : ∀ ks ∈ kss, Key.newaxis ∉ ks) (hb : 2 ≤ kss.length → ∀ l, Key.barr l ∉ kss.headD [])
    (hr : indexAll c.data kss = .ok r) (hz : r.shape ≠ [] ∨ m.sourceSafe c) :
    ∃ keys, kss.foldlM (fun a ks => Arr.getitem a ks) (.adapter o c []) = .ok (.adapter o c keys) ∧
      (Arr.adapter o c keys).shape = .ok r.shape ∧
      (o = true ∨ kss.length ≠ 1 ∨ takeSafe keys → (Arr.adapter o c keys).Returns m limit (r.map (m.leaf c.fill))) := by
  have hret : ∀ keys, (Arr.adapter o c keys).WF → (Arr.adapter o c keys).den m ≈ₐ r.map (m.leaf c.fill) →
      (o = false → takeSafe keys) → (Arr.adapter o c keys).Returns m limit (r.map (m.leaf c.fill)) := by
    intro keys hwf hden hs
    refine (returns_den hwf ?_).congr hden
    exact ⟨zeroDimSafe_of hwf hden hz, fun h => absurd rfl h, fun ho => ⟨hs ho, fun h => by cases h⟩⟩
  have hshp : ∀ keys, (Arr.adapter o c keys).WF → (Arr.adapter o c keys).den m ≈ₐ r.map (m.leaf c.fill) →
      (Arr.adapter o c keys).shape = .ok r.shape := by
    intro keys hwf hden
    rw [hwf.shape_eq m, hden.1]; rfl
  have hr' := indexAll_map (m.leaf c.fill) kss _ _ hr
  cases kss with
  | nil =>
    cases hr
    exact ⟨[], rfl, hshp _ (fresh_adapter_WF o c) (fresh_adapter_den m o c), fun _ =>
      hret _ (fresh_adapter_WF o c) (fresh_adapter_den m o c) (fun _ => allIntTuple_nil.takeSafe)⟩
  | cons ks kss =>
    unfold indexAll at hr'
    rw [List.foldlM_cons] at hr'
    obtain ⟨y, hy, hr'⟩ := bind_ok.mp hr'
    obtain ⟨y', hy', hyy⟩ := npIndex_congr (fresh_adapter_den m o c).symm hy
    obtain ⟨fk, keys, hf, hex, hloop, hget, hwf', hden⟩ := adapter_getitem_form m (fresh_adapter_WF o c) (by simp)
      (hn ks List.mem_cons_self) rfl hy'
    have hl : fk.length = c.data.shape.length := by
      obtain ⟨fk', σ, q1, q2, q3⟩ := npIndex_ok_iff.mp hy'
      rw [hf] at q1; cases q1
      rw [(fresh_adapter_den m o c).1] at q2
      exact (resolve_length hex q2).1
    unfold adapterLoop at hloop
    obtain ⟨hkl, hkb⟩ := cleanup_form hl hloop
    by_cases hk : kss = []
    · subst hk
      cases hr'
      refine ⟨keys, by rw [List.foldlM_cons, hget]; rfl, hshp _ hwf' (hden.trans hyy.symm), fun h => ?_⟩
      refine hret _ hwf' (hden.trans hyy.symm) (fun ho => ?_)
      rcases h with h | h | h
      · rw [h] at ho; cases ho
      · simp at h
      · exact h
    · have hks : 2 ≤ (ks :: kss).length := by
        have := List.length_pos_iff.mpr hk
        simp only [List.length_cons]; omega
      have hnb : ∀ l, Key.barr l ∉ fk := by
        intro l hmem
        rcases expandKeys_mem ks fk _ hf _ hmem with h | h
        · exact hb hks l h
        · simp [Key.full] at h
      obtain ⟨keys', g1, g2, g3, g4, g5⟩ := adapter_history m o c kss keys y _ hwf' (hkb hnb) hkl
        (hden.trans hyy.symm) (fun ks hks => hn ks (List.mem_cons_of_mem _ hks)) hr'
      refine ⟨keys', by rw [List.foldlM_cons, hget]; exact g1, hshp _ g2 g3, fun _ => hret _ g2 g3 (fun _ => ?_)⟩
      rcases g5 with ⟨h, _⟩ | h
      · exact absurd h hk
      · exact h.takeSafe

/-- A 3-dimensional source (2, 3, 4) whose element `[i, j, k]` is `12 i + 4 j + k`. -/
def exSource : Concrete ℚ := ⟨⟨[2, 3, 4], fun idx => some (flatIndex [2, 3, 4] idx : Nat)⟩, 0, 0⟩

/-- Exact arithmetic, identity casts; for examples. -/
def exMode : Mode ℚ ℚ := ndMode id (fun _ x => x)

/-- What an evaluation gives, in a form that can be compared. -/
def Res.view {β : Type} (r : Res (NDA β)) : Res (List Nat × List β) := r.map (fun x => (x.shape, x.toList))

/-- The hypotheses of C03 are met by a non-trivial history, which gives the expected elements. -/
example : (2 ≤ 3 → ∀ l, Key.barr l ∉ [Key.slice ⟨none, none, some (-1)⟩, .ellipsis, .list [3, 0, 1]]) ∧
    Res.view (indexAll exSource.data [[.slice ⟨none, none, some (-1)⟩, .ellipsis, .list [3, 0, 1]], [.int (-1)],
      [.barr [false, true], .tuple [0, 0]]]) = .ok ([1, 2], [some 7, some 7]) ∧
    Res.view (([[.slice ⟨none, none, some (-1)⟩, .ellipsis, .list [3, 0, 1]], [.int (-1)],
      [.barr [false, true], .tuple [0, 0]]].foldlM (fun a ks => Arr.getitem a ks) (.adapter false exSource [])) >>=
        fun a => a.eval exMode 100 5) = .ok ([1, 2], [7, 7]) := by
  refine ⟨by simp, by decide +kernel, by decide +kernel⟩

/-- C03 fails of the code for a stored boolean mask: `A[mask][0:1]` slices the mask itself, so that the result (shape and
data) is wrong - here it is empty instead of the first selected element. -/
theorem C03_stored_mask_wrong :
    ∃ (c : Concrete ℚ) (k1 k2 : List Key), Res.view (indexAll c.data [k1, k2]) = .ok ([1], [some 1]) ∧
      Res.view (do
        let a1 ← (Arr.adapter true c []).getitem k1
        let a2 ← a1.getitem k2
        a2.eval exMode 100 1) = .ok ([0], []) :=
  ⟨⟨⟨[4], fun idx => some (idx.headD 0 : Nat)⟩, 0, 0⟩, [.barr [false, true, false, true]],
    [.slice ⟨some 0, some 1, none⟩], by decide +kernel, by decide +kernel⟩

/-- C03 and C06 fail of the code for `ndarray()` of a single masked element: it is read as 0, whereas the same element is
read as the fill value together with others, so that `A[1].ndarray()` is not `A.ndarray()[1]`. -/
theorem C03_masked_scalar_wrong :
    ∃ (c : Concrete ℚ) (ks : List Key),
      Res.view ((Arr.adapter false c []).eval exMode 100 1) = .ok ([2], [5, 99]) ∧
      Res.view ((Arr.adapter false c []).eval exMode 100 1 >>= fun r => npIndex r ks) = .ok ([], [99]) ∧
      Res.view ((Arr.adapter false c []).getitem ks >>= fun a => a.eval exMode 100 1) = .ok ([], [0]) :=
  ⟨⟨⟨[2], fun idx => if idx = [0] then some 5 else none⟩, 99, 0⟩, [.int 1], by decide +kernel, by decide +kernel, by decide +kernel⟩

/-- Sources without masked elements are safe for `ndarray()`. -/
theorem sourceSafe_ndMode [Field α] [LinearOrder α] (sqrt : α → α) (cast : Nat → α → α) (c : Concrete α)
    (h : ∀ i, InB c.data.shape i → c.data.get i ≠ none) : (ndMode sqrt cast).sourceSafe c := by
  intro i hi
  show (c.data.get i).getD 0 = (c.data.get i).getD c.fill
  cases hg : c.data.get i with
  | none => exact absurd hg (h i hi)
  | some x => rfl

/-- Every source is safe for `masked_array()`. -/
theorem sourceSafe_maMode [Field α] [LinearOrder α] (sqrt : α → α) (cast : Nat → α → α) (c : Concrete α) :
    (maMode sqrt cast).sourceSafe c := fun _ _ => rfl

/-- C04 (partial).  A `NumpyArrayAdapter` with keys `keys` evaluates to the orthogonal selection of its source, which has
the announced shape, although the source zips several index arrays - provided the keys are `takeSafe`: with several
tuples every other key is basic; with one tuple all integers are adjacent to it.
Missing: other keys, for which it is false of the code (`C04_scalar_slice_tuple_transposed`). -/
theorem C04_numpy_adapter_reads_orthogonally_partial (m : Mode α V) (limit : Nat) (c : Concrete α) (keys : List Key)
    (r : NDA (Option α)) (hk : ∀ k ∈ keys, k.storable = true) (hsafe : takeSafe keys) (hr : npIndex c.data keys = .ok r)
    (hz : r.shape ≠ [] ∨ m.sourceSafe c) :
    (Arr.adapter false c keys).shape = .ok r.shape ∧
    (Arr.adapter false c keys).Returns m limit (r.map (m.leaf c.fill)) := by
  have hwf : (Arr.adapter false c keys).WF := ⟨hk, r, hr⟩
  have hden : (Arr.adapter false c keys).den m = r.map (m.leaf c.fill) := den_adapter m _ c keys r hr
  constructor
  · rw [hwf.shape_eq m, hden]; rfl
  · rw [← hden]
    exact returns_den hwf ⟨zeroDimSafe_of (x := r.map (m.leaf c.fill)) hwf (by rw [hden]; exact NDA.Eqv.refl _) hz, fun h => absurd rfl h, fun _ => ⟨hsafe, fun h => by cases h⟩⟩

example : (∀ k ∈ [Key.tuple [1, 0], .int 2, .tuple [3, 3, 0]], k.storable = true) ∧
    takeSafe [Key.tuple [1, 0], .int 2, .tuple [3, 3, 0]] ∧
    Res.view (npIndex exSource.data [Key.tuple [1, 0], .int 2, .tuple [3, 3, 0]]) =
      .ok ([2, 3], [some 23, some 23, some 20, some 11, some 11, some 8]) := by
  refine ⟨by decide, ?_, by decide +kernel⟩
  show fancySafe _
  exact Or.inl (by decide)

/-- C04 for an `OrthoArrayAdapter`: any keys (that select more than a single element, if that could be masked). -/
theorem C04_ortho_adapter (m : Mode α V) (limit : Nat) (c : Concrete α) (keys : List Key) (r : NDA (Option α))
    (hk : ∀ k ∈ keys, k.storable = true) (hr : npIndex c.data keys = .ok r) (hz : r.shape ≠ [] ∨ m.sourceSafe c) :
    (Arr.adapter true c keys).shape = .ok r.shape ∧
    (Arr.adapter true c keys).Returns m limit (r.map (m.leaf c.fill)) := by
  have hwf : (Arr.adapter true c keys).WF := ⟨hk, r, hr⟩
  have hden : (Arr.adapter true c keys).den m = r.map (m.leaf c.fill) := den_adapter m _ c keys r hr
  constructor
  · rw [hwf.shape_eq m, hden]; rfl
  · rw [← hden]
    exact returns_den hwf ⟨zeroDimSafe_of (x := r.map (m.leaf c.fill)) hwf (by rw [hden]; exact NDA.Eqv.refl _) hz, fun h => absurd rfl h, (fun h => by cases h)⟩

/-- C04 fails of the code for a scalar and a tuple separated by a slice: `A[0, :, (1, 2, 3)]` evaluates to the transposed
data, whose shape differs from the announced one. -/
theorem C04_scalar_slice_tuple_transposed :
    ∃ (c : Concrete ℚ) (ks : List Key),
      Res.view (npIndex c.data ks) = .ok ([3, 2], [some 1, some 2, some 5, some 6, some 9, some 10]) ∧
      ((Arr.adapter false c []).getitem ks >>= Arr.shape) = .ok [3, 2] ∧
      Res.view ((Arr.adapter false c []).getitem ks >>= fun a => a.eval exMode 100 1) = .ok ([2, 3], [1, 5, 9, 2, 6, 10]) :=
  ⟨exSource, [.int 0, Key.full, .tuple [1, 2]], by decide +kernel, by decide +kernel, by decide +kernel⟩

/-- C05.  Indexing an adapter (after any history of indexing without a stored mask) with integers, slices, sequences and
masks succeeds exactly when NumPy's indexing of the data it stands for does, and raises `IndexError` at once
otherwise. -/
theorem C05_out_of_range_is_rejected (o : Bool) (c : Concrete α) (stored ks : List Key) (x : NDA (Option α))
    (hst : ∀ k ∈ stored, k.storable = true ∧ ∀ l, k ≠ .barr l) (hx : npIndex c.data stored = .ok x)
    (hk : ∀ k ∈ ks, k = .ellipsis ∨ k.wellTyped) (he : (ks.filter Key.isEllipsis).length ≤ 1) :
    ((∃ r, npIndex x ks = .ok r) → ∃ b, (Arr.adapter o c stored).getitem ks = .ok b) ∧
    ((¬ ∃ r, npIndex x ks = .ok r) → (Arr.adapter o c stored).getitem ks = .error .index) := by
  let m : Mode α (Option α) := ⟨fun _ x => x, fun _ x => x, some, fun _ x => x, fun _ x => x, fun _ => ⟨Unit, (), fun _ _ => (), fun _ _ => none, none⟩,
    fun _ => none, fun _ => none⟩
  have hwf : (Arr.adapter o c stored).WF := ⟨fun k hk => (hst k hk).1, x, hx⟩
  have hden : (Arr.adapter o c stored).den m = x := den_adapter m o c stored x hx
  have hn : Key.newaxis ∉ ks := by
    intro h
    rcases hk _ h with h | h
    · cases h
    · exact h
  constructor
  · rintro ⟨r, hr⟩
    obtain ⟨fk, keys, _, _, _, h, _⟩ := adapter_getitem_form m hwf (fun k hk => (hst k hk).2) hn hden hr
    exact ⟨_, h⟩
  · intro hno
    have hsh : slicedShape c.data.shape stored = .ok x.shape := by
      have := hwf.shape_eq m
      rw [hden] at this
      exact this
    unfold Arr.getitem arrayGetitem
    rw [hsh]
    simp only [bind, Except.bind]
    have hfe := fullKeys_eq_expandKeys ks x.shape.length he
    cases hexp : expandKeys ks x.shape.length with
    | error e =>
      rw [hexp] at hfe
      have := ((fullKeys_error ks x.shape.length e).mp hfe).1
      rw [hfe, this]
    | ok fk =>
      rw [hfe, hexp]
      have hex : Exact fk := by
        intro k hk'
        refine ⟨?_, (expandKeys_spec hexp).1 k hk'⟩
        rcases expandKeys_mem ks fk _ hexp k hk' with h | rfl
        · cases k <;> simp_all [Key.isNewaxis]
        · rfl
      have hwt : ∀ k ∈ fk, k.wellTyped := by
        intro k hk'
        rcases expandKeys_mem ks fk _ hexp k hk' with h | rfl
        · rcases hk k h with rfl | h
          · exact absurd ((hex _ hk').2) (by simp [Key.isEllipsis])
          · exact h
        · simp [Key.full, Key.wellTyped, PySlice.full]
      have hany : fk.any Key.isNewaxis = false := by simpa using fun k hk => (hex k hk).1
      simp only [hany]
      obtain ⟨fk0, σ, h1, h2, rfl⟩ := npIndex_ok_iff.mp hx
      have hfk0 := expandKeys_storable (fun k hk => (hst k hk).1) h1
      subst hfk0
      cases hres : resolve fk (selShape σ) with
      | ok τ => exact absurd ⟨_, npIndex_ok_iff.mpr ⟨fk, τ, hexp, hres, rfl⟩⟩ hno
      | error e =>
        have hlen : fk.length = (selShape σ).length := by
          have h' : nConsuming fk = (selShape σ).length := (expandKeys_spec hexp).2
          have : nConsuming fk = fk.length := by
            unfold nConsuming
            rw [List.filter_eq_self.mpr]
            intro k hk; simp [(hex k hk).1]
          omega
        have := adapterLoop_error stored c.data.shape fk σ _ e hst hwt h2 hlen hres
        simp only [adapterFull, this, bind, Except.bind]
        rfl

/-- C05 on single keys: an integer outside `[-n, n)` is rejected, one inside accepted, as first key of a fresh adapter. -/
theorem C05_integer_key (o : Bool) (c : Concrete α) (n : Nat) (ns : List Nat) (hs : c.data.shape = n :: ns) (i : Int) :
    (-(n : Int) ≤ i ∧ i < n → ∃ b, (Arr.adapter o c []).getitem [.int i] = .ok b) ∧
    (¬ (-(n : Int) ≤ i ∧ i < n) → (Arr.adapter o c []).getitem [.int i] = .error .index) := by
  obtain ⟨σ, hσ⟩ := resolve_full_exists c.data.shape
  have hfull := resolve_full hσ
  have hx : npIndex c.data [] = .ok (c.data.ortho σ) :=
    npIndex_ok_iff.mpr ⟨List.replicate c.data.shape.length Key.full, σ, by simp [expandKeys, nConsuming], hσ, rfl⟩
  have hsh : (c.data.ortho σ).shape = n :: ns := by rw [← hs]; exact hfull.1
  have hexp : expandKeys [Key.int i] (n :: ns).length = .ok (.int i :: List.replicate ns.length Key.full) := by
    simp [expandKeys, nConsuming, Key.isEllipsis, Key.isNewaxis]
  obtain ⟨h1, h2⟩ := C05_out_of_range_is_rejected o c [] [.int i] _ (by simp) hx
    (by intro k hk; right; simp at hk; subst hk; trivial) (by simp [Key.isEllipsis])
  have key : (∃ r, npIndex (c.data.ortho σ) [.int i] = .ok r) ↔ inRange i n = true := by
    constructor
    · rintro ⟨r, hr⟩
      obtain ⟨fk, τ, q1, q2, _⟩ := npIndex_ok_iff.mp hr
      rw [hsh, hexp] at q1
      cases q1
      rw [hsh] at q2
      obtain ⟨_, _, _, _, e, _, q, _⟩ := (resolve_cons_iff rfl).mp q2
      cases e
      simp only [resolve1] at q
      split at q
      · assumption
      · cases q
    · intro h
      obtain ⟨τ, hτ⟩ := resolve_full_exists ns
      refine ⟨_, npIndex_ok_iff.mpr ⟨_, .at (normIdx i n) :: τ, by rw [hsh]; exact hexp, ?_, rfl⟩⟩
      rw [hsh]
      exact (resolve_cons_iff rfl).mpr ⟨n, ns, _, τ, rfl, rfl, by simp [resolve1, h], hτ⟩
  have hin : inRange i n = true ↔ (-(n : Int) ≤ i ∧ i < n) := by simp [inRange]
  constructor
  · intro h; exact h1 (key.mpr (hin.mpr h))
  · intro h; exact h2 (fun hr => h (hin.mp (key.mp hr)))

/-- C05 when the previous keys begin with a boolean mask, exactly: *no* integer key is accepted any more.  One that is in range for the mask (of as many elements as the mask has, not as
it selects) raises `TypeError`, any other `IndexError`: the code looks up the mask instead of the selected positions (1389). -/
theorem C05_integer_after_a_mask (o : Bool) (c : Concrete α) (l : List Bool) (rest : List Key) (x : NDA (Option α))
    (hst : ∀ k ∈ rest, k.storable = true) (hx : npIndex c.data (.barr l :: rest) = .ok x) (i : Int) :
    (Arr.adapter o c (.barr l :: rest)).getitem [.int i] =
      if -(l.length : Int) ≤ i ∧ i < l.length then .error .type else .error .index := by
  let m : Mode α (Option α) := ⟨fun _ x => x, fun _ x => x, some, fun _ x => x, fun _ x => x, fun _ => ⟨Unit, (), fun _ _ => (), fun _ _ => none, none⟩,
    fun _ => none, fun _ => none⟩
  have hwf : (Arr.adapter o c (.barr l :: rest)).WF := by
    refine ⟨fun k hk => ?_, x, hx⟩
    rcases List.mem_cons.mp hk with rfl | hk
    · rfl
    · exact hst k hk
  have hden : (Arr.adapter o c (.barr l :: rest)).den m = x := den_adapter m o c _ x hx
  have hsh : slicedShape c.data.shape (.barr l :: rest) = .ok x.shape := by
    have := hwf.shape_eq m
    rw [hden] at this
    exact this
  obtain ⟨d, ds, hxs⟩ : ∃ d ds, x.shape = d :: ds := by
    obtain ⟨fk, σ, q1, q2, rfl⟩ := npIndex_ok_iff.mp hx
    have hne : ∀ k ∈ Key.barr l :: rest, k.isEllipsis = false := by
      intro k hk
      rcases List.mem_cons.mp hk with rfl | hk
      · rfl
      · have := hst k hk
        cases k <;> first | rfl | cases this
    rw [expandKeys_noEllipsis _ _ (by simpa using hne)] at q1
    split at q1
    · cases q1
      rw [List.cons_append] at q2
      obtain ⟨n, ns, sel, τ, _, e2, q3, _⟩ := (resolve_cons_iff rfl).mp q2
      subst e2
      simp only [resolve1] at q3
      split at q3
      · cases q3
        exact ⟨_, _, rfl⟩
      · cases q3
    · cases q1
  have hexp : fullKeys [Key.int i] x.shape.length = .ok (.int i :: List.replicate ds.length Key.full) := by
    rw [hxs]
    have := fullKeys_eq_expandKeys [Key.int i] (d :: ds).length (by simp [Key.isEllipsis])
    rw [this]
    simp [expandKeys, nConsuming, Key.isEllipsis, Key.isNewaxis]
  unfold Arr.getitem arrayGetitem
  rw [hsh]
  simp only [bind, Except.bind, hexp]
  have hany : (Key.int i :: List.replicate ds.length Key.full).any Key.isNewaxis = false := by
    simp [Key.isNewaxis, Key.full]
  simp only [hany, adapterFull, adapterLoop, remapBool, bind, Except.bind]
  by_cases h : -(l.length : Int) ≤ i ∧ i < l.length
  · have : inRange i l.length = true := by simpa [inRange] using h
    simp [this, h]
  · have : inRange i l.length = false := by
      rw [Bool.eq_false_iff]; intro hh; exact h (by simpa [inRange] using hh)
    simp [this, h]

example : ((Arr.adapter true exSource [.slice ⟨some 1, none, none⟩]).getitem [.int 1] >>= Arr.shape) = .error .index ∧
    ((Arr.adapter true exSource [.slice ⟨some 1, none, none⟩]).getitem [.int (-1), .tuple [0, -3]] >>= Arr.shape) = .ok [2, 4] := by
  refine ⟨by decide +kernel, by decide +kernel⟩

/-- C05 is false of the code after a boolean mask: the source `arange(4)` indexed with `[True, False, True, False]` has two elements, but neither index 0 nor index -1 is accepted. -/
theorem C05_mask_violation :
    Res.view (npIndex (⟨[4], fun idx => some (idx.headD 0 : ℚ)⟩ : NDA (Option ℚ)) [.barr [true, false, true, false]]) = .ok ([2], [some 0, some 2]) ∧
    ((Arr.adapter false (⟨⟨[4], fun idx => some (idx.headD 0 : ℚ)⟩, 0, 0⟩ : Concrete ℚ) [.barr [true, false, true, false]]).getitem [.int 0] >>= Arr.shape) =
      .error .type ∧
    ((Arr.adapter false (⟨⟨[4], fun idx => some (idx.headD 0 : ℚ)⟩, 0, 0⟩ : Concrete ℚ) [.barr [true, false, true, false]]).getitem [.int (-1)] >>= Arr.shape) =
      .error .type ∧
    ((Arr.adapter false (⟨⟨[4], fun idx => some (idx.headD 0 : ℚ)⟩, 0, 0⟩ : Concrete ℚ) [.barr [true, false, true, false]]).getitem [.int 4] >>= Arr.shape) =
      .error .index := by
  refine ⟨by decide +kernel, by decide +kernel, by decide +kernel, by decide +kernel⟩

end Biggus

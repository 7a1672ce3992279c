import Verif.Proofs.Unmasked
import Verif.Proofs.Built
import Verif.Proofs.Lawful
import Verif.Props.Index
import Verif.Props.Adapters
import Verif.Props.Sharp
/-
Property C77 of properties.jsonl: `ndarray()` and `masked_array()` of one expression.
-/
namespace Biggus

open Spec

variable {α : Type} [Inhabited α] [Field α] [LinearOrder α]

/-- Every element-wise operation of the expression has a masked variant. -/
def Arr.hasMa : Arr α → Prop
  | .adapter _ _ _ => True
  | .const _ _ _ => True
  | .newAxes a _ => a.hasMa
  | .bcast a _ _ => a.hasMa
  | .transposed a _ => a.hasMa
  | .stack ss items => ∀ i, InB ss i → (items i).hasMa
  | .mosaic n tiles _ => ∀ i, i < n → (tiles i).hasMa
  | .asType a _ => a.hasMa
  | .maskVal a _ => a.hasMa
  | .agg a _ _ => a.hasMa
  | .elem1 a op => a.hasMa ∧ op.ma.isSome = true
  | .elem2 a b op => a.hasMa ∧ b.hasMa ∧ op.ma.isSome = true

theorem minH_not_lawful [IsStrictOrderedRing α] : ¬ (minH : Handler α).Lawful := by
  intro h
  have := h 2 [[0], [1]] (by simp) (by simp)
  simp [minH, Handler.run] at this

theorem maxH_not_lawful [IsStrictOrderedRing α] : ¬ (maxH : Handler α).Lawful := by
  intro h
  have := h 2 [[1], [0]] (by simp) (by simp)
  simp [maxH, Handler.run] at this

theorem minH_not_lawfulTwo [IsStrictOrderedRing α] : ¬ (minH : Handler α).LawfulTwo := by
  intro h
  have := h 3 [0, 0] [[1]] (by simp) (by simp)
  simp [minH, Handler.run] at this

theorem maxH_not_lawfulTwo [IsStrictOrderedRing α] : ¬ (maxH : Handler α).LawfulTwo := by
  intro h
  have := h 3 [1, 1] [[0]] (by simp) (by simp)
  simp [maxH, Handler.run] at this

/-- What can be evaluated with `ndarray()` can be evaluated with `masked_array()`, if the operations have masked variants. -/
theorem Arr.Built.toMa [IsStrictOrderedRing α] {sqrt : α → α} {cast : Nat → α → α} {limit : Nat} {fwd tile : Bool} {cut : Cut}
    {a : Arr α} (h : a.Built (ndMode sqrt cast) limit fwd tile cut) : a.hasMa → a.Built (maMode sqrt cast) limit fwd tile cut := by
  induction h with
  | source tile cut o c hsafe ho => exact fun _ => .source _ _ _ _ (sourceSafe_maMode sqrt cast c) ho
  | const => exact fun _ => .const _ _ _ _ _
  | @newAxes cut a na b hc hb h ih =>
    intro hm
    obtain ⟨s, hs⟩ : ∃ s, a.shape = .ok s := ⟨_, hb.fine.1.shape_eq (ndMode sqrt cast)⟩
    obtain ⟨_, rfl⟩ := (mkNewAxes_iff hs).mp h
    exact .newAxes hc (ih hm) h
  | @bcast cut a d lead b hc _ hnl hn h ih =>
    intro hm
    refine .bcast hc (ih ?_) hnl hn h
    unfold mkBcast at h
    split at h
    · unfold mkBcastFlat at h
      obtain ⟨s, hs, h⟩ := bind_ok.mp h
      obtain ⟨s', hs', h⟩ := bind_ok.mp h
      split at h
      · cases h
      · cases h; exact hm
    · unfold mkBcastFlat at h
      obtain ⟨s, hs, h⟩ := bind_ok.mp h
      obtain ⟨s', hs', h⟩ := bind_ok.mp h
      split at h
      · cases h
      · cases h; exact hm
  | @transposed tile cut a axes s b _ hs hp h ih =>
    intro hm
    obtain ⟨_, rfl⟩ := (mkTransposed_iff hs).mp h
    exact .transposed (ih hm) hs hp h
  | @stack tile cut ss items b h1 h2 _ h ih =>
    intro hm
    obtain ⟨_, _, rfl⟩ := mkStack_iff.mp h
    exact .stack h1 h2 (fun i hi => ih i hi (hm i hi)) h
  | @mosaic tile cut axis b tiles h1 h2 _ h h3 ih =>
    intro hm
    obtain ⟨_, _, rfl⟩ := mkMosaic_iff.mp h
    refine .mosaic h1 h2 (fun t ht => ih t ht ?_) h h3
    obtain ⟨i, hi, rfl⟩ := List.mem_iff_getElem.mp ht
    have h4 : (tiles.getD i default).hasMa := hm i hi
    rwa [List.getD_eq_getElem?_getD, List.getElem?_eq_getElem hi] at h4
  | asType dt _ ih => exact fun hm => .asType dt (ih hm)
  | maskVal v _ ih => exact fun hm => .maskVal v (ih hm)
  | @agg tile cut a s axis k _ hs hax h1 h2 ih =>
    intro hm
    refine .agg (ih hm) hs hax (h1.imp (fun h => h) ?_) ?_
    · intro h
      cases k <;> first | rfl | cases h
    · cases k with
      | count => exact Or.inl countMH_lawful
      | min =>
        rcases h2 with h | h | h | h
        · exact absurd h minH_not_lawful
        · exact Or.inr (Or.inl h)
        · exact Or.inr (Or.inr (Or.inl h))
        · exact absurd h.1 minH_not_lawfulTwo
      | max =>
        rcases h2 with h | h | h | h
        · exact absurd h maxH_not_lawful
        · exact Or.inr (Or.inl h)
        · exact Or.inr (Or.inr (Or.inl h))
        · exact absurd h.1 maxH_not_lawfulTwo
      | sum => exact Or.inl sumMH_lawful
      | mean mdtol => exact Or.inl (meanMH_lawful mdtol)
      | std ddof => exact Or.inl (stdMH_lawful sqrt ddof)
      | var ddof => exact Or.inl (varMH_lawful sqrt ddof)
  | elem1 _ _ ih => exact fun hm => .elem1 (ih hm.1) hm.2
  | elem2 _ _ _ hs hk ih ih' => exact fun hm => .elem2 (ih hm.1) (ih' hm.2.1) hm.2.2 hs hk

theorem Arr.aggsUnmasked.hasMa {sqrt : α → α} {cast : Nat → α → α} : ∀ {a : Arr α}, a.aggsUnmasked sqrt cast → a.hasMa
  | .adapter _ _ _, _ => trivial
  | .const _ _ _, _ => trivial
  | .newAxes a _, h => Arr.aggsUnmasked.hasMa (a := a) h
  | .bcast a _ _, h => Arr.aggsUnmasked.hasMa (a := a) h
  | .transposed a _, h => Arr.aggsUnmasked.hasMa (a := a) h
  | .stack _ items, h => fun i hi => Arr.aggsUnmasked.hasMa (a := items i) (h i hi)
  | .mosaic _ tiles _, h => fun i hi => Arr.aggsUnmasked.hasMa (a := tiles i) (h i hi)
  | .asType a _, h => Arr.aggsUnmasked.hasMa (a := a) h
  | .maskVal a _, h => Arr.aggsUnmasked.hasMa (a := a) h
  | .agg a _ _, h => Arr.aggsUnmasked.hasMa (a := a) h.1
  | .elem1 a _, h => ⟨Arr.aggsUnmasked.hasMa (a := a) h.1, h.2.1⟩
  | .elem2 a b _, h => ⟨Arr.aggsUnmasked.hasMa (a := a) h.1, Arr.aggsUnmasked.hasMa (a := b) h.2.1, h.2.2.1⟩

theorem Arr.maskless.hasMa {sqrt : α → α} {cast : Nat → α → α} : ∀ {a : Arr α}, a.maskless sqrt cast → a.hasMa
  | .adapter _ _ _, _ => trivial
  | .const _ _ _, _ => trivial
  | .newAxes a _, h => Arr.maskless.hasMa (a := a) h
  | .bcast a _ _, h => Arr.maskless.hasMa (a := a) h
  | .transposed a _, h => Arr.maskless.hasMa (a := a) h
  | .stack _ items, h => fun i hi => Arr.maskless.hasMa (a := items i) (h i hi)
  | .mosaic _ tiles _, h => fun i hi => Arr.maskless.hasMa (a := tiles i) (h i hi)
  | .asType a _, h => Arr.maskless.hasMa (a := a) h
  | .maskVal _ _, h => h.elim
  | .agg a _ _, h => Arr.maskless.hasMa (a := a) h.1
  | .elem1 a op, h => by
    obtain ⟨h, g, hg, _⟩ := h
    exact ⟨Arr.maskless.hasMa (a := a) h, by rw [hg]; rfl⟩
  | .elem2 a b op, h => by
    obtain ⟨h, h', g, hg, _⟩ := h
    exact ⟨Arr.maskless.hasMa (a := a) h, Arr.maskless.hasMa (a := b) h', by rw [hg]; rfl⟩

/-- C77.  Both `a.ndarray()` and `a.masked_array()` succeed, give the announced shape, and wherever `masked_array()` is not masked
the values are the same: for every expression of the grammar in which only data without masked elements is aggregated, and for
every chunk limit. -/
theorem C77_unmasked_values_agree [IsStrictOrderedRing α] (sqrt : α → α) (cast : Nat → α → α) (limit : Nat) (fwd : Bool) (a : Arr α)
    (hb : a.Built (ndMode sqrt cast) limit fwd false .whole) (hu : a.aggsUnmasked sqrt cast) :
    ∃ x y, a.Yields (ndMode sqrt cast) limit x ∧ a.Yields (maMode sqrt cast) limit y ∧ AgreeUnmasked x y := by
  have hb' := hb.toMa hu.hasMa
  obtain ⟨w, o, _⟩ := hb.fine
  obtain ⟨_, o', _⟩ := hb'.fine
  exact ⟨_, _, .of_den w o, .of_den w o', den_rel a w (relOk_agree sqrt cast a w hu)⟩

/-- C77.  If nothing in the expression masks anything, `masked_array()` has no masked element, and its data is `ndarray()`. -/
theorem C77_without_masks_equal [IsStrictOrderedRing α] (sqrt : α → α) (cast : Nat → α → α) (limit : Nat) (fwd : Bool) (a : Arr α)
    (hb : a.Built (ndMode sqrt cast) limit fwd false .whole) (hu : a.maskless sqrt cast) :
    ∃ x, a.Yields (ndMode sqrt cast) limit x ∧ a.Yields (maMode sqrt cast) limit (x.map some) := by
  have hb' := hb.toMa hu.hasMa
  obtain ⟨w, o, _⟩ := hb.fine
  obtain ⟨_, o', _⟩ := hb'.fine
  have h := den_rel a w (relOk_maskless sqrt cast a w hu)
  refine ⟨_, .of_den w o, (Arr.Yields.of_den w o').congr ⟨h.1.symm, fun idx hi => h.2 idx ?_⟩⟩
  rw [h.1]; exact hi

theorem indexAll_rel {β γ : Type} {R : β → γ → Prop} : ∀ (kss : List (List Key)) {x r : NDA β} {y t : NDA γ}, x.Rel R y →
    indexAll x kss = .ok r → indexAll y kss = .ok t → r.Rel R t
  | [], x, r, y, t, h, h1, h2 => by cases h1; cases h2; exact h
  | ks :: kss, x, r, y, t, h, h1, h2 => by
    unfold indexAll at h1 h2
    rw [List.foldlM_cons] at h1 h2
    obtain ⟨x', h1, h1'⟩ := bind_ok.mp h1
    obtain ⟨y', h2, h2'⟩ := bind_ok.mp h2
    refine indexAll_rel kss ?_ h1' h2'
    obtain ⟨fk, σ, e1, e2, rfl⟩ := npIndex_ok_iff.mp h1
    obtain ⟨fk', σ', e3, e4, rfl⟩ := npIndex_ok_iff.mp h2
    rw [← h.1, e1] at e3
    cases e3
    rw [← h.1, e2] at e4
    cases e4
    exact ⟨rfl, fun idx hi => h.2 _ (selSrc_inB e2 idx hi)⟩

/-- C77, for every `a[k1]...[kn]` and for the streaming engine (`biggus.ndarrays` and `biggus.masked_arrays`, in chunks of any size):
the values agree wherever the masked result is not masked. -/
theorem C77_indexed_and_streamed [IsStrictOrderedRing α] (sqrt : α → α) (cast : Nat → α → α) (limit : Nat) (fwd : Bool) (a : Arr α)
    (hb : a.Built (ndMode sqrt cast) limit fwd false .sliced) (hu : a.aggsUnmasked sqrt cast) (s : List Nat) (hs : a.shape = .ok s)
    (kss : List (List Key)) (hk : SimpleHistory fwd kss s) :
    ∃ b x y, kss.foldlM (fun a ks => Arr.getitem a ks) a = .ok b ∧ b.Yields (ndMode sqrt cast) limit x ∧ b.Yields (maMode sqrt cast) limit y ∧
      b.EngineReturns (ndMode sqrt cast) limit x ∧ b.EngineReturns (maMode sqrt cast) limit y ∧ AgreeUnmasked x y := by
  have hb' := hb.toMa hu.hasMa
  obtain ⟨w, _⟩ := hb.fine
  obtain ⟨x, y1, _, g1⟩ := C42_engine_is_direct fwd a hb
  obtain ⟨y, y2, _, g2⟩ := C42_engine_is_direct fwd a hb'
  have hx : x.shape = s := by rw [y1.1] at hs; exact Except.ok.inj hs
  have hy : y.shape = s := by rw [y2.1] at hs; exact Except.ok.inj hs
  obtain ⟨b, r, p1, p2, p3, p4⟩ := g1 kss (by rw [hx]; exact hk)
  obtain ⟨b', t, q1, q2, q3, q4⟩ := g2 kss (by rw [hy]; exact hk)
  rw [p1] at q1
  cases q1
  refine ⟨b, r, t, p1, p3, q3, p4, q4, ?_⟩
  have e1 : x ≈ₐ a.den (ndMode sqrt cast) :=
    y1.2.den_eqv w (hb.fine.2.1.mono _ limit a .sliced .whole (Or.inr (Or.inr rfl)))
  have e2 : y ≈ₐ a.den (maMode sqrt cast) :=
    y2.2.den_eqv w (hb'.fine.2.1.mono _ limit a .sliced .whole (Or.inr (Or.inr rfl)))
  have h := den_rel a w (relOk_agree sqrt cast a w hu)
  refine indexAll_rel (R := AgreeElem) kss ⟨by rw [hx, hy], fun idx hi => ?_⟩ p2 q2
  rw [e1.2 idx hi, e2.2 idx (by rw [hy, ← hx]; exact hi)]
  exact h.2 idx (by rw [← e1.1]; exact hi)

/-- A source of three values, the second masked (fill value 0). -/
def exGap : Concrete ℚ := ⟨⟨[3], fun idx => match idx with
  | [0] => some 1
  | [1] => none
  | _ => some 3⟩, 0, 0⟩

/-- Addition with its masked variant. -/
def exAddM : Op2 ℚ := ⟨fun x y => x + y, some (fun x y => match x, y with
  | some x, some y => some (x + y)
  | _, _ => none)⟩

/-- C77 fails of aggregations of masked data: the count and the mean of `1, masked, 3` are 2 and 2 in `masked_array()`, but 3 and 4/3
in `ndarray()`, where the masked element counts as a 0. -/
theorem C77_aggregated_masked_differs :
    Res.view ((Arr.agg (.adapter true exGap []) 0 .count).eval (maMode id (fun _ x => x)) 10 5) = .ok ([], [some 2]) ∧
    Res.view ((Arr.agg (.adapter true exGap []) 0 .count).eval exMode 10 5) = .ok ([], [3]) ∧
    Res.view ((Arr.agg (.adapter true exGap []) 0 (.mean 1)).eval (maMode id (fun _ x => x)) 10 5) = .ok ([], [some 2]) ∧
    Res.view ((Arr.agg (.adapter true exGap []) 0 (.mean 1)).eval exMode 10 5) = .ok ([], [4 / 3]) := by
  refine ⟨by decide +kernel, by decide +kernel, by decide +kernel, by decide +kernel⟩

/-- A stack of masked data plus a constant, with a value declared missing, and the mean of data without masked elements. -/
def exGapped : Arr ℚ := .stack [2] (fun i => if i = [0] then .maskVal (.elem2 (.adapter true exGap []) (.const [3] 5 0) exAddM) 6
  else .agg (.const [4, 3] 5 0) 0 (.mean 0))

/-- The hypotheses of C77 are met by a non-trivial case, with the expected values. -/
example : exGapped.Built (ndMode id (fun _ x => x)) 100 true false .whole ∧ exGapped.aggsUnmasked id (fun _ x => x) ∧
    Res.view (exGapped.eval (maMode id (fun _ x => x)) 100 9) = .ok ([2, 3], [none, none, some 8, some 5, some 5, some 5]) ∧
    Res.view (exGapped.eval exMode 100 9) = .ok ([2, 3], [6, 5, 8, 5, 5, 5]) := by
  refine ⟨?_, ?_, by decide +kernel, by decide +kernel⟩
  · refine .stack (ss := [2]) (items := fun i => if i = [0] then .maskVal (.elem2 (.adapter true exGap []) (.const [3] 5 0) exAddM) 6
      else .agg (.const [4, 3] 5 0) 0 (.mean 0)) (by simp) (by simp) ?_ (mkStack_iff.mpr ⟨by decide, ⟨[3], ?_⟩, rfl⟩)
    · intro i _
      show Arr.Built _ _ _ _ _ (if i = [0] then _ else _)
      split
      · refine .maskVal _ (.elem2 (.source _ _ _ _ (fun i _ => rfl) (by simp)) (.const _ _ _ _ _) rfl (by decide +kernel) ?_)
        have h1 : (Arr.adapter true exGap [] : Arr ℚ).shape = .ok [3] := by decide +kernel
        have h2 : (Arr.const [3] 5 0 : Arr ℚ).shape = .ok [3] := by decide +kernel
        exact Or.inr (Or.inl (by simp only [Arr.skel, h1, h2]))
      · exact .agg (s := [4, 3]) (.const _ _ _ _ _) rfl (by decide) (Or.inl (by decide)) (Or.inl meanH_lawful)
    · intro i _
      show Arr.shape (if i = [0] then _ else _) = _
      split <;> decide +kernel
  · intro i _
    show Arr.aggsUnmasked _ _ (if i = [0] then _ else _)
    split
    · refine ⟨trivial, trivial, rfl, ?_⟩
      intro g hg
      simp only [exAddM, Option.some.injEq] at hg
      subst hg
      exact ⟨fun _ => rfl, fun x => by cases x <;> rfl, fun x y v h => Option.some.inj h⟩
    · exact ⟨trivial, fun _ _ => rfl⟩

/-- The hypotheses of the second theorem are met: the sum of a source without masked elements, plus a constant. -/
example : (Arr.elem2 (.adapter true exSource []) (.const [2, 3, 4] 10 0) exAddM).Built (ndMode id (fun _ x => x)) 100 true false .whole ∧
    (Arr.elem2 (.adapter true exSource []) (.const [2, 3, 4] 10 0) exAddM).maskless id (fun _ x => x) := by
  refine ⟨.elem2 (.source _ _ _ _ (fun i _ => rfl) (by simp)) (.const _ _ _ _ _) rfl (by decide +kernel) ?_, ?_, trivial, _, rfl, ?_⟩
  · have h1 : (Arr.adapter true exSource [] : Arr ℚ).shape = .ok [2, 3, 4] := by decide +kernel
    have h2 : (Arr.const [2, 3, 4] 10 0 : Arr ℚ).shape = .ok [2, 3, 4] := by decide +kernel
    exact Or.inr (Or.inl (by simp only [Arr.skel, h1, h2]))
  · intro i _; rfl
  · intro i _; rfl

end Biggus

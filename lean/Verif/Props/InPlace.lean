import Verif.Spec.InPlace
import Verif.Props.Save
/-
C71: saving an array to an array it reads itself.
-/
namespace Biggus
open Spec

variable {α V : Type}

/-- If reading does not depend on the target, `saveInto` is the loop of `save`. -/
theorem saveInto_const {β : Type} (read : List Key → Res (NDA β)) : ∀ (L : List (List Key)) (t : NDA β),
    saveInto (fun _ => read) L t = (do let ws ← saveLoop t.shape read L; return ws.foldl NDA.update t)
  | [], t => rfl
  | ks :: L, t => by
    have ih := fun t' => saveInto_const read L t'
    simp only [saveInto, saveLoop]
    cases h1 : read ks with
    | error e => rfl
    | ok d =>
      simp only [bind, Except.bind]
      cases h2 : npAssignments t.shape ks d with
      | error e => rfl
      | ok w =>
        simp only [ih, foldl_update_shape, bind, Except.bind]
        cases h3 : saveLoop t.shape read L with
        | error e => rfl
        | ok ws => simp [pure, Except.pure, List.foldl_append]

/-- `save` of an array that does not read the target is a special case. -/
theorem saveInPlace_const {β : Type} (limit : Nat) (shape : List Nat) (read : List Key → Res (NDA β)) (t : NDA β) :
    saveInPlace limit shape (fun _ => read) t = save limit shape read t := saveInto_const read _ t

/-- The loop for a read function that computes every element from the same element of the target. -/
theorem saveInto_local {β : Type} {s : List Nat} (F : NDA β → NDA β) (g : List Nat → β → β) (hF : ∀ t, t.shape = s → (F t).shape = s)
    (hg : ∀ t, t.shape = s → ∀ idx, InB s idx → (F t).get idx = g idx (t.get idx)) (read : Nat → NDA β → List Key → Res (NDA β)) :
    ∀ (L : List (List Key)), (∀ t, t.shape = s → ∀ ks ∈ L, ∃ N, ∀ n, N ≤ n → ∀ r, npIndex (F t) ks = .ok r → ∃ d, read n t ks = .ok d ∧ d ≈ₐ r) →
    (∀ ks ∈ L, ks.length = s.length ∧ (∀ k ∈ ks, k.isNewaxis = false ∧ k.isEllipsis = false) ∧ ∃ σ, resolve ks s = .ok σ) →
    (L.flatMap (fun ks => cart (List.zipWith keyPos ks s))).Nodup → (∀ i ∈ L.flatMap (fun ks => cart (List.zipWith keyPos ks s)), InB s i) → ∀ t, t.shape = s →
    ∃ N t', (∀ n, N ≤ n → saveInto (read n) L t = .ok t') ∧ t'.shape = s ∧
      ∀ idx, t'.get idx = if idx ∈ L.flatMap (fun ks => cart (List.zipWith keyPos ks s)) then g idx (t.get idx) else t.get idx := by
  intro L
  induction L with
  | nil => intro _ _ _ _ t ht; exact ⟨0, t, fun _ _ => rfl, ht, by simp⟩
  | cons ks L ih =>
    intro hread hL hnd hin t ht
    obtain ⟨hl, hk, σ, hσ⟩ := hL ks List.mem_cons_self
    rw [List.flatMap_cons, List.nodup_append] at hnd
    simp only [List.flatMap_cons, List.mem_append] at hin ⊢
    have hpos : (ndindex (selShape σ)).map (selSrc σ) = cart (List.zipWith keyPos ks s) :=
      ndindex_selSrc ks s σ (fun k hk' => by rintro rfl; have := (hk _ hk').1; simp [Key.isNewaxis] at this) hσ
    obtain ⟨N1, hN1⟩ := hread t ht ks List.mem_cons_self
    let ws := (ndindex (selShape σ)).map (fun j => (selSrc σ j, (F t).get (selSrc σ j)))
    have hws : ws.map Prod.fst = cart (List.zipWith keyPos ks s) := by rw [← hpos, List.map_map]; rfl
    have hstep : ∀ n, N1 ≤ n → ∃ d, read n t ks = .ok d ∧ npAssignments t.shape ks d = .ok ws := by
      intro n hn
      obtain ⟨d, hd, hds, hdg⟩ := hN1 n hn _ (npIndex_exact (F t) ks σ (by rw [hF t ht]; exact hl) hk (by rw [hF t ht]; exact hσ))
      refine ⟨d, hd, ?_⟩
      have h1 : d.shape = selShape σ := hds
      unfold npAssignments
      rw [ht, hσ]
      simp only [bind, Except.bind, if_pos h1]
      congr 1
      apply List.map_congr_left
      intro j hj
      have : d.get j = (F t).get (selSrc σ j) := hdg j (by rw [h1]; exact inB_selShape_of_mem hj)
      rw [this]
    have hsh : (ws.foldl NDA.update t).shape = s := by rw [foldl_update_shape, ht]
    obtain ⟨N2, t', h1, h2, h3⟩ := ih (fun t ht k hk => hread t ht k (List.mem_cons_of_mem _ hk)) (fun k hk => hL k (List.mem_cons_of_mem _ hk)) hnd.2.1
      (fun i hi => hin i (Or.inr hi)) _ hsh
    refine ⟨max N1 N2, t', fun n hn => ?_, h2, fun idx => ?_⟩
    · obtain ⟨d, k1, k2⟩ := hstep n (le_trans (le_max_left _ _) hn)
      simp only [saveInto, k1, k2, bind, Except.bind]
      exact h1 n (le_trans (le_max_right _ _) hn)
    · rw [h3 idx, foldl_update_get ws t idx ((F t).get idx) (fun w hw he => by
        simp only [ws, List.mem_map] at hw
        obtain ⟨j, _, rfl⟩ := hw
        rw [← he]), hws]
      by_cases c1 : idx ∈ cart (List.zipWith keyPos ks s)
      · have c2 : idx ∉ L.flatMap (fun ks => cart (List.zipWith keyPos ks s)) := fun c2 => hnd.2.2 idx c1 idx c2 rfl
        simp only [c1, c2, if_true, if_false, true_or]
        exact hg t ht idx (hin idx (Or.inl c1))
      · simp only [c1, if_false, false_or]

/-- An element of the meaning of a pointwise expression depends on the same element of the target only. -/
theorem pointwise_den [Inhabited α] [Inhabited V] (m : Mode α V) (s : List Nat) : ∀ (e : Pointwise α), ∃ g : List Nat → V → V, ∀ c : Concrete α, c.data.shape = s →
    ∀ idx, InB s idx → ((e.arr c).den m).get idx = g idx (m.leaf c.fill (c.data.get idx))
  | .target o => ⟨fun _ v => v, fun c hc idx hi => by
      have := fresh_adapter_den m o c
      exact this.2 idx (by rw [this.1]; show InB c.data.shape idx; rw [hc]; exact hi)⟩
  | .other a => ⟨fun idx _ => (a.den m).get idx, fun _ _ _ _ => rfl⟩
  | .asType e dt => by
    obtain ⟨g, h⟩ := pointwise_den m s e
    exact ⟨fun idx v => m.cast dt (g idx v), fun c hc idx hi => congrArg (m.cast dt) (h c hc idx hi)⟩
  | .maskVal e v => by
    obtain ⟨g, h⟩ := pointwise_den m s e
    exact ⟨fun idx w => m.maskEq v (g idx w), fun c hc idx hi => congrArg (m.maskEq v) (h c hc idx hi)⟩
  | .elem1 e op => by
    obtain ⟨g, h⟩ := pointwise_den m s e
    exact ⟨fun idx w => (m.op1 op).getD id (g idx w), fun c hc idx hi => congrArg _ (h c hc idx hi)⟩
  | .elem2 e e' op => by
    obtain ⟨g, h⟩ := pointwise_den m s e
    obtain ⟨g', h'⟩ := pointwise_den m s e'
    exact ⟨fun idx w => (m.op2 op).getD (fun x _ => x) (g idx w) (g' idx w), fun c hc idx hi => congrArg₂ _ (h c hc idx hi) (h' c hc idx hi)⟩

variable [Inhabited α] [Inhabited V] {m : Mode α V} {limit : Nat}

/-- What reading a block of an expression of the grammar gives. -/
theorem read_block {a : Arr α} {x : NDA V} (hb : a.Built m limit true false .whole) (hx : a.Yields m limit x) {ks : List Key} (hks : ks ∈ saveKeys limit x.shape) :
    ∃ N, ∀ n, N ≤ n → ∀ r, npIndex x ks = .ok r → ∃ d, (a.getitem ks >>= fun b => b.eval m limit n) = .ok d ∧ d ≈ₐ r := by
  obtain ⟨h1, h2, _, h4⟩ := hb.fine
  have hs := saveKeys_simple limit x.shape ks hks
  obtain ⟨b, r, k1, k2, k3, _⟩ := C06_simple_keys true [ks] a x h1 h2 h4 hx ⟨hs, fun _ _ _ _ => trivial⟩
  have k1' : a.getitem ks = .ok b := by
    rw [List.foldlM_cons] at k1
    obtain ⟨b', hb', k1⟩ := bind_ok.mp k1
    cases k1; exact hb'
  have k2' : npIndex x ks = .ok r := by
    unfold indexAll at k2
    rw [List.foldlM_cons] at k2
    obtain ⟨b', hb', k2⟩ := bind_ok.mp k2
    cases k2; exact hb'
  obtain ⟨N, hN⟩ := k3.2
  refine ⟨N, fun n hn r' hr' => ?_⟩
  rw [k2'] at hr'; cases hr'
  obtain ⟨d, hd, e⟩ := hN n hn
  exact ⟨d, by rw [k1']; exact hd, e⟩

theorem in_place (load : NDA V → Concrete α) (hl1 : ∀ t, (load t).data.shape = t.shape) (hl2 : ∀ t idx, m.leaf (load t).fill ((load t).data.get idx) = t.get idx)
    (e : Pointwise α) (x target : NDA V) (hb : ∀ t : NDA V, t.shape = target.shape → (e.arr (load t)).Built m limit true false .whole ∧ (e.arr (load t)).shape = .ok x.shape)
    (hx : (e.arr (load target)).Yields m limit x) (ht : target.shape = x.shape) :
    ∃ N t', t' ≈ₐ x ∧ ∀ n, N ≤ n → saveInPlace limit x.shape (fun t ks => (e.arr (load t)).getitem ks >>= fun b => b.eval m limit n) target = .ok t' := by
  obtain ⟨g, hg⟩ := pointwise_den m x.shape e
  have hden : ∀ t : NDA V, t.shape = x.shape → ((e.arr (load t)).den m).shape = x.shape := fun t h => by
    obtain ⟨k1, k2⟩ := hb t (h.trans ht.symm)
    exact k1.fine.1.den_shape m k2
  have hperm : ((saveKeys limit x.shape).flatMap (fun ks => cart (List.zipWith keyPos ks x.shape))).Perm (ndindex x.shape) := by
    unfold saveKeys
    rw [ndindex_pickCuts]
    exact cart_tiles_perm _ _ (allSlices_tiles limit false x.shape)
  obtain ⟨N, t', h1, h2, h3⟩ := saveInto_local (s := x.shape) (fun t => (e.arr (load t)).den m) g hden
    (fun t h idx hi => by rw [hg (load t) (by rw [hl1, h]) idx hi, hl2])
    (fun n t ks => (e.arr (load t)).getitem ks >>= fun b => b.eval m limit n) (saveKeys limit x.shape)
    (fun t h ks hks => by
      obtain ⟨k1, k2⟩ := hb t (h.trans ht.symm)
      have := hden t h
      exact read_block k1 (.of_den k1.fine.1 k1.fine.2.1) (by rw [this]; exact hks))
    (by unfold saveKeys; rw [ndindex_pickCuts]; exact cart_resolve limit false x.shape)
    (hperm.nodup_iff.mpr (nodup_ndindex _)) (fun i hi => (mem_ndindex _ _).mp (hperm.mem_iff.mp hi)) target ht
  refine ⟨N, t', ⟨h2, fun idx hi => ?_⟩, h1⟩
  rw [h2] at hi
  rw [h3 idx, if_pos (hperm.mem_iff.mpr ((mem_ndindex _ _).mpr hi))]
  obtain ⟨k1, k2⟩ := hb target rfl
  have hd := hx.2.den_eqv k1.fine.1 k1.fine.2.1
  rw [hd.2 idx hi, hg (load target) (by rw [hl1, ht]) idx hi, hl2]

section
variable [Field α] [LinearOrder α]

/-- C71, unmasked.  `save([e], [target])` where `e` reads the target pointwise (and anything else that does not read it): if `e` evaluates to
`x` beforehand, the target is left with `x`, although every block is read from a target that has been overwritten in part. -/
theorem C71_in_place (sqrt : α → α) (cast : Nat → α → α) (fill : α) (dt : Nat) (e : Pointwise α) (x target : NDA α)
    (hb : ∀ t : NDA α, t.shape = target.shape → (e.arr (plainSource fill dt t)).Built (ndMode sqrt cast) limit true false .whole ∧
      (e.arr (plainSource fill dt t)).shape = .ok x.shape)
    (hx : (e.arr (plainSource fill dt target)).Yields (ndMode sqrt cast) limit x) (ht : target.shape = x.shape) :
    ∃ N t', t' ≈ₐ x ∧ ∀ n, N ≤ n → saveInPlace limit x.shape
      (fun t ks => (e.arr (plainSource fill dt t)).getitem ks >>= fun b => b.eval (ndMode sqrt cast) limit n) target = .ok t' :=
  in_place (plainSource fill dt) (fun _ => rfl) (fun _ _ => rfl) e x target hb hx ht

/-- C71, masked: the target is a masked array and `save(..., masked=True)`. -/
theorem C71_in_place_masked (sqrt : α → α) (cast : Nat → α → α) (fill : α) (dt : Nat) (e : Pointwise α) (x target : NDA (Option α))
    (hb : ∀ t : NDA (Option α), t.shape = target.shape → (e.arr (maskedSource fill dt t)).Built (maMode sqrt cast) limit true false .whole ∧
      (e.arr (maskedSource fill dt t)).shape = .ok x.shape)
    (hx : (e.arr (maskedSource fill dt target)).Yields (maMode sqrt cast) limit x) (ht : target.shape = x.shape) :
    ∃ N t', t' ≈ₐ x ∧ ∀ n, N ≤ n → saveInPlace limit x.shape
      (fun t ks => (e.arr (maskedSource fill dt t)).getitem ks >>= fun b => b.eval (maMode sqrt cast) limit n) target = .ok t' :=
  in_place (maskedSource fill dt) (fun _ => rfl) (fun _ _ => rfl) e x target hb hx ht

end

theorem saveKeys_fits : ∀ {s : List Nat}, (∀ i, (s.drop i).prod ≤ limit) → ∃ ks, saveKeys limit s = [ks] := by
  have key : ∀ {s : List Nat}, (∀ i, (s.drop i).prod ≤ limit) → allSlicesInner limit false s = s.map (fun _ => [Key.full]) := by
    intro s
    induction s with
    | nil => intro _; rfl
    | cons n s ih =>
      intro h
      rw [allSlices_cons, ih (fun i => by simpa using h (i + 1))]
      rw [List.map_cons]
      congr 1
      unfold dimSlices
      rw [if_pos (by simpa using h 0)]
  intro s h
  unfold saveKeys
  rw [key h, ndindex_pickCuts]
  clear h
  induction s with
  | nil => exact ⟨[], rfl⟩
  | cons n s ih =>
    obtain ⟨ks, hks⟩ := ih
    exact ⟨Key.full :: ks, by rw [List.map_cons, cart, hks]; rfl⟩

/-- C71: if the whole array fits in one chunk, any expression may read the target, in any way: everything is read before anything is written.
`E t` is the expression while the target holds `t`. -/
theorem C71_one_chunk (E : NDA V → Arr α) (x target : NDA V) (hb : (E target).Built m limit true false .whole) (hx : (E target).Yields m limit x)
    (ht : target.shape = x.shape) (hfit : ∀ i, (x.shape.drop i).prod ≤ limit) :
    ∃ N, ∀ n, N ≤ n → ∃ t', saveInPlace limit x.shape (fun t ks => (E t).getitem ks >>= fun b => b.eval m limit n) target = .ok t' ∧ t' ≈ₐ x := by
  obtain ⟨⟨N, h⟩, _⟩ := C19_save (E target) x target hb hx ht
  refine ⟨N, fun n hn => ?_⟩
  obtain ⟨t', _, h1, h2, _⟩ := h n hn
  refine ⟨t', ?_, h2⟩
  rw [← h1, ← saveInPlace_const]
  unfold saveInPlace
  obtain ⟨ks, hks⟩ := saveKeys_fits hfit
  rw [hks]
  rfl

/-! ### Concrete cases -/

/-- `2 * target + target`, for example. -/
def exInPlace : Pointwise ℚ := .elem2 (.elem1 (.target false) ⟨fun x => 2 * x, none⟩) (.target false) ⟨fun x y => x + y, none⟩

/-- A target of shape 4×3. -/
def exTarget : NDA ℚ := ⟨[4, 3], fun i => (flatIndex [4, 3] i : Nat)⟩

theorem exInPlace_built (t : NDA ℚ) (h : t.shape = [4, 3]) : (exInPlace.arr (plainSource 0 0 t)).Built exMode 3 true false .whole ∧
    (exInPlace.arr (plainSource 0 0 t)).shape = .ok [4, 3] := by
  obtain ⟨s, g⟩ := t
  cases h
  refine ⟨.elem2 (.elem1 (.source _ _ _ _ (fun _ _ => rfl) (by simp)) rfl) (.source _ _ _ _ (fun _ _ => rfl) (by simp)) rfl rfl (Or.inr (Or.inl rfl)), ?_⟩
  have h : (Arr.adapter false (⟨⟨[4, 3], fun _ => none⟩, 0, 0⟩ : Concrete ℚ) []).shape = .ok [4, 3] := by decide +kernel
  exact h

example : Res.view ((exInPlace.arr (plainSource 0 0 exTarget)).eval exMode 3 3) = .ok ([4, 3], [0, 3, 6, 9, 12, 15, 18, 21, 24, 27, 30, 33]) ∧
    (saveKeys 3 [4, 3]).length = 4 ∧
    Res.view (saveInPlace 3 [4, 3] (fun t ks => (exInPlace.arr (plainSource 0 0 t)).getitem ks >>= fun b => b.eval exMode 3 3) exTarget) =
      .ok ([4, 3], [0, 3, 6, 9, 12, 15, 18, 21, 24, 27, 30, 33]) := by
  refine ⟨by decide +kernel, by decide +kernel, by decide +kernel⟩

/-- A target of shape 2×2. -/
def exTarget2 : NDA ℚ := ⟨[2, 2], fun i => (flatIndex [2, 2] i : Nat)⟩

/-- C71 fails for expressions that read other elements of the target: reversing an array in place, and subtracting the mean from every row. -/
theorem C71_other_elements_wrong :
    Res.view (saveInPlace 3 [4, 3] (fun t ks => (Arr.adapter false (plainSource 0 0 t) [.slice ⟨none, none, some (-1)⟩]).getitem ks >>= fun b => b.eval exMode 3 3)
      exTarget) = .ok ([4, 3], [9, 10, 11, 6, 7, 8, 6, 7, 8, 9, 10, 11]) ∧
    Res.view ((Arr.adapter false (plainSource 0 0 exTarget) [.slice ⟨none, none, some (-1)⟩]).eval exMode 3 3) =
      .ok ([4, 3], [9, 10, 11, 6, 7, 8, 3, 4, 5, 0, 1, 2]) ∧
    Res.view (saveInPlace 2 [2, 2] (fun t ks => (Arr.elem2 (.adapter false (plainSource 0 0 t) [])
      (.bcast (.newAxes (.agg (.adapter false (plainSource 0 0 t) []) 0 (.mean 1)) [1, 0]) [(0, 2)] []) ⟨fun x y => x - y, none⟩).getitem ks >>=
        fun b => b.eval exMode 2 3) exTarget2) = .ok ([2, 2], [-1, -1, 3 / 2, 2]) ∧
    Res.view ((Arr.elem2 (.adapter false (plainSource 0 0 exTarget2) [])
      (.bcast (.newAxes (.agg (.adapter false (plainSource 0 0 exTarget2) []) 0 (.mean 1)) [1, 0]) [(0, 2)] [])
        ⟨fun x y => x - y, none⟩).eval exMode 2 3) = .ok ([2, 2], [-1, -1, 1, 1]) := by
  refine ⟨by decide +kernel, by decide +kernel, by decide +kernel, by decide +kernel⟩

end Biggus

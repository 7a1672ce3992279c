import Verif.Props.InPlace
/-
C83: an in-place save that fails or is interrupted.
-/
namespace Biggus
open Spec

variable {α V : Type}

/-- `saveIntoRun` and `saveInto` are the same loop. -/
theorem saveIntoRun_ok {β : Type} (read : NDA β → List Key → Res (NDA β)) : ∀ (L : List (List Key)) (t t' : NDA β),
    saveInto read L t = .ok t' ↔ saveIntoRun read L t = (t', none)
  | [], t, t' => by simp [saveInto, saveIntoRun]
  | ks :: L, t, t' => by
    unfold saveInto saveIntoRun
    cases h : read t ks with
    | error e => simp [bind, Except.bind]
    | ok d =>
      cases h2 : npAssignments t.shape ks d with
      | error e => simp [h2, bind, Except.bind]
      | ok w => simpa [h2, bind, Except.bind] using saveIntoRun_ok read L _ t'

/-- The loop for a read function that computes every element from the same element of the target, or fails. -/
theorem saveIntoRun_local {β : Type} {s : List Nat} (F : NDA β → NDA β) (g : List Nat → β → β) (hF : ∀ t, t.shape = s → (F t).shape = s)
    (hg : ∀ t, t.shape = s → ∀ idx, InB s idx → (F t).get idx = g idx (t.get idx)) (real : Nat → NDA β → List Key → Res (NDA β)) :
    ∀ (L : List (List Key)), (∀ t, t.shape = s → ∀ ks ∈ L, ∃ N, ∀ n, N ≤ n → ∀ r, npIndex (F t) ks = .ok r → ∃ d, real n t ks = .ok d ∧ d ≈ₐ r) →
    (∀ ks ∈ L, ks.length = s.length ∧ (∀ k ∈ ks, k.isNewaxis = false ∧ k.isEllipsis = false) ∧ ∃ σ, resolve ks s = .ok σ) →
    (L.flatMap (fun ks => cart (List.zipWith keyPos ks s))).Nodup → (∀ i ∈ L.flatMap (fun ks => cart (List.zipWith keyPos ks s)), InB s i) → ∀ t, t.shape = s →
    ∃ N, ∀ n, N ≤ n → ∀ read : NDA β → List Key → Res (NDA β), (∀ t ks d, read t ks = .ok d → real n t ks = .ok d) →
      ∀ (k : Nat) (t' : NDA β) (e : Option PyErr), saveIntoRun read (L.take k) t = (t', e) →
      t'.shape = s ∧ ∃ j, j ≤ min k L.length ∧
        (∀ idx, t'.get idx = if idx ∈ (L.take j).flatMap (fun ks => cart (List.zipWith keyPos ks s)) then g idx (t.get idx) else t.get idx) ∧
        (e = none → j = min k L.length) ∧
        ∀ e', e = some e' → ∃ ks, L[j]? = some ks ∧ read t' ks = .error e' := by
  intro L
  induction L with
  | nil =>
    intro _ _ _ _ t ht
    refine ⟨0, fun _ _ _ _ k t' e h => ?_⟩
    simp only [List.take_nil, saveIntoRun, Prod.mk.injEq] at h
    obtain ⟨rfl, rfl⟩ := h
    exact ⟨ht, 0, by simp, by simp, fun _ => by simp, fun e' h => by simp at h⟩
  | cons ks L ih =>
    intro hread hL hnd hin t ht
    obtain ⟨hl, hk, σ, hσ⟩ := hL ks List.mem_cons_self
    rw [List.flatMap_cons, List.nodup_append] at hnd
    simp only [List.flatMap_cons, List.mem_append] at hin
    have hpos : (ndindex (selShape σ)).map (selSrc σ) = cart (List.zipWith keyPos ks s) :=
      ndindex_selSrc ks s σ (fun k hk' => by rintro rfl; have := (hk _ hk').1; simp [Key.isNewaxis] at this) hσ
    obtain ⟨N1, hN1⟩ := hread t ht ks List.mem_cons_self
    let ws := (ndindex (selShape σ)).map (fun j => (selSrc σ j, (F t).get (selSrc σ j)))
    have hws : ws.map Prod.fst = cart (List.zipWith keyPos ks s) := by rw [← hpos, List.map_map]; rfl
    have hstep : ∀ n, N1 ≤ n → ∃ d, real n t ks = .ok d ∧ npAssignments t.shape ks d = .ok ws := by
      intro n hn
      obtain ⟨d, hd, hds, hdg⟩ := hN1 n hn _ (npIndex_exact (F t) ks σ (by rw [hF t ht]; exact hl) hk (by rw [hF t ht]; exact hσ))
      refine ⟨d, hd, ?_⟩
      have h1 : d.shape = selShape σ := hds
      unfold npAssignments
      rw [ht, hσ]
      simp only [bind, Except.bind, if_pos h1]
      congr 1
      apply List.map_congr_left
      intro j hj
      have : d.get j = (F t).get (selSrc σ j) := hdg j (by rw [h1]; exact inB_selShape_of_mem hj)
      rw [this]
    have hsh : (ws.foldl NDA.update t).shape = s := by rw [foldl_update_shape, ht]
    obtain ⟨N2, h2⟩ := ih (fun t ht k hk => hread t ht k (List.mem_cons_of_mem _ hk)) (fun k hk => hL k (List.mem_cons_of_mem _ hk)) hnd.2.1
      (fun i hi => hin i (Or.inr hi)) _ hsh
    refine ⟨max N1 N2, fun n hn read hr k t' e hrun => ?_⟩
    cases k with
    | zero =>
      simp only [List.take_zero, saveIntoRun, Prod.mk.injEq] at hrun
      obtain ⟨rfl, rfl⟩ := hrun
      exact ⟨ht, 0, by simp, by simp, fun _ => by simp, fun e' h => by simp at h⟩
    | succ k =>
      rw [List.take_succ_cons] at hrun
      unfold saveIntoRun at hrun
      cases hd : read t ks with
      | error e0 =>
        simp only [hd, Prod.mk.injEq] at hrun
        obtain ⟨rfl, rfl⟩ := hrun
        refine ⟨ht, 0, by simp, by simp, fun h => by simp at h, fun e' h => ?_⟩
        simp only [Option.some.injEq] at h
        subst h
        exact ⟨ks, rfl, hd⟩
      | ok d =>
        obtain ⟨d', k1, k2⟩ := hstep n (le_trans (le_max_left _ _) hn)
        have : d = d' := by have := hr t ks d hd; rw [k1] at this; cases this; rfl
        subst this
        simp only [hd, k2] at hrun
        obtain ⟨q1, j, q2, q3, q4, q5⟩ := h2 n (le_trans (le_max_right _ _) hn) read hr k t' e hrun
        refine ⟨q1, j + 1, by simp only [List.length_cons]; omega, fun idx => ?_, fun h => by have := q4 h; simp only [List.length_cons]; omega,
          fun e' he => by simpa using q5 e' he⟩
        rw [q3 idx, foldl_update_get ws t idx ((F t).get idx) (fun w hw he => by
          simp only [ws, List.mem_map] at hw
          obtain ⟨j, _, rfl⟩ := hw
          rw [← he]), hws, List.take_succ_cons, List.flatMap_cons]
        simp only [List.mem_append]
        by_cases c1 : idx ∈ cart (List.zipWith keyPos ks s)
        · have c2 : idx ∉ (L.take j).flatMap (fun ks => cart (List.zipWith keyPos ks s)) := fun c2 => by
            rw [List.mem_flatMap] at c2
            obtain ⟨k0, c3, c4⟩ := c2
            exact hnd.2.2 idx c1 idx (List.mem_flatMap.mpr ⟨k0, List.mem_of_mem_take c3, c4⟩) rfl
          simp only [c1, c2, if_true, if_false, true_or]
          exact hg t ht idx (hin idx (Or.inl c1))
        · simp only [c1, if_false, false_or]

variable [Inhabited α] [Inhabited V] {m : Mode α V} {limit : Nat}

theorem in_place_crash (load : NDA V → Concrete α) (hl1 : ∀ t, (load t).data.shape = t.shape)
    (hl2 : ∀ t idx, m.leaf (load t).fill ((load t).data.get idx) = t.get idx)
    (e : Pointwise α) (x target : NDA V) (hb : ∀ t : NDA V, t.shape = target.shape → (e.arr (load t)).Built m limit true false .whole ∧ (e.arr (load t)).shape = .ok x.shape)
    (hx : (e.arr (load target)).Yields m limit x) (ht : target.shape = x.shape) :
    ∃ N, ∀ n, N ≤ n → ∀ read : NDA V → List Key → Res (NDA V),
      (∀ t ks d, read t ks = .ok d → ((e.arr (load t)).getitem ks >>= fun b => b.eval m limit n) = .ok d) →
      ∀ (k : Nat) (t : NDA V) (err : Option PyErr), saveIntoRun read ((saveKeys limit x.shape).take k) target = (t, err) →
      t.shape = x.shape ∧ ∃ j, j ≤ min k (saveKeys limit x.shape).length ∧
        (∀ idx, t.get idx =
          if ((saveKeys limit x.shape).take j).any (fun ks => inRegion ks x.shape idx) = true then x.get idx else target.get idx) ∧
        (err = none → j = min k (saveKeys limit x.shape).length) ∧
        ∀ e', err = some e' → ∃ ks, (saveKeys limit x.shape)[j]? = some ks ∧ read t ks = .error e' := by
  obtain ⟨g, hg⟩ := pointwise_den m x.shape e
  have hden : ∀ t : NDA V, t.shape = x.shape → ((e.arr (load t)).den m).shape = x.shape := fun t h => by
    obtain ⟨k1, k2⟩ := hb t (h.trans ht.symm)
    exact k1.fine.1.den_shape m k2
  have hperm : ((saveKeys limit x.shape).flatMap (fun ks => cart (List.zipWith keyPos ks x.shape))).Perm (ndindex x.shape) := by
    unfold saveKeys
    rw [ndindex_pickCuts]
    exact cart_tiles_perm _ _ (allSlices_tiles limit false x.shape)
  have hres : ∀ ks ∈ saveKeys limit x.shape, ks.length = x.shape.length ∧ (∀ k ∈ ks, k.isNewaxis = false ∧ k.isEllipsis = false) ∧
      ∃ σ, resolve ks x.shape = .ok σ := by unfold saveKeys; rw [ndindex_pickCuts]; exact cart_resolve limit false x.shape
  have hin : ∀ i ∈ (saveKeys limit x.shape).flatMap (fun ks => cart (List.zipWith keyPos ks x.shape)), InB x.shape i :=
    fun i hi => (mem_ndindex _ _).mp (hperm.mem_iff.mp hi)
  obtain ⟨N, hN⟩ := saveIntoRun_local (s := x.shape) (fun t => (e.arr (load t)).den m) g hden
    (fun t h idx hi => by rw [hg (load t) (by rw [hl1, h]) idx hi, hl2])
    (fun n t ks => (e.arr (load t)).getitem ks >>= fun b => b.eval m limit n) (saveKeys limit x.shape)
    (fun t h ks hks => by
      obtain ⟨k1, k2⟩ := hb t (h.trans ht.symm)
      have := hden t h
      exact read_block k1 (.of_den k1.fine.1 k1.fine.2.1) (by rw [this]; exact hks))
    hres (hperm.nodup_iff.mpr (nodup_ndindex _)) hin target ht
  refine ⟨N, fun n hn read hr k t err hrun => ?_⟩
  obtain ⟨q1, j, q2, q3, q4, q5⟩ := hN n hn read hr k t err hrun
  refine ⟨q1, j, q2, fun idx => ?_, q4, q5⟩
  have hiff : (((saveKeys limit x.shape).take j).any (fun ks => inRegion ks x.shape idx) = true) ↔
      idx ∈ ((saveKeys limit x.shape).take j).flatMap (fun ks => cart (List.zipWith keyPos ks x.shape)) := by
    rw [List.any_eq_true, List.mem_flatMap]
    constructor
    · rintro ⟨ks, h1, h2⟩
      exact ⟨ks, h1, (mem_cart_keyPos ks x.shape idx (hres ks (List.mem_of_mem_take h1)).1).mpr h2⟩
    · rintro ⟨ks, h1, h2⟩
      exact ⟨ks, h1, (mem_cart_keyPos ks x.shape idx (hres ks (List.mem_of_mem_take h1)).1).mp h2⟩
  rw [q3 idx]
  by_cases c : idx ∈ ((saveKeys limit x.shape).take j).flatMap (fun ks => cart (List.zipWith keyPos ks x.shape))
  · rw [if_pos c, if_pos (hiff.mpr c)]
    have hi : InB x.shape idx := hin idx (by
      rw [List.mem_flatMap] at c ⊢
      obtain ⟨ks, h1, h2⟩ := c
      exact ⟨ks, List.mem_of_mem_take h1, h2⟩)
    obtain ⟨k1, k2⟩ := hb target rfl
    have hd := hx.2.den_eqv k1.fine.1 k1.fine.2.1
    rw [hd.2 idx hi, hg (load target) (by rw [hl1, ht]) idx hi, hl2]
  · rw [if_neg c, if_neg (fun h => c (hiff.mp h))]

section
variable [Field α] [LinearOrder α]

/-- C83, unmasked.  `save([e], [target])` where `e` reads the target pointwise, interrupted after any number `k` of blocks or ended by an exception
of any read (`read` is the evaluation of a block from the current content of the target, except that it may fail): a number `j` of blocks hold
the elements of `x` (what `e` evaluates to beforehand), the rest of the target is as before; without an exception `j` is `k` (or all blocks), and an
exception is that of reading the next block. -/
theorem C83_interrupted_in_place (sqrt : α → α) (cast : Nat → α → α) (fill : α) (dt : Nat) (e : Pointwise α) (x target : NDA α)
    (hb : ∀ t : NDA α, t.shape = target.shape → (e.arr (plainSource fill dt t)).Built (ndMode sqrt cast) limit true false .whole ∧
      (e.arr (plainSource fill dt t)).shape = .ok x.shape)
    (hx : (e.arr (plainSource fill dt target)).Yields (ndMode sqrt cast) limit x) (ht : target.shape = x.shape) :
    ∃ N, ∀ n, N ≤ n → ∀ read : NDA α → List Key → Res (NDA α),
      (∀ t ks d, read t ks = .ok d → ((e.arr (plainSource fill dt t)).getitem ks >>= fun b => b.eval (ndMode sqrt cast) limit n) = .ok d) →
      ∀ (k : Nat) (t : NDA α) (err : Option PyErr), saveIntoRun read ((saveKeys limit x.shape).take k) target = (t, err) →
      t.shape = x.shape ∧ ∃ j, j ≤ min k (saveKeys limit x.shape).length ∧
        (∀ idx, t.get idx =
          if ((saveKeys limit x.shape).take j).any (fun ks => inRegion ks x.shape idx) = true then x.get idx else target.get idx) ∧
        (err = none → j = min k (saveKeys limit x.shape).length) ∧
        ∀ e', err = some e' → ∃ ks, (saveKeys limit x.shape)[j]? = some ks ∧ read t ks = .error e' :=
  in_place_crash (plainSource fill dt) (fun _ => rfl) (fun _ _ => rfl) e x target hb hx ht

/-- C83, masked: the target is a masked array and `save(..., masked=True)`. -/
theorem C83_interrupted_in_place_masked (sqrt : α → α) (cast : Nat → α → α) (fill : α) (dt : Nat) (e : Pointwise α) (x target : NDA (Option α))
    (hb : ∀ t : NDA (Option α), t.shape = target.shape → (e.arr (maskedSource fill dt t)).Built (maMode sqrt cast) limit true false .whole ∧
      (e.arr (maskedSource fill dt t)).shape = .ok x.shape)
    (hx : (e.arr (maskedSource fill dt target)).Yields (maMode sqrt cast) limit x) (ht : target.shape = x.shape) :
    ∃ N, ∀ n, N ≤ n → ∀ read : NDA (Option α) → List Key → Res (NDA (Option α)),
      (∀ t ks d, read t ks = .ok d → ((e.arr (maskedSource fill dt t)).getitem ks >>= fun b => b.eval (maMode sqrt cast) limit n) = .ok d) →
      ∀ (k : Nat) (t : NDA (Option α)) (err : Option PyErr), saveIntoRun read ((saveKeys limit x.shape).take k) target = (t, err) →
      t.shape = x.shape ∧ ∃ j, j ≤ min k (saveKeys limit x.shape).length ∧
        (∀ idx, t.get idx =
          if ((saveKeys limit x.shape).take j).any (fun ks => inRegion ks x.shape idx) = true then x.get idx else target.get idx) ∧
        (err = none → j = min k (saveKeys limit x.shape).length) ∧
        ∀ e', err = some e' → ∃ ks, (saveKeys limit x.shape)[j]? = some ks ∧ read t ks = .error e' :=
  in_place_crash (maskedSource fill dt) (fun _ => rfl) (fun _ _ => rfl) e x target hb hx ht

end

/-! ### Concrete cases -/

/-- A source that fails when the third block is read. -/
def exFailingThird (t : NDA ℚ) (ks : List Key) : Res (NDA ℚ) :=
  if ks = (saveKeys 3 [4, 3]).getD 2 [] then .error .runtime else (exInPlace.arr (plainSource 0 0 t)).getitem ks >>= fun b => b.eval exMode 3 3

/-- The hypotheses of `C83_interrupted_in_place` hold for `3 * target`, and the read of the third of four blocks failing leaves two new rows
and two old ones. -/
example : (∀ t : NDA ℚ, t.shape = exTarget.shape → (exInPlace.arr (plainSource 0 0 t)).Built exMode 3 true false .whole ∧
      (exInPlace.arr (plainSource 0 0 t)).shape = .ok [4, 3]) ∧
    (∀ t ks d, exFailingThird t ks = .ok d → ((exInPlace.arr (plainSource 0 0 t)).getitem ks >>= fun b => b.eval exMode 3 3) = .ok d) ∧
    Res.view (.ok (saveIntoRun exFailingThird (saveKeys 3 [4, 3]) exTarget).1) = .ok ([4, 3], [0, 3, 6, 9, 12, 15, 6, 7, 8, 9, 10, 11]) ∧
    (saveIntoRun exFailingThird (saveKeys 3 [4, 3]) exTarget).2 = some .runtime := by
  refine ⟨exInPlace_built, fun t ks d h => ?_, by decide +kernel, by decide +kernel⟩
  unfold exFailingThird at h
  split at h
  · cases h
  · exact h

/-- Repeating an interrupted in-place save is not right: the blocks that were written are computed a second time. -/
theorem C83_repeated_is_wrong :
    Res.view (saveInPlace 3 [4, 3] (fun t ks => (exInPlace.arr (plainSource 0 0 t)).getitem ks >>= fun b => b.eval exMode 3 3)
      (saveIntoRun exFailingThird (saveKeys 3 [4, 3]) exTarget).1) = .ok ([4, 3], [0, 9, 18, 27, 36, 45, 18, 21, 24, 27, 30, 33]) := by
  decide +kernel

end Biggus

import Verif.Props.Save
/-
C64: `biggus.save` that fails or is interrupted.
-/
namespace Biggus
open Spec

theorem saveRun_spec {β : Type} (src : NDA β) (read : List Key → Res (NDA β)) : ∀ (L : List (List Key)) (t : NDA β),
    t.shape = src.shape →
    (∀ ks ∈ L, ∀ d r, read ks = .ok d → npIndex src ks = .ok r → d ≈ₐ r) →
    (∀ ks ∈ L, ks.length = src.shape.length ∧ (∀ k ∈ ks, k.isNewaxis = false ∧ k.isEllipsis = false) ∧
      ∃ s, resolve ks src.shape = .ok s) →
    ∃ j, j ≤ L.length ∧ (saveRun read L t).1.shape = src.shape ∧
      (∀ idx, (saveRun read L t).1.get idx =
        if (L.take j).any (fun ks => inRegion ks src.shape idx) = true then src.get idx else t.get idx) ∧
      ((saveRun read L t).2 = none → j = L.length) ∧
      ∀ e, (saveRun read L t).2 = some e → ∃ ks, L[j]? = some ks ∧ read ks = .error e
  | [], t, ht, _, _ => ⟨0, le_refl _, ht, fun idx => by simp [saveRun], fun _ => rfl, fun e h => by cases h⟩
  | ks :: L, t, ht, hr, hL => by
    obtain ⟨hl, hk, s, hs⟩ := hL ks List.mem_cons_self
    unfold saveRun
    cases hd : read ks with
    | error e =>
      refine ⟨0, Nat.zero_le _, ht, fun idx => by simp, fun h => by simp at h, fun e' h => ?_⟩
      simp only [Option.some.injEq] at h
      subst h
      exact ⟨ks, rfl, hd⟩
    | ok d =>
      obtain ⟨hds, hdg⟩ := hr ks List.mem_cons_self d _ hd (npIndex_exact src ks s hl hk hs)
      have hds : d.shape = selShape s := hds
      have hw : npAssignments t.shape ks d = .ok ((ndindex (selShape s)).map (fun j => (selSrc s j, d.get j))) := by
        simp [npAssignments, ht, hs, hds, bind, Except.bind, pure, Except.pure]
      simp only [hw]
      set w := (ndindex (selShape s)).map (fun j => (selSrc s j, d.get j)) with hwdef
      have hfst : w.map Prod.fst = cart (List.zipWith keyPos ks src.shape) := by
        rw [hwdef, List.map_map, ← ndindex_selSrc ks src.shape s (fun k hk' => by
          rintro rfl; have := (hk _ hk').1; simp [Key.isNewaxis] at this) hs]
        rfl
      have hval : ∀ v ∈ w, v.2 = src.get v.1 := by
        intro v hv
        simp only [hwdef, List.mem_map] at hv
        obtain ⟨j, hj, rfl⟩ := hv
        exact hdg j (by rw [hds]; exact inB_selShape_of_mem hj)
      have hget : ∀ idx, (w.foldl NDA.update t).get idx = if inRegion ks src.shape idx = true then src.get idx else t.get idx := by
        intro idx
        rw [foldl_update_get w t idx (src.get idx) (fun v hv he => by rw [hval v hv, he]), hfst]
        simp only [mem_cart_keyPos ks src.shape idx hl]
      obtain ⟨j, h1, h2, h3, h4, h5⟩ := saveRun_spec src read L (w.foldl NDA.update t) (by rw [foldl_update_shape, ht])
        (fun k hk => hr k (List.mem_cons_of_mem _ hk)) (fun k hk => hL k (List.mem_cons_of_mem _ hk))
      refine ⟨j + 1, by simp only [List.length_cons]; omega, h2, fun idx => ?_,
        fun h => by simp only [List.length_cons]; rw [h4 h], fun e h => by simpa using h5 e h⟩
      rw [h3, hget, List.take_succ_cons, List.any_cons]
      by_cases q1 : (L.take j).any (fun ks => inRegion ks src.shape idx) = true
      · simp [q1]
      · simp only [Bool.not_eq_true] at q1
        simp [q1]

section
variable {α V : Type} [Inhabited α] [Inhabited V] {m : Mode α V} {limit : Nat}

/-- C64: `biggus.save([a], [target])` interrupted after any number `k` of pieces, or ended by an exception of any read (`read` is
the evaluation of a piece, except that it may fail): a number of pieces `j` has been written completely, with the elements of `x`
(what evaluation of `a` gives), and no other element of the target has been changed; without an exception `j` is `k` (or all),
and an exception is that of reading the next piece. -/
theorem C64_interrupted_save (a : Arr α) (x target : NDA V) (hb : a.Built m limit true false .whole) (hx : a.Yields m limit x)
    (ht : target.shape = x.shape) :
    ∃ N, ∀ n, N ≤ n → ∀ read : List Key → Res (NDA V),
      (∀ ks d, read ks = .ok d → (a.getitem ks >>= fun b => b.eval m limit n) = .ok d) →
      ∀ (k : Nat) (t : NDA V) (e : Option PyErr), saveRun read ((saveKeys limit x.shape).take k) target = (t, e) →
      t.shape = x.shape ∧ ∃ j, j ≤ min k (saveKeys limit x.shape).length ∧
        (∀ idx, t.get idx =
          if ((saveKeys limit x.shape).take j).any (fun ks => inRegion ks x.shape idx) = true then x.get idx else target.get idx) ∧
        (e = none → j = min k (saveKeys limit x.shape).length) ∧
        ∀ e', e = some e' → ∃ ks, (saveKeys limit x.shape)[j]? = some ks ∧ read ks = .error e' := by
  obtain ⟨h1, h2, _, h4⟩ := hb.fine
  obtain ⟨N, hN⟩ := eventually_all (saveKeys limit x.shape)
    (fun ks n => ∀ r, npIndex x ks = .ok r → ∃ d, (a.getitem ks >>= fun b => b.eval m limit n) = .ok d ∧ d ≈ₐ r) (by
      intro ks hks
      have hs := saveKeys_simple limit x.shape ks hks
      obtain ⟨b, r, k1, k2, k3, _⟩ := C06_simple_keys true [ks] a x h1 h2 h4 hx ⟨hs, fun _ _ _ _ => trivial⟩
      have k1' : a.getitem ks = .ok b := by
        rw [List.foldlM_cons] at k1
        obtain ⟨b', hb', k1⟩ := bind_ok.mp k1
        cases k1; exact hb'
      have k2' : npIndex x ks = .ok r := by
        unfold indexAll at k2
        rw [List.foldlM_cons] at k2
        obtain ⟨b', hb', k2⟩ := bind_ok.mp k2
        cases k2; exact hb'
      obtain ⟨N, hN⟩ := k3.2
      refine ⟨N, fun n hn r' hr' => ?_⟩
      rw [k2'] at hr'; cases hr'
      obtain ⟨d, hd, e⟩ := hN n hn
      exact ⟨d, by rw [k1']; exact hd, e⟩)
  refine ⟨N, fun n hn read hread k t e hrun => ?_⟩
  have hmem : ∀ {ks}, ks ∈ (saveKeys limit x.shape).take k → ks ∈ saveKeys limit x.shape := List.mem_of_mem_take
  obtain ⟨j, s1, s2, s3, s4, s5⟩ := saveRun_spec x read ((saveKeys limit x.shape).take k) target ht
    (fun ks hks d r hd hr => by
      obtain ⟨d', e1, e2⟩ := hN n hn ks (hmem hks) r hr
      rw [hread ks d hd] at e1
      cases e1
      exact e2)
    (fun ks hks => by
      have := hmem hks
      unfold saveKeys at this
      rw [ndindex_pickCuts] at this
      exact cart_resolve limit false x.shape ks this)
  rw [hrun] at s2 s3 s4 s5
  simp only [List.length_take] at s1 s4
  refine ⟨s2, j, s1, fun idx => ?_, s4, fun e' he => ?_⟩
  · rw [s3 idx, List.take_take, min_eq_left (by omega)]
  · obtain ⟨ks, q1, q2⟩ := s5 e' he
    refine ⟨ks, ?_, q2⟩
    rw [List.getElem?_take] at q1
    split at q1
    · exact q1
    · cases q1

/-- C64: in particular every element of the target is the old or the right one, at every crash point. -/
theorem C64_no_garbage (a : Arr α) (x target : NDA V) (hb : a.Built m limit true false .whole) (hx : a.Yields m limit x)
    (ht : target.shape = x.shape) :
    ∃ N, ∀ n, N ≤ n → ∀ read : List Key → Res (NDA V),
      (∀ ks d, read ks = .ok d → (a.getitem ks >>= fun b => b.eval m limit n) = .ok d) →
      ∀ (k : Nat) (idx : List Nat), (saveRun read ((saveKeys limit x.shape).take k) target).1.get idx = x.get idx ∨
        (saveRun read ((saveKeys limit x.shape).take k) target).1.get idx = target.get idx := by
  obtain ⟨N, hN⟩ := C64_interrupted_save a x target hb hx ht
  refine ⟨N, fun n hn read hread k idx => ?_⟩
  obtain ⟨_, j, _, h, _⟩ := hN n hn read hread k _ _ rfl
  rw [h idx]
  split
  · exact Or.inl rfl
  · exact Or.inr rfl

end

/-- A read that fails for the second row. -/
def exFailingRead (ks : List Key) : Res (NDA ℚ) :=
  if ks.head? = some (.int 1) then .error .runtime
  else (Arr.agg (.adapter false exSource []) 1 .sum).getitem ks >>= fun b => b.eval exMode 2 2

/-- The third of four pieces cannot be read: the first two have been written. -/
example : (ndindex [2, 4]).map (saveRun exFailingRead (saveKeys 2 [2, 4]) ⟨[2, 4], fun _ => -1⟩).1.get =
      [12, 15, 18, 21, -1, -1, -1, -1] ∧
    (saveRun exFailingRead (saveKeys 2 [2, 4]) ⟨[2, 4], fun _ => -1⟩).2 = some .runtime ∧ (saveKeys 2 [2, 4]).length = 4 := by
  decide +kernel

end Biggus

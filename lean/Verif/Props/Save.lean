import Verif.Props.Elementwise
import Verif.Props.Chunks
/-
C19: `biggus.save`.
-/
namespace Biggus
open Spec

theorem simpleKey_of_resolve1 {s : PySlice} {n : Nat} {l : List Nat} (hn : s.negStep = false) (h : resolve1 (.slice s) n = .ok (.pick l))
    (hl : n ≠ 0 → l ≠ []) : SimpleKey true false (.slice s) n := by
  refine Or.inr (Or.inl ?_)
  simp only [resolve1] at h
  obtain ⟨r, hr, h⟩ := bind_ok.mp h
  cases h
  exact ⟨s, r, rfl, fun _ => hn, hr, fun h0 e => hl h0 (by rw [e]; rfl)⟩

theorem dimSlices_simple (limit : Nat) (al : Bool) (n size : Nat) (k : Key) (hk : k ∈ dimSlices limit al n size) :
    SimpleKey true false k size := by
  rcases dimSlices_cases limit al n size with ⟨_, h⟩ | ⟨_, _, h⟩ | ⟨h1, h2, hn, h⟩
  · rw [h] at hk; simp at hk; subst hk
    refine simpleKey_of_resolve1 rfl (resolve1_full size) (fun h0 e => h0 ?_)
    simpa using congrArg List.length e
  · rw [h, List.mem_map] at hk
    obtain ⟨i, hi, rfl⟩ := hk
    have hi := List.mem_range.mp hi
    cases al
    · exact Or.inl ⟨i, rfl, by simp [inRange]; omega, fun _ => by omega⟩
    · refine simpleKey_of_resolve1 rfl (resolve1_span i (i + 1) size (by omega) (by omega)) (fun _ e => ?_)
      simp at e
  · rw [h, List.mem_map] at hk
    obtain ⟨j, hj, rfl⟩ := hk
    have hs : 0 < limit / n := Nat.div_pos (by omega) hn
    have := step_lt size _ j hs (List.mem_range.mp hj)
    refine simpleKey_of_resolve1 rfl (resolve1_span _ _ _ (by omega) (by omega)) (fun _ e => ?_)
    have := congrArg List.length e
    simp only [List.length_range', List.length_nil] at this
    omega

theorem saveKeys_simple (limit : Nat) (s : List Nat) : ∀ ks ∈ saveKeys limit s, SimpleKeys true ks s := by
  have key : ∀ s : List Nat, ∀ ks ∈ cart (allSlicesInner limit false s), List.Forall₂ (SimpleKey true false) ks s := by
    intro s
    induction s with
    | nil =>
      intro ks hks
      simp [allSlicesInner, allSlicesGo, cart] at hks
      subst hks; exact .nil
    | cons n ns ih =>
      intro ks hks
      rw [allSlices_cons] at hks
      simp only [cart, List.mem_flatMap, List.mem_map] at hks
      obtain ⟨k, hk, t, ht, rfl⟩ := hks
      exact .cons (dimSlices_simple _ _ _ _ k hk) (ih t ht)
  intro ks hks
  unfold saveKeys at hks
  rw [ndindex_pickCuts] at hks
  obtain ⟨h1, h2, _⟩ := cart_resolve limit false s ks hks
  refine ⟨ks, ?_, ?_⟩
  · have := expandKeys_exact ks h2
    rw [← h1]; exact this
  · have : dropNew ks = ks := by
      unfold dropNew
      rw [List.filter_eq_self]
      intro k hk; simp [(h2 k hk).1]
    rw [this]
    exact key s ks hks

section
variable {α V : Type} [Inhabited α] [Inhabited V] {m : Mode α V} {limit : Nat}

/-- Eventually-quantified bounds for the members of a list can be merged. -/
theorem eventually_all {β : Type} (L : List β) (P : β → Nat → Prop) (h : ∀ x ∈ L, ∃ N, ∀ n, N ≤ n → P x n) :
    ∃ N, ∀ n, N ≤ n → ∀ x ∈ L, P x n := by
  induction L with
  | nil => exact ⟨0, fun _ _ x hx => by cases hx⟩
  | cons x L ih =>
    obtain ⟨N, hN⟩ := h x List.mem_cons_self
    obtain ⟨M, hM⟩ := ih (fun y hy => h y (List.mem_cons_of_mem _ hy))
    refine ⟨max N M, fun n hn y hy => ?_⟩
    rcases List.mem_cons.mp hy with rfl | hy
    · exact hN n (le_trans (le_max_left _ _) hn)
    · exact hM n (le_trans (le_max_right _ _) hn) y hy

/-- C19.  `biggus.save([a], [target])` for any expression of the grammar, whose evaluation gives `x`: it succeeds, afterwards the
target equals `x`; every element of the target is assigned exactly once; and every element of the source lies in exactly
one of the pieces `a[keys]` that are evaluated. -/
theorem C19_save (a : Arr α) (x target : NDA V) (hb : a.Built m limit true false .whole) (hx : a.Yields m limit x)
    (ht : target.shape = x.shape) :
    (∃ N, ∀ n, N ≤ n → ∃ t ws, save limit x.shape (fun ks => a.getitem ks >>= fun b => b.eval m limit n) target = .ok t ∧ t ≈ₐ x ∧
      saveWrites limit x.shape target.shape (fun ks => a.getitem ks >>= fun b => b.eval m limit n) = .ok ws ∧
      (ws.map Prod.fst).Perm (ndindex x.shape)) ∧
    ∀ idx, InB x.shape idx → ((saveKeys limit x.shape).filter (fun ks => inRegion ks x.shape idx)).length = 1 := by
  obtain ⟨h1, h2, _, h4⟩ := hb.fine
  refine ⟨?_, ?_⟩
  · obtain ⟨N, hN⟩ := eventually_all (saveKeys limit x.shape)
      (fun ks n => ∀ r, npIndex x ks = .ok r → ∃ d, (a.getitem ks >>= fun b => b.eval m limit n) = .ok d ∧ d ≈ₐ r) (by
        intro ks hks
        have hs := saveKeys_simple limit x.shape ks hks
        obtain ⟨b, r, k1, k2, k3, _⟩ := C06_simple_keys true [ks] a x h1 h2 h4 hx ⟨hs, fun _ _ _ _ => trivial⟩
        have k1' : a.getitem ks = .ok b := by
          rw [List.foldlM_cons] at k1
          obtain ⟨b', hb', k1⟩ := bind_ok.mp k1
          cases k1; exact hb'
        have k2' : npIndex x ks = .ok r := by
          unfold indexAll at k2
          rw [List.foldlM_cons] at k2
          obtain ⟨b', hb', k2⟩ := bind_ok.mp k2
          cases k2; exact hb'
        obtain ⟨N, hN⟩ := k3.2
        refine ⟨N, fun n hn r' hr' => ?_⟩
        rw [k2'] at hr'; cases hr'
        obtain ⟨d, hd, e⟩ := hN n hn
        exact ⟨d, by rw [k1']; exact hd, e⟩)
    refine ⟨N, fun n hn => ?_⟩
    obtain ⟨⟨t, t1, t2⟩, ws, w1, w2⟩ := C19_save_writes_every_element_once limit x target
      (fun ks => a.getitem ks >>= fun b => b.eval m limit n) ht (hN n hn)
    exact ⟨t, ws, t1, t2, w1, w2⟩
  · intro idx hi
    rw [← List.countP_eq_length_filter]
    unfold saveKeys
    rw [ndindex_pickCuts]
    exact cart_covers_once _ _ (allSlices_tiles limit false x.shape) idx hi

end

example : Res.view (save 5 [2, 4] (fun ks => (Arr.agg (.adapter false exSource []) 1 .sum).getitem ks >>= fun b => b.eval exMode 5 2)
    ⟨[2, 4], fun _ => 0⟩) = .ok ([2, 4], [12, 15, 18, 21, 48, 51, 54, 57]) := by
  decide +kernel

end Biggus

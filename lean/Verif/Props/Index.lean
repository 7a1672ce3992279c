import Verif.Proofs.Built
import Verif.Proofs.Compose
/-
C06: indexing a lazy array and then evaluating it equals evaluating it and then indexing the result.

The mode `m` is `ndMode` for `ndarray()` and `maMode` for `masked_array()`; all theorems hold for both.
-/
namespace Biggus
open Spec

variable {α V : Type} [Inhabited α] [Inhabited V] {m : Mode α V} {limit : Nat}

/-- C06 for every expression of the grammar `Arr.Built` and any number of successive indexings by simple keys (integers in
range, slices of any step that select something, `...`, `newaxis`; no negative integers or steps if there is a
mosaic).  If the expression evaluates to `x`, then `a[k1][k2]...[kn]` succeeds, announces the shape of
`x[k1][k2]...[kn]` and evaluates to it. -/
theorem C06_simple_keys (fwd : Bool) : ∀ (kss : List (List Key)) (a : Arr α) (x : NDA V), a.WF → a.Ok m limit .whole →
    a.Plain m fwd false .whole → a.Yields m limit x → SimpleHistory fwd kss x.shape →
    ∃ b r, kss.foldlM (fun a ks => Arr.getitem a ks) a = .ok b ∧ indexAll x kss = .ok r ∧ b.Yields m limit r ∧
      b.WF ∧ b.Ok m limit .whole ∧ b.Plain m fwd false .whole
  | [], a, x, hwf, hok, hp, hx, _ => ⟨a, x, rfl, rfl, hx, hwf, hok, hp⟩
  | ks :: kss, a, x, hwf, hok, hp, hx, hh => by
    have hd : a.den m ≈ₐ x := (hx.2.den_eqv hwf hok).symm
    obtain ⟨fk, σ, hf, hs, hσ, hr⟩ := simpleKeys_npIndex hh.1
    obtain ⟨h1, h2⟩ := simpleKeys_guards m true hwf hp (by rw [hd.1]; exact hs)
    obtain ⟨b, g1, g2, g3, g4, g5⟩ := index_returns m limit true hwf hok hd hf h1 h2 hr
    obtain ⟨b', r, k1, k2, k3⟩ := C06_simple_keys fwd kss b _ g2 g3 (g5.plain rfl fwd false (fun h => by cases h) hp)
      ((Arr.Yields.of_den g2 g3).congr g4) (hh.2 fk σ hf hσ)
    refine ⟨b', r, ?_, ?_, k3⟩
    · rw [List.foldlM_cons, g1]; exact k1
    · unfold indexAll at k2 ⊢
      rw [List.foldlM_cons, hr]; exact k2

/-- C06 for every expression of the grammar: it evaluates, and so does every simple indexing of it, to the indexed array. -/
theorem C06_index_then_evaluate (fwd : Bool) (a : Arr α) (hb : a.Built m limit fwd false .whole) :
    ∃ x : NDA V, a.Yields m limit x ∧ ∀ kss, SimpleHistory fwd kss x.shape →
      ∃ b r, kss.foldlM (fun a ks => Arr.getitem a ks) a = .ok b ∧ indexAll x kss = .ok r ∧ b.Yields m limit r := by
  obtain ⟨h1, h2, _, h4⟩ := hb.fine
  refine ⟨a.den m, .of_den h1 h2, fun kss hh => ?_⟩
  obtain ⟨b, r, k1, k2, k3, _⟩ := C06_simple_keys fwd kss a _ h1 h2 h4 (.of_den h1 h2) hh
  exact ⟨b, r, k1, k2, k3⟩

/-- C06 in one step, for arbitrary keys (also index arrays, tuples, lists, boolean masks): the keys must be among those
the expression supports (`Arr.supports`, `Arr.clean`); outside these guards there are counter-examples
(`C06_*_wrong` below). -/
theorem C06_supported_keys_partial (a : Arr α) (x r : NDA V) (ks : List Key) (hwf : a.WF) (hok : a.Ok m limit .whole)
    (hx : a.Returns m limit x) (hk : a.supports ks)
    (hc : ∀ fk, expandKeys ks x.shape.length = .ok fk → a.clean m false .whole fk) (hr : npIndex x ks = .ok r) :
    ∃ b, a.getitem ks = .ok b ∧ b.Yields m limit r := by
  have hd : a.den m ≈ₐ x := (hx.den_eqv hwf hok).symm
  obtain ⟨fk, σ, hf, hσ, rfl⟩ := npIndex_ok_iff.mp hr
  obtain ⟨b, g1, g2, g3, g4, _⟩ := index_returns m limit false hwf hok hd hf
    (hk _ fk (hwf.shape_eq m) (by rw [hd.1]; exact hf)) (hc fk hf) hr
  exact ⟨b, g1, (Arr.Yields.of_den g2 g3).congr g4⟩

/-- C06 for evaluation by the chunking engine (`biggus.ndarrays([a[ks]])`): with the same guards the chunks of the indexed
expression assemble to the indexed array. -/
theorem C06_engine_supported_keys_partial (a : Arr α) (x r : NDA V) (ks : List Key) (hwf : a.WF) (hso : a.streamOk m limit)
    (hok : a.Ok m limit .sliced) (hx : a.EngineReturns m limit x) (hk : a.supports ks)
    (hc : ∀ fk, expandKeys ks x.shape.length = .ok fk → a.clean m false .sliced fk) (hr : npIndex x ks = .ok r) :
    ∃ b, a.getitem ks = .ok b ∧ b.shape = .ok r.shape ∧ b.EngineReturns m limit r := by
  have hd : a.den m ≈ₐ x := by
    obtain ⟨N, h⟩ := hx
    obtain ⟨N', h'⟩ := engineReturns_den hwf hso hok
    obtain ⟨y, hy, hr⟩ := h (max N N') (le_max_left _ _)
    obtain ⟨y', hy', hr'⟩ := h' (max N N') (le_max_right _ _)
    rw [hy] at hy'
    cases hy'
    exact hr'.symm.trans hr
  obtain ⟨fk, σ, hf, hσ, rfl⟩ := npIndex_ok_iff.mp hr
  obtain ⟨r', hr', hrr⟩ := npIndex_congr hd.symm hr
  have hf' : expandKeys ks (a.den m).shape.length = .ok fk := by rw [hd.1]; exact hf
  have hko := hk _ fk (hwf.shape_eq m) hf'
  obtain ⟨b, h1, h2, h3, _⟩ := getitem_ok m a hwf ks fk r' hf' hko hr'
  have hkept := getitem_kept m limit false a .sliced hwf hok ks fk σ b hf' (by rw [hd.1]; exact hσ) hko (hc fk hf)
    (fun h => by cases h) h1
  have he := h3.trans hrr.symm
  exact ⟨b, h1, by rw [h2.shape_eq m, he.1],
    (engineReturns_den h2 (hkept.stream (by simp) hso) hkept.ok).congr he⟩

/-- C06: the engine evaluation `biggus.ndarrays([a])` returns the same array as `a.ndarray()`, and this stays so after any
number of indexings by simple keys. -/
theorem C06_engine_agrees (fwd : Bool) : ∀ (kss : List (List Key)) (a : Arr α) (x : NDA V), a.WF → a.Ok m limit .sliced →
    a.streamOk m limit → a.Plain m fwd false .sliced → a.Yields m limit x → SimpleHistory fwd kss x.shape →
    ∃ b r, kss.foldlM (fun a ks => Arr.getitem a ks) a = .ok b ∧ indexAll x kss = .ok r ∧ b.Yields m limit r ∧
      b.EngineReturns m limit r
  | [], a, x, hwf, hok, hso, hp, hx, _ => by
    have hd := hx.2.den_eqv hwf (hok.mono m limit a .sliced .whole (Or.inr (Or.inr rfl)))
    exact ⟨a, x, rfl, rfl, hx, (engineReturns_den hwf hso hok).congr hd.symm⟩
  | ks :: kss, a, x, hwf, hok, hso, hp, hx, hh => by
    have hd : a.den m ≈ₐ x := (hx.2.den_eqv hwf (hok.mono m limit a .sliced .whole (Or.inr (Or.inr rfl)))).symm
    obtain ⟨fk, σ, hf, hs, hσ, hr⟩ := simpleKeys_npIndex hh.1
    obtain ⟨h1, h2⟩ := simple_ok m true fwd a false .sliced hwf hp _ (by rw [hd.1]; exact hs)
    have h1 := keysOk_dropNew _ _ h1
    have h2 := clean_dropNew _ _ _ _ _ h2
    have hf' : expandKeys ks (a.den m).shape.length = .ok fk := by rw [hd.1]; exact hf
    obtain ⟨r', hr', hrr⟩ := npIndex_congr hd.symm hr
    obtain ⟨b, g1, g2, g3, _⟩ := getitem_ok m a hwf ks fk r' hf' h1 hr'
    have g5 := getitem_kept m limit true a .sliced hwf hok ks fk σ b hf' (by rw [hd.1]; exact hσ) h1 h2
      (fun h => by cases h) g1
    obtain ⟨b', r, k1, k2, k3⟩ := C06_engine_agrees fwd kss b _ g2 g5.ok (g5.stream (by simp) hso)
      (g5.plain rfl fwd false (fun h => by cases h) hp)
      ((Arr.Yields.of_den g2 (g5.ok.mono m limit b .sliced .whole (Or.inr (Or.inr rfl)))).congr (g3.trans hrr.symm))
      (hh.2 fk σ hf hσ)
    refine ⟨b', r, ?_, ?_, k3⟩
    · rw [List.foldlM_cons, g1]; exact k1
    · unfold indexAll at k2 ⊢
      rw [List.foldlM_cons, hr]; exact k2

/-! ### A concrete expression of the grammar -/

/-- The mean over dimension 1 of the sum of a source and a broadcast constant, transposed. -/
def exExpr : Arr ℚ :=
  .transposed (.agg (.elem2 (.adapter false exSource []) (.bcast (.const [1, 3, 1] 10 0) [(0, 2), (2, 4)] [])
    ⟨fun x y => x + y, none⟩) 1 (.mean 1)) [1, 0]

theorem exExpr_built : exExpr.Built exMode 5 true false .whole := by
  have hp : (Arr.agg (.elem2 (.adapter false exSource []) (.bcast (.const [1, 3, 1] 10 0) [(0, 2), (2, 4)] [])
    ⟨fun x y => x + y, none⟩) 1 (.mean 1) : Arr ℚ).shape = .ok [2, 4] := by decide +kernel
  refine .transposed (s := [2, 4]) (axes := [1, 0]) (.agg (s := [2, 3, 4]) (axis := 1) (k := .mean 1) (.elem2 (.source _ _ _ _ (fun _ _ => rfl) (by simp))
    (.bcast (a := .const [1, 3, 1] 10 0) (d := [(0, 2), (2, 4)]) (lead := []) (by decide) (.const _ _ _ _ _) trivial
      (by decide) ?_) rfl ?_ ?_) ?_ (by decide) (Or.inl (by decide))
    (Or.inl meanH_lawful)) hp (by decide) ?_
  · rw [mkBcast_notBcast rfl, mkBcastFlat_iff (s := [1, 3, 1]) rfl (by decide)]
    exact ⟨by decide, by simp, rfl⟩
  · decide +kernel
  · have h1 : (Arr.adapter false exSource [] : Arr ℚ).shape = .ok [2, 3, 4] := by decide +kernel
    have h2 : (Arr.bcast (.const [1, 3, 1] 10 0) [(0, 2), (2, 4)] [] : Arr ℚ).shape = .ok [2, 3, 4] := by decide +kernel
    exact Or.inr (Or.inl (by simp only [Arr.skel, h1, h2]))
  · decide +kernel
  · rw [mkTransposed_iff hp]; exact ⟨rfl, rfl⟩

/-- It evaluates to the expected array, and `[newaxis, ::2][..., -1]` applied to it gives the expected elements. -/
example : Res.view (exExpr.eval exMode 5 9) = .ok ([4, 2], [14, 26, 15, 27, 16, 28, 17, 29]) ∧
    Res.view (([[Key.newaxis, .slice ⟨none, none, some 2⟩], [.ellipsis, .int 1]].foldlM (fun a ks => Arr.getitem a ks) exExpr) >>=
      fun a => a.eval exMode 5 9) = .ok ([1, 2], [26, 28]) := by
  refine ⟨by decide +kernel, by decide +kernel⟩

example : SimpleHistory true [[Key.newaxis, .slice ⟨none, none, some 2⟩], [.ellipsis, .int 1]] [4, 2] := by
  refine ⟨⟨[Key.newaxis, .slice ⟨none, none, some 2⟩, Key.full], by decide +kernel, ?_⟩, ?_⟩
  · refine .cons (Or.inr (Or.inl ⟨_, [0, 2], rfl, by decide, by decide +kernel, by simp⟩)) (.cons (simple_full _) .nil)
  · intro fk σ h1 h2
    have : fk = [Key.newaxis, .slice ⟨none, none, some 2⟩, Key.full] := by
      have h : expandKeys [Key.newaxis, .slice ⟨none, none, some 2⟩] [4, 2].length = .ok [Key.newaxis, .slice ⟨none, none, some 2⟩, Key.full] := by
        decide +kernel
      rw [h] at h1; cases h1; rfl
    subst this
    have h : resolve [Key.newaxis, .slice ⟨none, none, some 2⟩, Key.full] [4, 2] = .ok [.new, .pick [0, 2], .pick [0, 1]] := by
      decide +kernel
    rw [h] at h2
    cases h2
    refine ⟨⟨[Key.full, Key.full, .int 1], by decide +kernel, ?_⟩, fun _ _ _ _ => trivial⟩
    exact .cons (simple_full _) (.cons (simple_full _) (.cons (Or.inl ⟨1, rfl, by decide, by simp⟩) .nil))

end Biggus

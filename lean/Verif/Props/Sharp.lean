import Verif.Props.Index
import Verif.Props.Reads
import Verif.Props.Containers
import Verif.Props.Compute
import Verif.Props.Adapters
/-
Corollaries for the properties C41, ... of properties.jsonl, which say for which expressions and keys the general properties hold
without exception.
-/
namespace Biggus

open Spec

variable {α V : Type} [Inhabited α] [Inhabited V] {m : Mode α V} {limit : Nat}

/-- C42.  `biggus.ndarrays([a])` (chunks, whatever the chunk limit) and `a.ndarray()` return the same array, for `a` and for every
`a[k1]...[kn]`: every expression of the grammar that the engine may cut, every history of simple keys. -/
theorem C42_engine_is_direct (fwd : Bool) (a : Arr α) (hb : a.Built m limit fwd false .sliced) :
    ∃ x : NDA V, a.Yields m limit x ∧ a.EngineReturns m limit x ∧ ∀ kss, SimpleHistory fwd kss x.shape →
      ∃ b r, kss.foldlM (fun a ks => Arr.getitem a ks) a = .ok b ∧ indexAll x kss = .ok r ∧ b.Yields m limit r ∧ b.EngineReturns m limit r := by
  obtain ⟨h1, h2, h3, h4⟩ := hb.fineS
  have hy : a.Yields m limit (a.den m) := .of_den h1 (h2.mono m limit a .sliced .whole (Or.inr (Or.inr rfl)))
  exact ⟨a.den m, hy, engineReturns_den h1 h3 h2, fun kss hh => C06_engine_agrees fwd kss a _ h1 h2 h3 h4 hy hh⟩

/-- C43.  Evaluation does not depend on the chunk limit: two limits for which the expression is in the grammar give the same array. -/
theorem C43_limit_irrelevant (fwd : Bool) (limit' : Nat) (a : Arr α) (hb : a.Built m limit fwd false .sliced)
    (hb' : a.Built m limit' fwd false .sliced) :
    ∃ x : NDA V, a.Yields m limit x ∧ a.Yields m limit' x ∧ a.EngineReturns m limit x ∧ a.EngineReturns m limit' x := by
  obtain ⟨h1, h2, h3, _⟩ := hb.fineS
  obtain ⟨_, g2, g3, _⟩ := hb'.fineS
  exact ⟨a.den m, .of_den h1 (h2.mono m limit a .sliced .whole (Or.inr (Or.inr rfl))),
    .of_den h1 (g2.mono m limit' a .sliced .whole (Or.inr (Or.inr rfl))), engineReturns_den h1 h3 h2, engineReturns_den h1 g3 g2⟩

/-- An expression with the hypotheses of `C42_engine_is_direct` and, for all limits, of `C43_limit_irrelevant`: the mean over dimension 1 of the sum of a source and a
broadcast constant. -/
def exMean : Arr ℚ :=
  .agg (.elem2 (.adapter false exSource []) (.bcast (.const [1, 3, 1] 10 0) [(0, 2), (2, 4)] []) ⟨fun x y => x + y, none⟩) 1 (.mean 1)

theorem exMean_built (limit : Nat) : exMean.Built exMode limit true false .sliced := by
  refine .agg (s := [2, 3, 4]) (axis := 1) (k := .mean 1) (.elem2 (.source _ _ _ _ (fun _ _ => rfl) (by simp))
    (.bcast (a := .const [1, 3, 1] 10 0) (d := [(0, 2), (2, 4)]) (lead := []) (by decide) (.const _ _ _ _ _) trivial
      (by decide) ?_) rfl ?_ ?_) ?_ (by decide) (Or.inl (by decide)) (Or.inl meanH_lawful)
  · rw [mkBcast_notBcast rfl, mkBcastFlat_iff (s := [1, 3, 1]) rfl (by decide)]
    exact ⟨by decide, by simp, rfl⟩
  · decide +kernel
  · have h1 : (Arr.adapter false exSource [] : Arr ℚ).shape = .ok [2, 3, 4] := by decide +kernel
    have h2 : (Arr.bcast (.const [1, 3, 1] 10 0) [(0, 2), (2, 4)] [] : Arr ℚ).shape = .ok [2, 3, 4] := by decide +kernel
    exact Or.inr (Or.inl (by simp only [Arr.skel, h1, h2]))
  · decide +kernel

example : Res.view (exMean.eval exMode 1 9) = .ok ([2, 4], [14, 15, 16, 17, 26, 27, 28, 29]) ∧
    Res.view (engineEval exMode 100 9 exMean) = .ok ([2, 4], [14, 15, 16, 17, 26, 27, 28, 29]) := by
  refine ⟨by decide +kernel, by decide +kernel⟩

section
variable [Field α] [LinearOrder α]

/-- C49, unmasked.  Every aggregation of any expression of the grammar whose data fits one chunk gives in every position the aggregate of
the whole column. -/
theorem C49_one_chunk_aggregations [IsStrictOrderedRing α] (sqrt : α → α) (hsqrt : ∀ x, 0 ≤ x → sqrt x * sqrt x = x)
    (cast : Nat → α → α) (fwd : Bool) (a : Arr α) (x : NDA α) (axis : Nat) (k : AggKind α)
    (hb : a.Built (ndMode sqrt cast) limit fwd false .sliced) (hx : a.Yields (ndMode sqrt cast) limit x)
    (hax : axis < x.shape.length) (hne : x.shape.getD axis 0 ≠ 0) (hfit : x.shape.getD axis 0 = 1 ∨ a.skel.holds limit (x.shape.getD axis 0) axis) :
    ∃ r, (Arr.agg a axis k).Yields (ndMode sqrt cast) limit r ∧ (Arr.agg a axis k).EngineReturns (ndMode sqrt cast) limit r ∧
      AggregateOf (IsAgg sqrt k) x axis r :=
  C22_C23_one_chunk_arrays_partial sqrt hsqrt cast fwd a x axis k hb hx hax hne hfit

/-- C49, masked. -/
theorem C49_masked_one_chunk_aggregations [IsStrictOrderedRing α] (sqrt : α → α) (hsqrt : ∀ x, 0 ≤ x → sqrt x * sqrt x = x)
    (cast : Nat → α → α) (fwd : Bool) (a : Arr α) (x : NDA (Option α)) (axis : Nat) (k : AggKind α)
    (hb : a.Built (maMode sqrt cast) limit fwd false .sliced) (hx : a.Yields (maMode sqrt cast) limit x)
    (hax : axis < x.shape.length) (hne : x.shape.getD axis 0 ≠ 0) (hfit : x.shape.getD axis 0 = 1 ∨ a.skel.holds limit (x.shape.getD axis 0) axis) :
    ∃ r, (Arr.agg a axis k).Yields (maMode sqrt cast) limit r ∧ (Arr.agg a axis k).EngineReturns (maMode sqrt cast) limit r ∧
      AggregateOf (IsAggMasked sqrt k) x axis r := by
  by_cases hk : k = .min ∨ k = .max
  · exact C22_masked_one_chunk_arrays_partial sqrt cast fwd a x axis k hk hb hx hax hne hfit
  · exact C21_C23_masked_arrays sqrt hsqrt cast fwd a x axis k ⟨fun h => hk (Or.inl h), fun h => hk (Or.inr h)⟩ hb hx hax hne

end

/-- The hypotheses of `C49_one_chunk_aggregations`, and its conclusion for `max`, for the source of the examples. -/
example : (Arr.adapter false exSource []).Built exMode 24 true false .sliced ∧ (Arr.adapter false exSource [] : Arr ℚ).skel.fits 24 ∧
    Res.view ((Arr.agg (.adapter false exSource []) 1 .max).eval exMode 24 2) = .ok ([2, 4], [8, 9, 10, 11, 20, 21, 22, 23]) := by
  refine ⟨exSource_built _ (fun _ _ => rfl) _ _, ?_, by decide +kernel⟩
  have h : (Arr.adapter false exSource [] : Arr ℚ).shape = .ok [2, 3, 4] := by decide +kernel
  simp only [Arr.skel, h]
  intro i
  match i with
  | 0 | 1 | 2 => decide
  | i + 3 => simp [okOr]

/-- C60.  `OrthoArrayAdapter(source)[k1]...[kn]`: if the keys one after the other can be applied to the data (orthogonal NumPy indexing,
result `r`), every step succeeds, the announced shape is that of `r`, and the result evaluates to `r`.  The first key must not be a
boolean mask if more keys follow; the result must have a dimension if the source can be masked. -/
theorem C60_ortho_history (m : Mode α V) (limit : Nat) (c : Concrete α) (kss : List (List Key))
    (r : NDA (Option α)) (hn : ∀ ks ∈ kss, Key.newaxis ∉ ks) (hb : 2 ≤ kss.length → ∀ l, Key.barr l ∉ kss.headD [])
    (hr : indexAll c.data kss = .ok r) (hz : r.shape ≠ [] ∨ m.sourceSafe c) :
    ∃ b : Arr α, kss.foldlM (fun a ks => Arr.getitem a ks) (.adapter true c []) = .ok b ∧
      b.shape = .ok r.shape ∧ b.Returns m limit (r.map (m.leaf c.fill)) := by
  obtain ⟨keys, h1, h2, h3⟩ := C03_repeated_indexing_partial m limit true c kss r hn hb hr hz
  exact ⟨_, h1, h2, h3 (Or.inl rfl)⟩

example : (∀ ks ∈ ([[.int 1, .tuple [2, 0], .slice ⟨none, none, some (-1)⟩], [.tuple [1, 1, 0]]] : List (List Key)), Key.newaxis ∉ ks) ∧
    Res.view (indexAll exSource.data [[.int 1, .tuple [2, 0], .slice ⟨none, none, some (-1)⟩], [.tuple [1, 1, 0]]]) =
      .ok ([3, 4], [some 15, some 14, some 13, some 12, some 15, some 14, some 13, some 12, some 23, some 22, some 21, some 20]) := by
  refine ⟨by decide, by decide +kernel⟩

end Biggus

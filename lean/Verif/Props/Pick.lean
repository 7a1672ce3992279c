import Verif.Props.Sharp
/-
C66: repeated indexing with index arrays and tuples.
-/
namespace Biggus

open Spec

variable {α V : Type} [Inhabited α] [Inhabited V] {m : Mode α V} {limit : Nat}

omit [Inhabited V] in
theorem pickKeys_npIndex {rep fwd : Bool} {x : NDA V} {ks : List Key} (h : PickKeysR rep fwd ks x.shape) :
    ∃ fk σ, expandKeys ks x.shape.length = .ok fk ∧ List.Forall₂ (SimpleKeyR rep fwd true) fk x.shape ∧
      resolve fk x.shape = .ok σ ∧ npIndex x ks = .ok (x.ortho σ) := by
  obtain ⟨fk, hf, hs⟩ := h
  obtain ⟨σ, hσ, _⟩ := simpleKeys_resolve hs
  exact ⟨fk, σ, hf, hs, hσ, npIndex_ok_iff.mpr ⟨fk, σ, hf, hσ, rfl⟩⟩

/-- The induction behind C66. -/
theorem pick_history {rep : Bool} (fwd : Bool) (cut : Cut) (hcut : cut = .whole ∨ cut = .sliced) : ∀ (kss : List (List Key)) (a : Arr α) (x : NDA V), a.WF → a.Ok m limit cut →
    (cut = .sliced → a.streamOk m limit) → a.PlainR rep m fwd true cut → a.den m ≈ₐ x → PickHistoryR rep fwd kss x.shape →
    ∃ b r, kss.foldlM (fun a ks => Arr.getitem a ks) a = .ok b ∧ indexAll x kss = .ok r ∧ b.Yields m limit r ∧
      (cut = .sliced → b.EngineReturns m limit r)
  | [], a, x, hwf, hok, hso, hp, hd, _ => by
    have hok' : a.Ok m limit .whole := by
      rcases hcut with rfl | rfl
      · exact hok
      · exact hok.mono m limit a .sliced .whole (Or.inr (Or.inr rfl))
    exact ⟨a, x, rfl, rfl, (Arr.Yields.of_den hwf hok').congr hd, fun h => by subst h; exact (engineReturns_den hwf (hso rfl) hok).congr hd⟩
  | ks :: kss, a, x, hwf, hok, hso, hp, hd, hh => by
    obtain ⟨fk, σ, hf, hs, hσ, hr⟩ := pickKeys_npIndex hh.1
    obtain ⟨h1, h2⟩ := simple_ok m true fwd a true cut hwf hp _ (by rw [hd.1]; exact hs)
    have hf' : expandKeys ks (a.den m).shape.length = .ok fk := by rw [hd.1]; exact hf
    obtain ⟨r', hr', hrr⟩ := npIndex_congr hd.symm hr
    obtain ⟨b, g1, g2, g3, _⟩ := getitem_ok m a hwf ks fk r' hf' h1 hr'
    have g5 := getitem_kept m limit true a cut hwf hok ks fk σ b hf' (by rw [hd.1]; exact hσ) h1 h2
      (fun h => by rcases hcut with rfl | rfl <;> cases h) g1
    obtain ⟨b', r, k1, k2, k3⟩ := pick_history fwd cut hcut kss b _ g2 g5.ok (fun h => g5.stream (by rw [h]; simp) (hso h))
      (g5.plain rfl fwd true (fun _ => simpleKeys_exact hs) hp) (g3.trans hrr.symm) (hh.2 fk σ hf hσ)
    refine ⟨b', r, ?_, ?_, k3⟩
    · rw [List.foldlM_cons, g1]; exact k1
    · unfold indexAll at k2 ⊢
      rw [List.foldlM_cons, hr]; exact k2

/-- C66.  Repeated indexing with index arrays and tuples as well as integers and slices: for every expression of the grammar whose sources are orthogonal (no new
axes, no broadcasts, stacks of one dimension), `a[k1]...[kn]` succeeds, announces the shape of `x[k1]...[kn]` (orthogonal NumPy indexing) and evaluates to
it. -/
theorem C66_index_arrays (fwd : Bool) (a : Arr α) (hb : a.Built m limit fwd true .whole) :
    ∃ x : NDA V, a.Yields m limit x ∧ ∀ kss, PickHistory fwd kss x.shape →
      ∃ b r, kss.foldlM (fun a ks => Arr.getitem a ks) a = .ok b ∧ indexAll x kss = .ok r ∧ b.Yields m limit r := by
  obtain ⟨h1, h2, h3, h4⟩ := hb.fine
  refine ⟨a.den m, .of_den h1 h2, fun kss hh => ?_⟩
  obtain ⟨b, r, k1, k2, k3, _⟩ := pick_history fwd .whole (Or.inl rfl) kss a _ h1 h2 (fun h => by cases h) h4 (NDA.Eqv.refl _) hh
  exact ⟨b, r, k1, k2, k3⟩

/-- C66, also for the chunking engine. -/
theorem C66_index_arrays_engine (fwd : Bool) (a : Arr α) (hb : a.Built m limit fwd true .sliced) :
    ∃ x : NDA V, a.Yields m limit x ∧ ∀ kss, PickHistory fwd kss x.shape →
      ∃ b r, kss.foldlM (fun a ks => Arr.getitem a ks) a = .ok b ∧ indexAll x kss = .ok r ∧ b.Yields m limit r ∧ b.EngineReturns m limit r := by
  obtain ⟨h1, h2, h3, h4⟩ := hb.fineS
  refine ⟨a.den m, .of_den h1 (h2.mono m limit a .sliced .whole (Or.inr (Or.inr rfl))), fun kss hh => ?_⟩
  obtain ⟨b, r, k1, k2, k3, k4⟩ := pick_history fwd .sliced (Or.inr rfl) kss a _ h1 h2 (fun _ => h3) h4 (NDA.Eqv.refl _) hh
  exact ⟨b, r, k1, k2, k3, k4 rfl⟩

/-- C66 with repeated and negative indices: if no aggregation in the expression depends on the chunking (count, sum, mean and masked std and var do not), the tuples and arrays
of indices may contain any indices in range, any number of times (non-negative ones if there is a mosaic). -/
theorem C66_repeats (fwd : Bool) (a : Arr α) (hb : a.Built m limit fwd true .whole) (hl : a.lawfulAggs m) :
    ∃ x : NDA V, a.Yields m limit x ∧ ∀ kss, PickHistoryR true fwd kss x.shape →
      ∃ b r, kss.foldlM (fun a ks => Arr.getitem a ks) a = .ok b ∧ indexAll x kss = .ok r ∧ b.Yields m limit r := by
  obtain ⟨h1, h2, h3, h4⟩ := hb.fineR
  refine ⟨a.den m, .of_den h1 h2, fun kss hh => ?_⟩
  obtain ⟨b, r, k1, k2, k3, _⟩ := pick_history fwd .whole (Or.inl rfl) kss a _ h1 h2 (fun h => by cases h) (h4 true (fun _ => hl)) (NDA.Eqv.refl _) hh
  exact ⟨b, r, k1, k2, k3⟩

/-- C66 with repeated and negative indices, also for the chunking engine. -/
theorem C66_repeats_engine (fwd : Bool) (a : Arr α) (hb : a.Built m limit fwd true .sliced) (hl : a.lawfulAggs m) :
    ∃ x : NDA V, a.Yields m limit x ∧ ∀ kss, PickHistoryR true fwd kss x.shape →
      ∃ b r, kss.foldlM (fun a ks => Arr.getitem a ks) a = .ok b ∧ indexAll x kss = .ok r ∧ b.Yields m limit r ∧ b.EngineReturns m limit r := by
  obtain ⟨h1, h2, h3, h4⟩ := hb.fineR
  refine ⟨a.den m, .of_den h1 (h2.mono m limit a .sliced .whole (Or.inr (Or.inr rfl))), fun kss hh => ?_⟩
  obtain ⟨b, r, k1, k2, k3, k4⟩ := pick_history fwd .sliced (Or.inr rfl) kss a _ h1 h2 (fun _ => h3 (by simp)) (h4 true (fun _ => hl)) (NDA.Eqv.refl _) hh
  exact ⟨b, r, k1, k2, k3, k4 rfl⟩

/-- If it is known what the expression evaluates to. -/
theorem C66_of_yields (fwd : Bool) (a : Arr α) (x : NDA V) (hb : a.Built m limit fwd true .whole) (hx : a.Yields m limit x) (kss : List (List Key))
    (hh : PickHistory fwd kss x.shape) :
    ∃ b r, kss.foldlM (fun a ks => Arr.getitem a ks) a = .ok b ∧ indexAll x kss = .ok r ∧ b.Yields m limit r := by
  obtain ⟨h1, h2, h3, h4⟩ := hb.fine
  obtain ⟨b, r, k1, k2, k3, _⟩ := pick_history fwd .whole (Or.inl rfl) kss a x h1 h2 (fun h => by cases h) h4 (hx.2.den_eqv h1 h2).symm hh
  exact ⟨b, r, k1, k2, k3⟩

/-- C11.  Indexing a transposed expression with index arrays too, any number of times, equals transposing first and indexing after. -/
theorem C11_transposed_index_arrays (fwd : Bool) (a b : Arr α) (axes : List Nat) (x : NDA V) (hb : a.Built m limit fwd true .whole)
    (hx : a.Yields m limit x) (hp : axes.Perm (List.range x.shape.length)) (ht : a.transpose (some axes) = .ok b)
    (kss : List (List Key)) (hh : PickHistory fwd kss (axes.map (fun j => x.shape.getD j 0))) :
    ∃ c r, kss.foldlM (fun a ks => Arr.getitem a ks) b = .ok c ∧ indexAll (x.permute axes) kss = .ok r ∧ c.Yields m limit r := by
  have hbb : b.Built m limit fwd true .whole := .transposed hb hx.1 hp ht
  obtain ⟨_, rfl⟩ := (mkTransposed_iff hx.1).mp ht
  exact C66_of_yields fwd _ _ hbb (yields_transposed hx hp) kss hh

/-- C30.  Indexing an aggregation with index arrays too, any number of times, equals aggregating first and indexing the result. -/
theorem C30_aggregation_index_arrays (fwd : Bool) (a : Arr α) (axis : Nat) (k : AggKind α) (y : NDA V)
    (hb : (Arr.agg a axis k).Built m limit fwd true .whole) (hy : (Arr.agg a axis k).Yields m limit y) (kss : List (List Key))
    (hh : PickHistory fwd kss y.shape) :
    ∃ b r, kss.foldlM (fun a ks => Arr.getitem a ks) (.agg a axis k) = .ok b ∧ indexAll y kss = .ok r ∧ b.Yields m limit r :=
  C66_of_yields fwd _ y hb hy kss hh

/-! ### Examples -/

/-- The transposed sum over dimension 0 of the masked-out, orthogonal source of the examples. -/
def exPick : Arr ℚ := .transposed (.agg (.maskVal (.adapter true exSource []) 5) 0 .sum) [1, 0]

theorem exPick_built : exPick.Built exMode 5 true true .whole := by
  have hp : (Arr.agg (.maskVal (.adapter true exSource []) 5) 0 .sum : Arr ℚ).shape = .ok [3, 4] := by decide +kernel
  refine .transposed (s := [3, 4]) (axes := [1, 0]) (.agg (s := [2, 3, 4]) (k := .sum) (.maskVal _ (.source _ _ _ _ (fun _ _ => rfl) (by simp))) (by decide +kernel) (by decide) (Or.inl (by decide))
    (Or.inl sumH_lawful)) hp (by decide) ?_
  rw [mkTransposed_iff hp]; exact ⟨rfl, rfl⟩

/-- Its hypotheses hold, and `[(3, 0, 1), ::2][array([2, 1]), (1, 0)]` gives the expected elements. -/
example : PickHistory true [[.tuple [3, 0, 1], .slice ⟨none, none, some 2⟩], [.iarr [2, 1], .tuple [1, 0]]] [4, 3] ∧
    Res.view (exPick.eval exMode 5 9) = .ok ([4, 3], [12, 20, 28, 14, 22, 30, 16, 24, 32, 18, 26, 34]) ∧
    Res.view (([[Key.tuple [3, 0, 1], .slice ⟨none, none, some 2⟩], [.iarr [2, 1], .tuple [1, 0]]].foldlM (fun a ks => Arr.getitem a ks) exPick) >>=
      fun a => a.eval exMode 5 9) = .ok ([2, 2], [30, 14, 28, 12]) := by
  refine ⟨?_, by decide +kernel, by decide +kernel⟩
  refine ⟨⟨[.tuple [3, 0, 1], .slice ⟨none, none, some 2⟩], by decide +kernel, ?_⟩, ?_⟩
  · exact .cons (Or.inr (Or.inr ⟨rfl, _, Or.inr rfl, by simp, by decide, by decide⟩))
      (.cons (Or.inr (Or.inl ⟨_, [0, 2], rfl, by decide, by decide +kernel, by simp⟩)) .nil)
  · intro fk σ h1 h2
    have h : expandKeys [.tuple [3, 0, 1], .slice ⟨none, none, some 2⟩] [4, 3].length = .ok [.tuple [3, 0, 1], .slice ⟨none, none, some 2⟩] := by
      decide +kernel
    rw [h] at h1
    cases h1
    have h : resolve [.tuple [3, 0, 1], .slice ⟨none, none, some 2⟩] [4, 3] = .ok [.pick [3, 0, 1], .pick [0, 2]] := by
      decide +kernel
    rw [h] at h2
    cases h2
    refine ⟨⟨[.iarr [2, 1], .tuple [1, 0]], by decide +kernel, ?_⟩, fun _ _ _ _ => trivial⟩
    exact .cons (Or.inr (Or.inr ⟨rfl, _, Or.inl rfl, by simp, by decide, by decide⟩))
      (.cons (Or.inr (Or.inr ⟨rfl, _, Or.inr rfl, by simp, by decide, by decide⟩)) .nil)

/-- Repeated and negative indices: the hypotheses hold, and `[(3, -1, 3), ::2][array([2, 2]), (1, -2)]` gives the expected elements. -/
example : exPick.lawfulAggs exMode ∧
    PickHistoryR true false [[.tuple [3, -1, 3], .slice ⟨none, none, some 2⟩], [.iarr [2, 2], .tuple [1, -2]]] [4, 3] ∧
    Res.view (([[Key.tuple [3, -1, 3], .slice ⟨none, none, some 2⟩], [.iarr [2, 2], .tuple [1, -2]]].foldlM (fun a ks => Arr.getitem a ks) exPick) >>=
      fun a => a.eval exMode 5 9) = .ok ([2, 2], [34, 18, 34, 18]) := by
  refine ⟨⟨sumH_lawful, trivial⟩, ?_, by decide +kernel⟩
  refine ⟨⟨[.tuple [3, -1, 3], .slice ⟨none, none, some 2⟩], by decide +kernel, ?_⟩, ?_⟩
  · exact .cons (Or.inr (Or.inr ⟨rfl, _, Or.inr rfl, by simp, by simp, by decide⟩))
      (.cons (Or.inr (Or.inl ⟨_, [0, 2], rfl, by decide, by decide +kernel, by simp⟩)) .nil)
  · intro fk σ h1 h2
    have h : expandKeys [.tuple [3, -1, 3], .slice ⟨none, none, some 2⟩] [4, 3].length = .ok [.tuple [3, -1, 3], .slice ⟨none, none, some 2⟩] := by
      decide +kernel
    rw [h] at h1
    cases h1
    have h : resolve [.tuple [3, -1, 3], .slice ⟨none, none, some 2⟩] [4, 3] = .ok [.pick [3, 3, 3], .pick [0, 2]] := by
      decide +kernel
    rw [h] at h2
    cases h2
    refine ⟨⟨[.iarr [2, 2], .tuple [1, -2]], by decide +kernel, ?_⟩, fun _ _ _ _ => trivial⟩
    exact .cons (Or.inr (Or.inr ⟨rfl, _, Or.inl rfl, by simp, by simp, by decide⟩))
      (.cons (Or.inr (Or.inr ⟨rfl, _, Or.inr rfl, by simp, by simp, by decide⟩)) .nil)

end Biggus

import Verif.Proofs.Reads
import Verif.Proofs.NoReads
import Verif.Props.Compute
/-
C32: what is read from the data sources, and when.

`a.evalL m limit n` is `a.eval m limit n` (one call of `.ndarray()` / `.masked_array()`) that returns also the list of all
source elements read, in the order of reading (`Model/Reads.lean`).  `a.needed` are the elements of the sources the
expression stands for (`Spec/Reads.lean`): of a source as it is all of its elements, of an indexed one the selected ones.
-/
namespace Biggus
open Spec

section
variable {α V : Type} [Inhabited α] [Inhabited V] {m : Mode α V} {limit : Nat}

/-- C32: indexing reads no data: the indexed expression is the same whatever the elements of the sources are, only the
sources in it differ (and if it fails then it fails in the same way). -/
theorem C32_indexing_reads_nothing (f : Concrete α → Concrete α) (hf : OnlyData f) (a : Arr α) (ks : List Key) :
    (a.withSources f).getitem ks = Except.map (Arr.withSources f) (a.getitem ks) :=
  getitem_withSources hf a ks

/-- C32: nor does building an expression, or asking for its shape. -/
theorem C32_building_reads_nothing (f : Concrete α → Concrete α) (hf : OnlyData f) :
    (∀ a : Arr α, (a.withSources f).shape = a.shape) ∧
    (∀ o c keys, mkAdapter o (f c) keys = Except.map (Arr.withSources f) (mkAdapter o c keys)) ∧
    (∀ (a : Arr α) na, mkNewAxes (a.withSources f) na = Except.map (Arr.withSources f) (mkNewAxes a na)) ∧
    (∀ (a : Arr α) d l, mkBcast (a.withSources f) d l = Except.map (Arr.withSources f) (mkBcast a d l)) ∧
    (∀ (a : Arr α) axes, mkTransposed (a.withSources f) axes = Except.map (Arr.withSources f) (mkTransposed a axes)) ∧
    (∀ ss (items : List Nat → Arr α), mkStack ss (fun i => (items i).withSources f) =
      Except.map (Arr.withSources f) (mkStack ss items)) ∧
    (∀ (tiles : List (Arr α)) axis, mkMosaic (tiles.map (Arr.withSources f)) axis =
      Except.map (Arr.withSources f) (mkMosaic tiles axis)) ∧
    (∀ (a b : Arr α) op, mkElem2 (a.withSources f) (b.withSources f) op =
      Except.map (Arr.withSources f) (mkElem2 a b op)) :=
  ⟨shape_withSources hf, mkAdapter_withSources hf, mkNewAxes_withSources hf, mkBcast_withSources hf,
    mkTransposed_withSources hf, mkStack_withSources hf, mkMosaic_withSources hf, mkElem2_withSources hf⟩

theorem evalL_ok {a : Arr α} {n : Nat} {r : NDA V} (h : a.eval m limit n = .ok r) : ∃ log, a.evalL m limit n = .ok (r, log) := by
  rw [← evalL_erase] at h
  cases hx : a.evalL m limit n with
  | error e => rw [hx] at h; cases h
  | ok x => rw [hx] at h; cases h; exact ⟨x.2, rfl⟩

theorem engineEvalL_ok {a : Arr α} {n : Nat} {r : NDA V} (h : engineEval m limit n a = .ok r) :
    ∃ log, engineEvalL m limit n a = .ok (r, log) := by
  rw [← engineEvalL_erase] at h
  cases hx : engineEvalL m limit n a with
  | error e => rw [hx] at h; cases h
  | ok x => rw [hx] at h; cases h; exact ⟨x.2, rfl⟩

/-- C32: evaluating an expression reads every needed element exactly once, and nothing else, for every chunk limit.
Missing: expressions that are not `thrifty` (see there): those with broadcasts, and those with NumPy sources that are
indexed before they are cut, or cut twice; there the claim is false (`C32_broadcast_reads_again`,
`C32_numpy_slice_reads_too_much`). -/
theorem C32_reads_once_partial {fwd : Bool} (a : Arr α) (hb : a.Built m limit fwd false .whole) (ht : a.thrifty false 0) :
    ∃ N, ∀ n, N ≤ n → ∃ r log, a.eval m limit n = .ok r ∧ a.evalL m limit n = .ok (r, log) ∧ log.Perm a.needed := by
  obtain ⟨h1, h2, _, _⟩ := hb.fine
  obtain ⟨N, hN⟩ := eval_ok m limit a h1 h2
  refine ⟨N, fun n hn => ?_⟩
  obtain ⟨r, hr, _⟩ := hN n hn
  obtain ⟨log, hl⟩ := evalL_ok hr
  exact ⟨r, log, hr, hl, evalL_reads m limit n a h1 h2 ht (r, log) hl⟩

/-- C32: the same for evaluation by the engine (`biggus.ndarrays([a])`). -/
theorem C32_engine_reads_once_partial {fwd : Bool} (a : Arr α) (hb : a.Built m limit fwd false .sliced) (ht : a.thrifty true 1) :
    ∃ N, ∀ n, N ≤ n → ∃ r log, engineEval m limit n a = .ok r ∧ engineEvalL m limit n a = .ok (r, log) ∧ log.Perm a.needed := by
  obtain ⟨h1, h2, h3, _⟩ := hb.fineS
  obtain ⟨N, hN⟩ := engine_ok m limit a h1 h3 h2
  refine ⟨N, fun n hn => ?_⟩
  obtain ⟨r, hr, _⟩ := hN n hn
  obtain ⟨log, hl⟩ := engineEvalL_ok hr
  exact ⟨r, log, hr, hl, engineEvalL_reads m limit n a h1 h2 ht (r, log) hl⟩

omit [Inhabited α] in
theorem Arr.orthoOnly.thrifty : ∀ (a : Arr α) (st : Bool) (n : Nat), a.orthoOnly → a.thrifty st n
  | .adapter o c keys, _, _, h => Or.inl h
  | .const _ _ _, _, _, _ => trivial
  | .newAxes a _, _, n, h => Arr.orthoOnly.thrifty a _ n h
  | .bcast _ _ _, _, _, h => h.elim
  | .transposed a _, _, n, h => Arr.orthoOnly.thrifty a _ n h
  | .stack ss items, _, n, h => fun i hi => Arr.orthoOnly.thrifty (items i) _ n (h i hi)
  | .mosaic k tiles _, _, n, h => fun i hi => Arr.orthoOnly.thrifty (tiles i) _ _ (h i hi)
  | .asType a _, _, n, h => Arr.orthoOnly.thrifty a _ n h
  | .maskVal a _, _, n, h => Arr.orthoOnly.thrifty a _ n h
  | .agg a _ _, _, n, h => Arr.orthoOnly.thrifty a _ _ h
  | .elem1 a _, _, n, h => Arr.orthoOnly.thrifty a _ _ h
  | .elem2 a b _, _, n, h => ⟨Arr.orthoOnly.thrifty a _ _ h.1, Arr.orthoOnly.thrifty b _ _ h.2⟩

/-- C32 for orthogonal sources (netCDF variables and the like) without broadcasting: every such expression, every chunk
limit. -/
theorem C32_ortho_reads_once {fwd : Bool} (a : Arr α) (hb : a.Built m limit fwd false .whole) (ho : a.orthoOnly) :
    ∃ N, ∀ n, N ≤ n → ∃ r log, a.eval m limit n = .ok r ∧ a.evalL m limit n = .ok (r, log) ∧ log.Perm a.needed :=
  C32_reads_once_partial a hb (ho.thrifty a _ _)

/-- With all needed elements different: no element is read twice, none is missed, and no other is read. -/
theorem C32_no_element_twice {fwd : Bool} (a : Arr α) (hb : a.Built m limit fwd false .whole) (ht : a.thrifty false 0)
    (hd : a.needed.Nodup) :
    ∃ N, ∀ n, N ≤ n → ∃ r log, a.evalL m limit n = .ok (r, log) ∧ log.Nodup ∧ ∀ x, x ∈ log ↔ x ∈ a.needed := by
  obtain ⟨N, hN⟩ := C32_reads_once_partial a hb ht
  refine ⟨N, fun n hn => ?_⟩
  obtain ⟨r, log, _, h2, h3⟩ := hN n hn
  exact ⟨r, log, h2, h3.nodup_iff.mpr hd, fun x => h3.mem_iff⟩

/-- C32: indexing and then evaluating reads for every selected element the source elements it depends on, and nothing
else. -/
theorem C32_indexed_reads {fwd : Bool} (a b : Arr α) (x r : NDA V) (ks : List Key) (hb : a.Built m limit fwd false .whole)
    (hx : a.Yields m limit x) (hk : SimpleKeys fwd ks x.shape) (hr : npIndex x ks = .ok r) (hi : a.getitem ks = .ok b)
    (ht : b.thrifty false 0) :
    ∃ fk σ N, expandKeys ks x.shape.length = .ok fk ∧ resolve fk x.shape = .ok σ ∧ ∀ n, N ≤ n → ∃ d log,
      b.evalL m limit n = .ok (d, log) ∧ d ≈ₐ r ∧
      (log : Multiset (Option α)) = ((ndindex (selShape σ)).map (fun i => a.dependsOn (selSrc σ i))).sum := by
  obtain ⟨h1, h2, _, h4⟩ := hb.fine
  have hd : a.den m ≈ₐ x := (hx.2.den_eqv h1 h2).symm
  obtain ⟨fk, hf, hk⟩ := hk
  obtain ⟨g1, g2⟩ := simpleKeys_guards m false h1 h4 (by rw [hd.1]; exact hk)
  obtain ⟨b', k1, k2, k3, k4, _⟩ := index_returns m limit false h1 h2 hd hf g1 g2 hr
  rw [hi] at k1
  cases k1
  obtain ⟨fk', σ, q1, q2, _⟩ := npIndex_ok_iff.mp hr
  rw [hf] at q1
  cases q1
  obtain ⟨N, hN⟩ := eval_ok m limit b k2 k3
  refine ⟨fk, σ, N, hf, q2, fun n hn => ?_⟩
  obtain ⟨d, hd1, hd2⟩ := hN n hn
  obtain ⟨log, hl⟩ := evalL_ok hd1
  refine ⟨d, log, hl, hd2.trans k4, ?_⟩
  have hs : (a.den (usesMode α)).shape = x.shape := by
    have e1 := h1.shape_eq (usesMode α)
    rw [h1.shape_eq m] at e1
    injection e1 with e1
    rw [← e1, hd.1]
  obtain ⟨b', j1, _, j3, _⟩ := getitem_ok (usesMode α) a h1 ks fk _ (by rw [hs]; exact hf) g1
    (npIndex_ok_iff.mpr ⟨fk, σ, by rw [hs]; exact hf, by rw [hs]; exact q2, rfl⟩)
  rw [hi] at j1
  cases j1
  rw [Multiset.coe_eq_coe.mpr (evalL_reads m limit n b k2 k3 ht (d, log) hl), ← den_total b false 0 k2 ht, total_congr j3]
  rfl

end

/-- What is read, without the result. -/
def readLog {β γ : Type} (r : Res (β × γ)) : Res γ := Except.map Prod.snd r

example : readLog ((Arr.agg (.adapter false exSource []) 1 .sum).evalL exMode 5 2) =
    .ok ((List.range 24).map (fun i => some (i : ℚ))) := by decide +kernel

example : readLog ((Arr.agg (.asType (.agg (.adapter true exSource []) 0 .sum) 1) 0 .sum).evalL exMode 2 3) =
    .ok ([0, 1, 12, 13, 4, 5, 16, 17, 8, 9, 20, 21, 2, 3, 14, 15, 6, 7, 18, 19, 10, 11, 22, 23].map some) := by decide +kernel

/-- The hypotheses are met by a sum of an element-wise operation on a NumPy source cut into chunks of at most 5 elements. -/
example : (Arr.agg (.elem1 (.adapter false exSource []) ⟨(2 * ·), none⟩) 1 .sum).Built exMode 5 true false .whole ∧
    (Arr.agg (.elem1 (.adapter false exSource []) ⟨(2 * ·), none⟩) 1 .sum).thrifty false 0 ∧
    (Arr.agg (.elem1 (.adapter false exSource []) ⟨(2 * ·), none⟩) 1 .sum : Arr ℚ).needed.Nodup := by
  refine ⟨?_, ?_, by decide +kernel⟩
  · have h0 : (Arr.adapter false exSource []).Built exMode 5 true false .sliced :=
      exSource_built exMode (fun i _ => rfl) 5 _
    refine .agg (s := [2, 3, 4]) (.elem1 h0 rfl) (by decide +kernel) (by decide) (Or.inl (by decide)) (Or.inl ?_)
    exact sumH_lawful
  · exact Or.inr (Or.inr ⟨rfl, by decide⟩)

def exRow : Concrete ℚ := ⟨⟨[1, 2], fun idx => some (flatIndex [1, 2] idx : Nat)⟩, 0, 0⟩
def exSixteen : Concrete ℚ := ⟨⟨[4, 4], fun idx => some (flatIndex [4, 4] idx : Nat)⟩, 0, 0⟩

/-- C32 fails of the code for broadcast arrays: in chunks of at most 2 elements the sum over the first axis of a (1, 2) array
broadcast to (3, 2) reads the array three times. -/
theorem C32_broadcast_reads_again :
    (Arr.agg (.bcast (.adapter true exRow []) [(0, 3)] []) 0 .sum : Arr ℚ).needed = [some 0, some 1] ∧
    readLog ((Arr.agg (.bcast (.adapter true exRow []) [(0, 3)] []) 0 .sum).evalL exMode 2 2) =
      .ok [some 0, some 1, some 0, some 1, some 0, some 1] := by
  refine ⟨by decide +kernel, by decide +kernel⟩

/-- C32 fails of the code for NumPy sources that have been sliced: the sum over the first axis of `A[1:3, 1:3]` in chunks of at
most 2 elements needs 4 elements; for each of the two chunks the whole source (16 elements) is read. -/
theorem C32_numpy_slice_reads_too_much :
    Except.map Arr.needed ((Arr.adapter false exSixteen []).getitem [.slice ⟨some 1, some 3, none⟩, .slice ⟨some 1, some 3, none⟩]) =
      .ok [some 5, some 6, some 9, some 10] ∧
    readLog ((Arr.adapter false exSixteen []).getitem [.slice ⟨some 1, some 3, none⟩, .slice ⟨some 1, some 3, none⟩] >>=
      fun a => (Arr.agg a 0 .sum).evalL exMode 2 2) =
      .ok ((List.range 16).map (fun (i : Nat) => some (i : ℚ)) ++ (List.range 16).map (fun (i : Nat) => some (i : ℚ))) := by
  refine ⟨by decide +kernel, by decide +kernel⟩

end Biggus

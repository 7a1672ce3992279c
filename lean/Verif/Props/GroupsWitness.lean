import Verif.Props.Groups
import Verif.Props.EngineWitness
import Verif.Props.Elementwise
/-
Concrete cases for C26-C28 at the level of arrays.
-/
namespace Biggus

/-- `validity` of concrete graphs. -/
def Graph.validC {C R : Type} (G : Graph C R) : Bool :=
  (List.range G.length).all (fun i => (G.sources i).all (fun s => s < i) && match G[i]? with
    | some (.cons s _) => !s.isEmpty
    | _ => true)

theorem valid_of_validC {C R : Type} {G : Graph C R} (h : G.validC = true) : G.Valid := by
  unfold Graph.validC at h
  rw [List.all_eq_true] at h
  constructor
  · intro i s hs
    have hi : i < G.length := by
      by_contra hc
      unfold Graph.sources at hs
      rw [List.getElem?_eq_none (by omega)] at hs
      simp at hs
    have := h i (List.mem_range.mpr hi)
    simp only [Bool.and_eq_true, List.all_eq_true] at this
    simpa using this.1 s hs
  · intro i s o hi
    have hl : i < G.length := (List.getElem?_eq_some_iff.mp hi).1
    have := h i (List.mem_range.mpr hl)
    simp only [Bool.and_eq_true, hi] at this
    intro hs
    subst hs
    simp at this

/-- Shapes and elements of results. -/
def viewAll {V : Type} (out : Option (Res (List (NDA V)))) : Option (Res (List (List Nat × List V))) :=
  out.map (fun r => r.map (fun l => l.map (fun x => (x.shape, x.toList))))

/-- A group run with one particular scheduler; `none` if the graph is not valid or `fuel` is too small. -/
def groupRun {α V : Type} [Inhabited α] [Inhabited V] (m : Mode α V) (limit cap : Nat) (evalP : Arr α → Res (NDA V)) (xs : List (AObj α)) (fuel : Nat) :
    Option (Option (Res (List (List Nat × List V)))) :=
  match buildGroup m limit evalP xs ⟨[], []⟩ with
  | .error e => some (some (.error e))
  | .ok (rs, b) =>
    if b.nodes.validC && (b.nodes.firstStep b.nodes.outs cap b.nodes.length (b.nodes.greedy b.nodes.outs cap b.nodes.length fuel b.nodes.init)).isNone then
      some (viewAll (groupOutcome rs (b.nodes.greedy b.nodes.outs cap b.nodes.length fuel b.nodes.init)))
    else none

/-- It gives the outcome of all schedules. -/
theorem outcome_by_run {α V : Type} [Inhabited α] [Inhabited V] {m : Mode α V} {limit cap : Nat} {evalP : Arr α → Res (NDA V)} {xs : List (AObj α)} (fuel : Nat)
    {v : Option (Res (List (List Nat × List V)))} (hr : groupRun m limit cap evalP xs fuel = some v) {out : Option (Res (List (NDA V)))}
    (h : GroupOutcome m limit cap evalP xs out) : viewAll out = v := by
  unfold GroupOutcome at h
  unfold groupRun at hr
  match hb : buildGroup m limit evalP xs ⟨[], []⟩ with
  | .error e =>
    rw [hb] at h hr
    cases hr
    rw [h]; rfl
  | .ok (rs, b) =>
    rw [hb] at h hr
    obtain ⟨n, c, s1, s2, ho⟩ := h
    simp only at hr
    split at hr
    · rename_i hc
      rw [Bool.and_eq_true] at hc
      cases hr
      have hv := valid_of_validC hc.1
      rw [ho, outcome_by_greedy hv (outs_wired hv) fuel hc.2 s1 s2]
    · cases hr

theorem ok_of_isOk {β : Type} {r : Res β} (h : r.isOk = true) : ∃ x, r = .ok x := by
  cases r with
  | ok x => exact ⟨x, rfl⟩
  | error e => cases h

/-- A 4×3 array `x` of the numbers 0, 1, ... -/
def exX : AObj ℚ := .prod 0 (.adapter true ⟨⟨[4, 3], fun i => some (flatIndex [4, 3] i : Nat)⟩, 0, 0⟩ [])

/-- `[sum(x, 1), sum(x, 1) * sum(x, 1), x]` with everything shared. -/
def exTogether : List (AObj ℚ) :=
  [.agg 1 exX 1 .sum, .elem2 2 (.agg 1 exX 1 .sum) (.agg 1 exX 1 .sum) ⟨fun x y => x * y, none⟩, exX]

/-- The hypotheses of `C28_together_as_alone` hold for `exTogether`, with chunks of at most 3 elements. -/
theorem exTogether_ok : Compatible exTogether ∧ (∀ x ∈ exTogether, x.toArr.WF) ∧ (∀ x ∈ exTogether, x.toArr.samePace) ∧
    ∃ rs, oneByOne exMode 3 (Arr.eval exMode 3 1) exTogether = .ok rs := by
  refine ⟨⟨?_, ⟨fun i => if i = 0 then exX else if i = 1 then .agg 1 exX 1 .sum else exTogether.getD 1 exX, ?_⟩,
    ⟨fun i => if i = 0 then [0, 1] else [0], ?_⟩⟩, ?_, ?_, ?_⟩
  · simp [exTogether, AObj.Proper, exX, Arr.isProd]
  · simp [exTogether, AObj.inHeap, exX]
  · simp only [exTogether, List.mem_cons, List.not_mem_nil, or_false, forall_eq_or_imp, forall_eq]
    have e1 : (okOr exX.toArr.shape []).length = 2 := by decide +kernel
    have e2 : (okOr (AObj.agg 1 exX 1 .sum).toArr.shape []).length = 1 := by decide +kernel
    have e3 : (okOr (AObj.elem2 2 (.agg 1 exX 1 .sum) (.agg 1 exX 1 .sum) (⟨fun x y => x * y, none⟩ : Op2 ℚ)).toArr.shape []).length = 1 := by decide +kernel
    rw [e1, e2, e3]
    simp [AObj.ordered, exX, aggOrder, List.range_succ]
  · have hx : exX.toArr.WF := ⟨by simp, ok_of_isOk (by decide +kernel)⟩
    have ha : (AObj.agg 1 exX 1 .sum).toArr.WF := ⟨hx, [4, 3], by decide +kernel, by decide⟩
    simp only [exTogether, List.mem_cons, List.not_mem_nil, or_false, forall_eq_or_imp, forall_eq]
    exact ⟨ha, ⟨ha, ha, rfl⟩, hx⟩
  · simp [exTogether, AObj.toArr, exX, Arr.samePace]
  · exact ok_of_isOk (by decide +kernel)

/-- `exTogether` evaluated together, under every schedule: `x` and `sum(x, 1)` are read and computed once. -/
theorem exTogether_results (out : Option (Res (List (NDA ℚ)))) (h : GroupOutcome exMode 3 queueSize (Arr.eval exMode 3 1) exTogether out) :
    viewAll out = some (.ok [([4], [3, 12, 21, 30]), ([4], [9, 144, 441, 900]), ([4, 3], [0, 1, 2, 3, 4, 5, 6, 7, 8, 9, 10, 11])]) :=
  outcome_by_run 400 (by decide +kernel) h

/-- `[sum(x, 0), sum(x, 1)]` of the same `x`. -/
def exTwoSums : List (AObj ℚ) := [.agg 1 exX 0 .sum, .agg 2 exX 1 .sum]

/-- C28 fails in the code without `Compatible`: the node of `x` is made for `sum(x, 0)` and used for `sum(x, 1)`, too, although the
latter needs the chunks in another order.  The second result is not even close to `[3, 12, 21, 30]`, which it is alone. -/
theorem C28_conflicting_orders_wrong (out : Option (Res (List (NDA ℚ)))) (h : GroupOutcome exMode 1 queueSize (Arr.eval exMode 1 1) exTwoSums out) :
    viewAll out = some (.ok [([3], [18, 22, 26]), ([4], [2, 5, 8, 11])]) ∧
    viewAll (some (oneByOne exMode 1 (Arr.eval exMode 1 1) exTwoSums)) = some (.ok [([3], [18, 22, 26]), ([4], [3, 12, 21, 30])]) :=
  ⟨outcome_by_run 1000 (by decide +kernel) h, by decide +kernel⟩

/-- `sum(x, 0) + sum(x, 1)` of a square `x`. -/
def exDeadlock : List (AObj ℚ) :=
  let x : AObj ℚ := .prod 0 (.adapter true ⟨⟨[4, 4], fun i => some (flatIndex [4, 4] i : Nat)⟩, 0, 0⟩ [])
  [.elem2 3 (.agg 1 x 0 .sum) (.agg 2 x 1 .sum) exAdd]

/-- C27, C28 fail in the code: evaluating `sum(x, 0) + sum(x, 1)` in small chunks hangs, under every schedule. -/
theorem C27_conflicting_orders_hang (out : Option (Res (List (NDA ℚ)))) (h : GroupOutcome exMode 1 queueSize (Arr.eval exMode 1 1) exDeadlock out) :
    out = none := by
  have := outcome_by_run 1000 (v := none) (by decide +kernel) h
  cases out with
  | none => rfl
  | some r => cases this

/-- In one chunk it does not (`C28_one_chunk`). -/
theorem exDeadlock_one_chunk (out : Option (Res (List (NDA ℚ)))) (h : GroupOutcome exMode 16 queueSize (Arr.eval exMode 16 1) exDeadlock out) :
    viewAll out = some (.ok [([4], [30, 50, 70, 90])]) :=
  outcome_by_run 200 (by decide +kernel) h

/-- The hypotheses of `C28_one_chunk` hold for `exDeadlock`, with chunks of at most 16 elements. -/
theorem exDeadlock_ok : (∀ x ∈ exDeadlock, x.Proper) ∧ (∃ heap, ∀ x ∈ exDeadlock, x.inHeap heap) ∧ (∀ x ∈ exDeadlock, x.toArr.WF) ∧
    ∀ x ∈ exDeadlock, x.toArr.oneChunk 16 := by
  refine ⟨by simp [exDeadlock, AObj.Proper, Arr.isProd], ⟨fun i => match i with
    | 0 => .prod 0 (.adapter true ⟨⟨[4, 4], fun i => some (flatIndex [4, 4] i : Nat)⟩, 0, 0⟩ [])
    | 1 => .agg 1 (.prod 0 (.adapter true ⟨⟨[4, 4], fun i => some (flatIndex [4, 4] i : Nat)⟩, 0, 0⟩ [])) 0 .sum
    | 2 => .agg 2 (.prod 0 (.adapter true ⟨⟨[4, 4], fun i => some (flatIndex [4, 4] i : Nat)⟩, 0, 0⟩ [])) 1 .sum
    | _ => exDeadlock.getD 0 exX, by simp [exDeadlock, AObj.inHeap]⟩, ?_, ?_⟩
  · have hx : (Arr.adapter true (⟨⟨[4, 4], fun i => some (flatIndex [4, 4] i : Nat)⟩, 0, 0⟩ : Concrete ℚ) []).WF := ⟨by simp, ok_of_isOk (by decide +kernel)⟩
    simp only [exDeadlock, List.mem_cons, List.not_mem_nil, or_false, forall_eq]
    exact ⟨⟨hx, [4, 4], by decide +kernel, by decide⟩, ⟨hx, [4, 4], by decide +kernel, by decide⟩, by decide +kernel⟩
  · have hx : (Arr.adapter true (⟨⟨[4, 4], fun i => some (flatIndex [4, 4] i : Nat)⟩, 0, 0⟩ : Concrete ℚ) []).oneChunk 16 := by
      intro i
      rw [show okOr (Arr.adapter true (⟨⟨[4, 4], fun i => some (flatIndex [4, 4] i : Nat)⟩, 0, 0⟩ : Concrete ℚ) []).shape [] = [4, 4] by decide +kernel]
      match i with
      | 0 => decide
      | 1 => decide
      | i + 2 => simp
    simp only [exDeadlock, List.mem_cons, List.not_mem_nil, or_false, forall_eq]
    exact ⟨hx, hx⟩

/-- The hypotheses of `C27_group_tree` hold for an array that fails and one that does not: only the failure is reported, and
nothing hangs. -/
def exOneFails : List (AObj ℚ) :=
  [.agg 1 exX 1 .sum, .elem1 3 (.prod 2 (.adapter true ⟨⟨[2], fun i => some (flatIndex [2] i : Nat)⟩, 0, 0⟩ [])) ⟨fun x => x, none⟩]

theorem exOneFails_ok : (∀ x ∈ exOneFails, x.Proper) ∧ (exOneFails.flatMap AObj.ids).Nodup := by
  refine ⟨by simp [exOneFails, AObj.Proper, exX, Arr.isProd], by decide⟩

/-- Masked evaluation over the rationals. -/
def exMaMode : Mode ℚ (Option ℚ) := maMode id (fun _ x => x)

instance : DecidableEq (List Nat × List (Option ℚ)) := instDecidableEqProd

/-- `masked_arrays(...)` of it: the second operation has no masked variant. -/
theorem exOneFails_result (out : Option (Res (List (NDA (Option ℚ)))))
    (h : GroupOutcome exMaMode 3 queueSize (Arr.eval exMaMode 3 1) exOneFails out) : viewAll out = some (.error .type) :=
  outcome_by_run 400 (by decide +kernel) h

end Biggus

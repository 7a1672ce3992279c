import Verif.Proofs.DaskRun
import Verif.Props.GroupsWitness
import Verif.Props.Grouper
/-
C38: the dask engine.
-/
namespace Biggus

variable {α V : Type} [Inhabited α] [Inhabited V] {m : Mode α V} {limit : Nat} {xs : List (AObj α)}

/-- The arrays are those for which evaluation is claimed to be right, and there are not too many chunks. -/
structure DaskFine (m : Mode α V) (limit : Nat) (xs : List (AObj α)) : Prop where
  proper : ∀ x ∈ xs, x.Proper
  coherent : ∃ heap, ∀ x ∈ xs, x.inHeap heap
  wf : ∀ x ∈ xs, x.toArr.WF
  ok : ∀ x ∈ xs, x.toArr.Ok m limit .sliced
  stream : ∀ x ∈ xs, x.toArr.streamOk m limit
  few : ∀ x ∈ xs, x.toArr.fewChunks limit

theorem levels_bound : ∀ xs : List (AObj α), ∃ N, ∀ x ∈ xs, x.toArr.levelLe N
  | [] => ⟨0, by simp⟩
  | x :: xs => by
    obtain ⟨N, hN⟩ := exists_level x.toArr
    obtain ⟨M, hM⟩ := levels_bound xs
    refine ⟨max N M, fun y hy => ?_⟩
    rcases List.mem_cons.mp hy with rfl | hy
    · exact Arr.levelLe.mono _ _ _ (le_max_left _ _) hN
    · exact Arr.levelLe.mono _ _ _ (le_max_right _ _) (hM y hy)

/-- The graph and the values of its tasks. -/
theorem dask_graph (h : DaskFine m limit xs) : ∃ N, ∀ n, N ≤ n → ∃ ids b v rs, daskGraph m limit xs ⟨[], []⟩ [] = .ok (ids, b) ∧
    DVals m (Arr.eval m limit n) b.tasks v ∧ (∀ i ∈ ids, i < b.tasks.length) ∧ ids.map v = rs.map DVal.array ∧
    List.Forall₂ (fun x r => r ≈ₐ (AObj.toArr x).den m) xs rs := by
  obtain ⟨heap, hh⟩ := h.coherent
  obtain ⟨N, hN⟩ := levels_bound xs
  refine ⟨N, fun n hn => ?_⟩
  obtain ⟨ids, b, v, ts, h1, h2, h3, h4, h5⟩ := daskGraph_ok (heap := heap) (limit := limit) (evalP := Arr.eval m limit n) (G := Arr.good m limit n)
    (fun b hb hG => eval_good m limit n b hb hG) xs ⟨[], []⟩ [] (fun _ => .array ⟨[], fun _ => default⟩)
    (fun x hx => ⟨hh x hx, h.proper x hx, h.wf x hx, h.ok x hx,
      streamGood_of m limit n _ (good_of m limit n) _ (h.wf x hx) (h.stream x hx) (h.ok x hx) (Arr.levelLe.mono _ _ _ hn (hN x hx)), h.few x hx⟩)
    ⟨fun i t ht => by simp at ht, fun _ _ hl => by simp at hl⟩ (fun _ _ hl => by simp at hl)
  have key : ∀ (xs : List (AObj α)) (ids : List Nat), List.Forall₂ (fun x t => t < b.tasks.length ∧ ∃ r, v t = .array r ∧ r ≈ₐ (AObj.toArr x).den m) xs ids →
      (∀ i ∈ ids, i < b.tasks.length) ∧ ∃ rs, ids.map v = rs.map DVal.array ∧ List.Forall₂ (fun x r => r ≈ₐ (AObj.toArr x).den m) xs rs := by
    intro xs ids h
    induction h with
    | nil => exact ⟨by simp, [], rfl, .nil⟩
    | @cons x t xs ids hr _ ih =>
      obtain ⟨i1, rs, i2, i3⟩ := ih
      obtain ⟨r1, r, r2, r3⟩ := hr
      refine ⟨by simpa using ⟨r1, i1⟩, r :: rs, ?_, .cons r3 i3⟩
      rw [List.map_cons, List.map_cons, r2, i2]
  obtain ⟨k1, rs, k2, k3⟩ := key xs ids h5
  exact ⟨ids, b, v, rs, h1, h4, k1, k2, k3⟩

/-- C38.  `DaskEngine().ndarrays(*xs)` / `masked_arrays(*xs)`, however dask executes the graph: it returns, for every array, what the
threaded engine returns for it alone.  (`xs` may share objects in any way: unlike for the threaded engine, `Compatible` is not needed.) -/
theorem C38_dask_is_threaded_partial (h : DaskFine m limit xs) : ∃ N, ∀ n, N ≤ n → ∃ rs,
    (∀ out, DaskOutcome m limit (Arr.eval m limit n) xs out ↔ out = .ok (rs.map DVal.array)) ∧
    List.Forall₂ (fun x r => (AObj.toArr x).EngineReturns m limit r) xs rs := by
  obtain ⟨N, hN⟩ := dask_graph h
  refine ⟨N, fun n hn => ?_⟩
  obtain ⟨ids, b, v, rs, h1, h2, h3, h4, h5⟩ := hN n hn
  refine ⟨rs, fun out => ?_, ?_⟩
  · unfold DaskOutcome
    rw [h1]
    show DaskGets m _ b.tasks ids out ↔ _
    rw [gets_iff h2 h3, h4]
  · have hmem : ∀ x ∈ xs, x.toArr.EngineReturns m limit (x.toArr.den m) := fun x hx => engineReturns_den (h.wf x hx) (h.stream x hx) (h.ok x hx)
    clear h1 h2 h3 h4 hN h
    induction h5 with
    | nil => exact .nil
    | @cons x r xs rs hr _ ih =>
      refine .cons ?_ (ih (fun y hy => hmem y (List.mem_cons_of_mem _ hy)))
      obtain ⟨M, hM⟩ := hmem x (by simp)
      refine ⟨M, fun k hk => ?_⟩
      obtain ⟨r', e1, e2⟩ := hM k hk
      exact ⟨r', e1, e2.trans hr.symm⟩

/-- C38: no execution of the graph goes on for ever or gets stuck, and no task fails. -/
theorem C38_dask_terminates (h : DaskFine m limit xs) : ∃ N, ∀ n, N ≤ n → ∃ ids b, daskGraph m limit xs ⟨[], []⟩ [] = .ok (ids, b) ∧
    (∀ i ∈ ids, i < b.tasks.length) ∧
    ∀ k d, DaskSteps m (Arr.eval m limit n) b.tasks k (fun _ => none) d → k ≤ b.tasks.length ∧
      (∀ i e, ¬ DaskReady m (Arr.eval m limit n) b.tasks d i (.error e)) ∧
      ((∃ i, i < b.tasks.length ∧ d i = none) → ∃ i w, DaskReady m (Arr.eval m limit n) b.tasks d i (.ok w)) := by
  obtain ⟨N, hN⟩ := dask_graph h
  refine ⟨N, fun n hn => ?_⟩
  obtain ⟨ids, b, v, rs, h1, h2, h3, h4, h5⟩ := hN n hn
  refine ⟨ids, b, h1, h3, fun k d hs => ?_⟩
  obtain ⟨d1, d2⟩ := steps_ok h2 hs doneOk_empty
  refine ⟨?_, ?_, ?_⟩
  · have : todo b.tasks.length (fun _ => (none : Option (DVal V))) ≤ b.tasks.length := by
      unfold todo
      exact (List.countP_le_length).trans (by simp)
    omega
  · intro i e hr
    cases (ready_value h2 d1 hr).2.2
  · rintro ⟨i, hi, hn⟩
    obtain ⟨j, _, hj⟩ := can_progress h2 d1 i hi hn
    exact ⟨j, _, hj⟩

/-! ### Concrete cases -/

/-- Executing the tasks in the order in which they were added. -/
def daskInOrder (m : Mode α V) (evalP : Arr α → Res (NDA V)) (tasks : List (DTask α)) : Res (List (DVal V)) :=
  tasks.foldlM (fun vs t => do
    let args ← t.deps.mapM (fun i => match vs[i]? with
      | some v => .ok v
      | none => .error .key)
    let w ← t.run m evalP args
    return vs ++ [w]) []

/-- Shapes and elements of arrays, keys and elements of chunks. -/
def DVal.view : DVal V → List Nat × List V
  | .chunk c => (c.2.shape, c.2.toList)
  | .array a => (a.shape, a.toList)

/-- `[sum(x, 0), sum(x, 1)]`, which the threaded engine gets wrong in small chunks (`C28_conflicting_orders_wrong`), meets the hypotheses. -/
theorem exTwoSums_fine : DaskFine exMode 1 exTwoSums := by
  have hx : exX.toArr.WF := ⟨by simp, ok_of_isOk (by decide +kernel)⟩
  have hs : exX.toArr.shape = .ok [4, 3] := by decide +kernel
  have hl : (exMode.handler AggKind.sum).Lawful := sumH_lawful
  refine ⟨by simp [exTwoSums, AObj.Proper, exX, Arr.isProd], ⟨fun i => match i with
    | 0 => exX
    | 1 => .agg 1 exX 0 .sum
    | _ => .agg 2 exX 1 .sum, by simp [exTwoSums, AObj.inHeap, exX]⟩, ?_, ?_, ?_, ?_⟩
  all_goals simp only [exTwoSums, List.mem_cons, List.not_mem_nil, or_false, forall_eq_or_imp, forall_eq]
  · exact ⟨⟨hx, [4, 3], hs, by decide⟩, ⟨hx, [4, 3], hs, by decide⟩⟩
  · have hok : exX.toArr.Ok exMode 1 .sliced := ⟨Or.inr (sourceSafe_ndMode _ _ _ (fun _ _ h => by cases h)), fun _ l => by simp, fun h => by cases h⟩
    exact ⟨⟨⟨Or.inr rfl, Or.inl hl, trivial⟩, hok⟩, ⟨⟨Or.inr rfl, Or.inl hl, trivial⟩, hok⟩⟩
  · exact ⟨⟨Or.inr rfl, Or.inl hl, trivial⟩, ⟨Or.inr rfl, Or.inl hl, trivial⟩⟩
  · exact ⟨⟨by decide +kernel, trivial⟩, ⟨by decide +kernel, trivial⟩⟩

/-- The values of the `collect` tasks, executed in the order in which they were added. -/
def daskOnce (m : Mode α V) (limit : Nat) (evalP : Arr α → Res (NDA V)) (xs : List (AObj α)) : Res (List (List Nat × List V)) := do
  let g ← daskGraph m limit xs ⟨[], []⟩ []
  let vs ← daskInOrder m evalP g.2.tasks
  return g.1.filterMap (fun i => (vs[i]?).map DVal.view)

example : daskOnce exMode 1 (Arr.eval exMode 1 1) exTwoSums = .ok [([3], [18, 22, 26]), ([4], [3, 12, 21, 30])] := by decide +kernel

/-- The masked sum and mean of a masked array, and an array given twice. -/
example :
    let x : AObj ℚ := .prod 0 (.adapter true ⟨⟨[2, 3], fun i => if flatIndex [2, 3] i = 4 then none else some (flatIndex [2, 3] i : Nat)⟩, 0, 0⟩ [])
    let s : AObj ℚ := .agg 1 x 1 .sum
    daskOnce exMaMode 2 (Arr.eval exMaMode 2 1) [s, .elem1 2 s ⟨fun x => x + 1, some (fun x => x.map (· + 1))⟩, s]
      = .ok [([2], [some 3, some 8]), ([2], [some 4, some 9]), ([2], [some 3, some 8])] := by decide +kernel

/-- `sum(x, 0) + sum(x, 1)` of the 2 by 2 array `exSquare`. -/
def exSums : List (AObj ℚ) :=
  let x : AObj ℚ := .prod 0 (.adapter false exSquare [])
  [.elem2 3 (.agg 1 x 0 .sum) (.agg 2 x 1 .sum) exAdd]

/-- C38 fails in the code if the operands of an operation are cut in different chunks: with chunks of at most 2 elements `uuid.uuid()`, which does not exist, is
called (dask_engine.py:246).  The threaded engine returns something (wrong, `C24_mismatched_chunks_wrong`), `.ndarray()` the right `[7, 13]`. -/
theorem C38_mismatched_chunks_fail (out : Res (List (DVal ℚ))) (n : Nat) : DaskOutcome exMode 2 (Arr.eval exMode 2 n) exSums out ↔ out = .error .attribute := by
  have h : daskGraph exMode 2 exSums ⟨[], []⟩ [] = .error .attribute := by
    have : (daskGraph exMode 2 exSums ⟨[], []⟩ []).map (fun _ => ()) = .error .attribute := by decide +kernel
    cases hg : daskGraph exMode 2 exSums ⟨[], []⟩ [] with
    | error e => rw [hg] at this; injection this with this; rw [this]
    | ok g => rw [hg] at this; cases this
  unfold DaskOutcome
  rw [h]

theorem cuts_singles (n : Nat) (hn : 1 < n) : allSlicesInner 1 true [n] = [(singles n).map Key.slice] := by
  have h1 : ¬ n * 1 ≤ 1 := by omega
  show [dimSlices 1 true 1 n] = _
  unfold dimSlices
  rw [if_neg h1, if_neg (by omega)]
  have := pyRange_step n 1 (by omega)
  simp only [Nat.div_one] at this ⊢
  rw [show ((1 : Nat) : Int) = 1 from rfl] at this ⊢
  rw [this]
  unfold singles
  simp only [List.map_map, Nat.add_sub_cancel, Nat.mul_one]
  congr 1
  apply List.map_congr_left
  intro i hi
  rw [List.mem_range] at hi
  simp only [Function.comp, Key.span, Int.toNat_natCast]
  rw [Nat.min_eq_left (by omega)]
  simp

theorem chunks_singles (n : Nat) (hn : 1 < n) : chunkIndexGen 1 [n] [0] = (singles n).map (fun s => [Key.slice s]) := by
  have hc := cuts_singles n hn
  unfold chunkIndexGen
  rw [hc]
  have := chunkKeysOf_range [(singles n).map Key.slice]
  rw [show [(singles n).map Key.slice].length = 1 from rfl, show List.range 1 = [0] from rfl] at this
  rw [this]
  simp [cart, List.flatMap_map]
  rw [List.map_eq_flatMap]

/-- C38 fails in the code for arrays cut in 10000 chunks or more along a dimension (here: vectors of more than 9999 elements with chunks of one element): the dask
engine raises `RuntimeError`, the threaded engine returns the right result. -/
theorem C38_many_chunks_fail {m : Mode α V} {a : Arr α} {n i j : Nat} {op : Op1 α} (hn : 9999 < n) (hpr : a.isProd = true) (hwf : a.WF)
    (hs : a.shape = .ok [n]) (hok : a.Ok m 1 .sliced) (hop : (m.op1 op).isSome = true) :
    (∀ evalP out, DaskOutcome m 1 evalP [.elem1 j (.prod i a) op] out ↔ out = .error .runtime) ∧
    (Arr.elem1 a op).EngineReturns m 1 ((Arr.elem1 a op).den m) := by
  obtain ⟨f, hf⟩ := Option.isSome_iff_exists.mp hop
  have hden := hwf.den_shape m hs
  have hso : a.streamOk m 1 := by cases a <;> trivial
  have hget : ∀ s ∈ singles n, ∃ b, a.getitem [Key.slice s] = .ok b := by
    intro s hsm
    obtain ⟨q, hq, rfl⟩ := List.mem_map.mp hsm
    rw [List.mem_range] at hq
    have hk : SliceOk (Key.slice ⟨some (q : Int), some (q + 1 : Int), none⟩) n := by
      have h := allSlices_ok 1 [n]
      rw [cuts_singles n (by omega)] at h
      cases h with
      | cons h _ => exact h.slices _ (List.mem_map.mpr ⟨_, hsm, rfl⟩)
    obtain ⟨b, σ, h1, _⟩ := chunk_getitem m 1 a .sliced hwf hok (by decide) (ks := [Key.slice ⟨some (q : Int), some (q + 1 : Int), none⟩]) (fk := [Key.slice ⟨some (q : Int), some (q + 1 : Int), none⟩])
      (by rw [hden]; exact expandKeys_exact [_] (by simp [Key.isNewaxis, Key.isEllipsis]))
      (by rw [hden]; exact .cons (hk.chunkKey _) .nil)
    exact ⟨b, h1⟩
  refine ⟨?_, engineReturns_den hwf ⟨hop, hso⟩ ⟨hop, hso, hok⟩⟩
  intro evalP out
  obtain ⟨ts, t1, t2⟩ : ∃ ts : List (DTask α), ((singles n).map (fun s => [Key.slice s])).mapM (fun key => (do
        let c ← a.getitem key
        return DTask.read key c : Res (DTask α))) = .ok ts ∧ ts.map DTask.keys = (singles n).map (fun s => [Key.slice s]) := by
    generalize singles n = L at hget
    induction L with
    | nil => exact ⟨[], rfl, rfl⟩
    | cons s L ih =>
      obtain ⟨ts, i1, i2⟩ := ih (fun s hs => hget s (List.mem_cons_of_mem _ hs))
      obtain ⟨b, hb⟩ := hget s (by simp)
      refine ⟨.read [Key.slice s] b :: ts, ?_, ?_⟩
      · rw [List.map_cons, List.mapM_cons, hb, i1]; rfl
      · rw [List.map_cons, i2]; rfl
  have hmk : makeDask m 1 (.prod i a) [0] ⟨[], []⟩ = .ok (List.range ts.length, ⟨ts, [(i, List.range ts.length)]⟩) := by
    unfold makeDask
    simp only [List.lookup_nil, hs, bind, Except.bind, List.reverse_singleton, chunks_singles n (by omega)]
    simp only [bind, Except.bind] at t1
    rw [t1]
    simp [DBuild.put, List.range_eq_range', pure, Except.pure]
  have hsrc : (List.range ts.length).mapM (sourceKey ts none) = .ok ((List.range ts.length).map (fun q => ([(singles n).getD q PySlice.full], q))) := by
    refine mapM_ok _ _ _ ?_
    intro q hq
    rw [List.mem_range] at hq
    have h1 : ts[q]? = some ts[q] := List.getElem?_eq_getElem hq
    have h2 : ts[q].keys = [(singles n).getD q PySlice.full].map Key.slice := by
      have hl := congrArg List.length t2
      simp only [List.length_map] at hl
      have := congrArg (fun l => l[q]?) t2
      simp only [List.getElem?_map, h1, Option.map_some] at this
      rw [List.getElem?_eq_getElem (by omega), Option.map_some, Option.some.injEq] at this
      rw [this, List.getD_eq_getElem _ _ (by omega)]
      rfl
    exact sourceKey_ok h1 h2 none
  have hgk : groupKeys [n] [((List.range ts.length).map (fun q => ([(singles n).getD q PySlice.full], q))).map Prod.fst] (List.range 1) = .error .runtime := by
    have hlen : ts.length = n := by
      have := congrArg List.length t2
      simpa [singles] using this
    have hl : ((List.range ts.length).map (fun q => ([(singles n).getD q PySlice.full], q))).map Prod.fst = (singles n).map (fun s => [s]) := by
      rw [hlen, List.map_map]
      apply List.ext_getElem
      · simp [singles]
      · intro q h1 h2
        simp only [List.length_map] at h2
        simp [List.getElem?_eq_getElem h2]
    rw [hl]
    have hk : keysForDim 0 [(singles n).map (fun s => [s])] = .ok [singles n] := by
      unfold keysForDim
      rw [mapM_ok_iff]
      refine .cons ?_ .nil
      rw [mapM_ok_iff, List.forall₂_map_left_iff]
      exact List.forall₂_same.mpr (fun x _ => rfl)
    obtain ⟨s0, L, hL⟩ : ∃ s0 L, singles n = s0 :: L := by
      cases h : singles n with
      | nil => have := congrArg List.length h; simp [singles] at this; omega
      | cons s0 L => exact ⟨s0, L, rfl⟩
    unfold groupKeys
    have e1 : ([(singles n).map (fun s => [s])].getD 0 []).head? = some [s0] := by rw [hL]; rfl
    rw [show List.range 1 = [0] from rfl]
    simp only [List.head?_cons, e1, bind, Except.bind]
    unfold dimLoop
    simp only [List.foldlM_cons, bind, Except.bind]
    unfold processGroup
    have e2 : GLists.vals [(singles n).map (fun s => [s])] (.caller [0]) = [(singles n).map (fun s => [s])] := rfl
    simp only [e2, hk, (C36_gives_up hn).2, bind, Except.bind]
  have hg : daskGraph m 1 [.elem1 j (.prod i a) op] ⟨[], []⟩ [] = .error .runtime := by
    unfold daskGraph
    have hsh : (AObj.elem1 j (.prod i a) op).toArr.shape = .ok [n] := hs
    simp only [hsh, bind, Except.bind, List.length_singleton]
    rw [show List.range 1 = [0] from rfl]
    unfold makeDask
    simp only [List.lookup_nil, hf, hmk, bind, Except.bind]
    unfold streamNodes
    have hsh' : (Arr.elem1 (AObj.prod i a).toArr op).shape = .ok [n] := hs
    simp only [hsh', bind, Except.bind, List.mapM_cons, hsrc, List.mapM_nil, pure, Except.pure]
    simp only [List.map_cons, List.map_nil, List.length_singleton]
    rw [hgk]
  unfold DaskOutcome
  rw [hg]

/-- Its hypotheses hold for a constant vector of 20000 elements. -/
example : (Arr.const [20000] (5 : ℚ) 0).isProd = true ∧ (Arr.const [20000] (5 : ℚ) 0).WF ∧ (Arr.const [20000] (5 : ℚ) 0).shape = .ok [20000] ∧
    (Arr.const [20000] (5 : ℚ) 0).Ok exMode 1 .sliced ∧ (exMode.op1 ⟨fun x => -x, none⟩).isSome = true := ⟨rfl, trivial, rfl, trivial, rfl⟩

end Biggus

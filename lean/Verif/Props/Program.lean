import Verif.Proofs.Program
/-
C85.  Programs: any sequence of public operations - sources, constants, new axes, broadcasts, transpositions, stacks, mosaics, casts, masking by value,
aggregations, element-wise operations and indexing at any point - evaluates, directly and through the chunking engine, to what the same sequence of NumPy
operations computes.  `Arr.Program` (Spec/Program.lean) lists the operations, each with its NumPy counterpart.
-/
namespace Biggus
open Spec

section
variable {α V : Type} [Inhabited α] [Inhabited V] {m : Mode α V} {limit : Nat} {fwd : Bool} {isAgg : AggKind α → List V → V → Prop}

/-- Every index step of a program succeeds, in biggus and in NumPy, and leads to a program again. -/
theorem C85_index_step (hsound : ∀ k col v, col ≠ [] → isAgg k col v → v = (m.handler k).run col.length [col])
    {arr : Bool} {cut : Cut} {a : Arr α} {x : NDA V} {ks : List Key} (h : a.Program m limit isAgg fwd true arr cut x)
    (hks : StepKeys fwd arr ks x.shape) (hca : cut = .arrays → arr = true) :
    ∃ b r, a.getitem ks = .ok b ∧ npIndex x ks = .ok r ∧ b.Program m limit isAgg fwd true arr cut r := by
  have hF := program_fine hsound h
  have hks' := hks
  obtain ⟨fk, hf, hs, hex⟩ := hks
  obtain ⟨τ, hτ⟩ := simpleKeys_resolve hs
  obtain ⟨σ, hσ⟩ := resolve_dropNew hτ.1 (expandKeys_spec hf).1
  have hr : npIndex x ks = .ok (x.ortho σ) := npIndex_ok_iff.mpr ⟨fk, σ, hf, hσ, rfl⟩
  obtain ⟨r', hr', hrr⟩ := npIndex_congr hF.den.symm hr
  rw [← hF.den.1] at hf hs
  obtain ⟨g1, g2⟩ := simple_ok m true fwd a arr cut hF.wf (hF.plain rfl) _ hs
  obtain ⟨b, h1, _⟩ := getitem_ok m a hF.wf ks fk r' hf (keysOk_dropNew _ _ g1) hr'
  exact ⟨b, _, h1, hr, .index h hks' hca h1 hr⟩

/-- Every aggregation step has a result, if the aggregate of every column exists. -/
theorem C85_agg_step (hex : ∀ k col, col ≠ [] → ∃ v, isAgg k col v) {ix arr : Bool} {cut : Cut} {a : Arr α} {x : NDA V} {axis : Nat} {k : AggKind α}
    (h : a.Program m limit isAgg fwd ix arr cut.streamed x) (hax : axis < x.shape.length) (hne : x.shape.getD axis 0 ≠ 0)
    (hl : a.cutSafe limit axis (m.handler k)) : ∃ r, (Arr.agg a axis k).Program m limit isAgg fwd ix arr cut r := by
  have hc : ∀ idx, x.column axis idx ≠ [] := by
    intro idx e
    have := column_length x axis idx
    rw [e] at this
    exact hne this.symm
  exact ⟨⟨x.shape.eraseIdx axis, fun idx => (hex k _ (hc idx)).choose⟩, .agg h hax hne hl ⟨rfl, fun idx _ => (hex k _ (hc idx)).choose_spec⟩⟩

/-- Every stack of programs with results of one shape is accepted, and a program. -/
theorem C85_stack_step (hsound : ∀ k col v, col ≠ [] → isAgg k col v → v = (m.handler k).run col.length [col]) {ix arr : Bool} {cut : Cut}
    {ss s : List Nat} {items : List Nat → Arr α} {x : List Nat → NDA V} (h0 : ss.prod ≠ 0)
    (h : ∀ i, InB ss i → (items i).Program m limit isAgg fwd ix arr cut (x i) ∧ (x i).shape = s) (h1 : ix = true ∧ arr = true ∨ cut = .arrays → ss.length ≤ 1)
    (h2 : cut ≠ .whole → ss ≠ []) (h3 : ix = true → cut ≠ .whole → ∀ i, InB ss i → (items i).isProd = true) :
    ∃ b, mkStack ss items = .ok b ∧ b.Program m limit isAgg fwd ix arr cut (NDA.stacked ss x) := by
  have hm : mkStack ss items = .ok (.stack ss items) := mkStack_iff.mpr ⟨h0, ⟨s, fun i hi => by
    rw [(program_fine hsound (h i hi).1).yields.1, (h i hi).2]⟩, rfl⟩
  exact ⟨_, hm, .stack h1 h2 h3 (fun i hi => (h i hi).1) hm⟩

/-- Every mosaic of programs with results of fitting shapes is accepted, and a program. -/
theorem C85_mosaic_step (hsound : ∀ k col v, col ≠ [] → isAgg k col v → v = (m.handler k).run col.length [col]) {ix arr : Bool} {cut : Cut}
    {tiles : List (Arr α)} {axis : Nat} {s : List Nat} {x : Nat → NDA V} (h0 : tiles ≠ []) (hax : axis < s.length)
    (h : ∀ i, i < tiles.length → (tiles.getD i default).Program m limit isAgg fwd ix true (if cut = .whole then .whole else .arrays) (x i) ∧
      ∃ k, (x i).shape = s.set axis k) (h1 : ix = true → fwd = true) (h2 : ix = true → cut ≠ .whole → ∀ t ∈ tiles, t.isProd = true)
    (h3 : ix = true ∨ cut ≠ .whole → 0 < (NDA.concat tiles.length x axis).shape.getD axis 0) :
    ∃ b, mkMosaic tiles axis = .ok b ∧ b.Program m limit isAgg fwd ix arr cut (NDA.concat tiles.length x axis) := by
  have hm : mkMosaic tiles axis = .ok (.mosaic tiles.length (fun i => tiles.getD i default) axis) := mkMosaic_iff.mpr ⟨h0, ⟨s, hax, fun t ht => by
    obtain ⟨i, hi, rfl⟩ := List.getElem_of_mem ht
    obtain ⟨k, hk⟩ := (h i hi).2
    have := (program_fine hsound (h i hi).1).yields.1
    rw [List.getD_eq_getElem _ _ hi] at this
    exact ⟨k, by rw [this, hk]⟩⟩, rfl⟩
  exact ⟨_, hm, .mosaic h1 h2 (fun i hi => (h i hi).1) hm h3⟩

/-- Every transposition, and every insertion of axes, is accepted, and a program. -/
theorem C85_axes_steps (hsound : ∀ k col v, col ≠ [] → isAgg k col v → v = (m.handler k).run col.length [col]) {ix arr : Bool} {cut : Cut}
    {a : Arr α} {x : NDA V} (h : a.Program m limit isAgg fwd ix arr cut x) :
    (∀ axes, axes.Perm (List.range x.shape.length) → ∃ b, mkTransposed a axes = .ok b ∧ b.Program m limit isAgg fwd ix arr cut (x.permute axes)) ∧
    (cut ≠ .arrays → (ix = true → arr = false) → ∀ na : List Nat, na.length = x.shape.length + 1 →
      ∃ b, mkNewAxes a na = .ok b ∧ b.Program m limit isAgg fwd ix arr cut (x.insertAxes na)) := by
  have hs := (program_fine hsound h).yields.1
  refine ⟨fun axes hp => ?_, fun hc hi na hl => ?_⟩
  · have hm : mkTransposed a axes = .ok (.transposed a axes) := (mkTransposed_iff hs).mpr ⟨by simpa using hp.length_eq, rfl⟩
    exact ⟨_, hm, .transposed h hp hm⟩
  · have hm : mkNewAxes a na = .ok (.newAxes a na) := (mkNewAxes_iff hs).mpr ⟨hl, rfl⟩
    exact ⟨_, hm, .newAxes hc hi h hm⟩

/-- Every binary operation `op(a, b)` on arrays that NumPy can broadcast is a step of a program, too: biggus broadcasts the operands first.  (If the result is going to
be streamed, the operands must be read in the same chunks.) -/
theorem C85_elementwise_step (hsound : ∀ k col v, col ≠ [] → isAgg k col v → v = (m.handler k).run col.length [col]) {ix : Bool} {cut : Cut}
    {a b : Arr α} {x y : NDA V} {op : Op2 α} {f : V → V → V} {r : List Nat} (hcut : cut ≠ .arrays)
    (ha : a.Program m limit isAgg fwd ix false cut.streamed x) (hb : b.Program m limit isAgg fwd ix false cut.streamed y) (hla : a.noLead) (hlb : b.noLead)
    (hop : m.op2 op = some f) (hr : Broadcasts x.shape y.shape r) (hlx : ∀ l ∈ r.take (r.length - x.shape.length), 1 ≤ l)
    (hly : ∀ l ∈ r.take (r.length - y.shape.length), 1 ≤ l) (hs : cut = .whole ∨ SameChunks limit a b x.shape y.shape r) :
    ∃ e, mkElem2 a b op = .ok e ∧ e.Program m limit isAgg fwd ix false cut ⟨r, fun idx => f ((broadcastTo x r).get idx) ((broadcastTo y r).get idx)⟩ := by
  have hcs : cut.streamed ≠ .arrays := by cases cut <;> first | exact absurd rfl hcut | decide
  obtain ⟨a', a1, a2, a3, a4⟩ := program_bcastSide hsound ha hcs hla hr.left hlx
  obtain ⟨b', b1, b2, b3, b4⟩ := program_bcastSide hsound hb hcs hlb hr.symm.left hly
  refine ⟨.elem2 a' b' op, ?_, .elem2 a2 b2 hop rfl (hs.imp_right (fun h => ?_))⟩
  · unfold mkElem2 broadcastArrays
    simp only [(program_fine hsound ha).yields.1, (program_fine hsound hb).yields.1, bind, Except.bind]
    rw [computeBcastShape_iff.mpr hr]
    simp only [a1, b1, pure, Except.pure]
  · rcases h with ⟨h1, h2⟩ | ⟨h1, h2, h3⟩
    · left
      have key : ∀ {a a' : Arr α} {x : NDA V}, a'.Program m limit isAgg fwd ix false cut.streamed (broadcastTo x r) → (x.shape = r → a' = a) →
          (x.shape ≠ r → a'.isProd = true) → (x.shape ≠ r ∨ a.isProd = true) → a'.skel = .prod r := by
        intro a a' x p e1 e2 h
        have hp : a'.isProd = true := by
          by_cases e : x.shape = r
          · rw [e1 e]; exact h.resolve_left (fun h => h e)
          · exact e2 e
        rw [isProd_skel hp, (program_fine hsound p).yields.1]; rfl
      rw [key a2 a3 a4 h1, key b2 b3 b4 h2]
    · rw [a3 h1, b3 h2]; exact h3

end

section
variable {α : Type} [Inhabited α] [Field α] [LinearOrder α] [IsStrictOrderedRing α] {limit : Nat}

theorem isMin_unique {col : List α} {v w : α} (h : IsMin col v) (h' : IsMin col w) : v = w :=
  le_antisymm (h.2 w h'.1) (h'.2 v h.1)

theorem isMax_unique {col : List α} {v w : α} (h : IsMax col v) (h' : IsMax col w) : v = w :=
  le_antisymm (h'.2 v h.1) (h.2 w h'.1)

/-- The textbook aggregate is what the code computes for one chunk. -/
theorem theAgg_sound (sqrt : α → α) (cast : Nat → α → α) (k : AggKind α) (col : List α) (v : α)
    (hcol : col ≠ []) (h : TheAgg sqrt k col v) : v = ((ndMode sqrt cast).handler k).run col.length [col] := by
  have hc : CutOf col [col] := by simp [CutOf]
  cases k with
  | count => exact h.1.trans (C20_count_of_any_chunking col [col] hc _).symm
  | min => exact isMin_unique h.1 (C22_single_chunk_partial col hcol _).1
  | max => exact isMax_unique h.1 (C22_single_chunk_partial col hcol _).2
  | sum => exact h.1.trans (C20_sum_of_any_chunking col [col] hc _).symm
  | mean t => exact h.1.trans (C20_mean_of_any_chunking col [col] hc).symm
  | std d => exact h.1.trans (C23_std_var_partial sqrt d col col [] hc (Or.inr ⟨rfl, hcol⟩)).1.symm
  | var d =>
    have h0 := h.2 d rfl
    rw [show (ndMode sqrt cast).handler (.var d) = varH sqrt d from rfl,
      (C23_std_var_partial sqrt d col col [] hc (Or.inr ⟨rfl, hcol⟩)).2, h0.2]
    exact h.1 h0.1

theorem theAggMasked_sound (sqrt : α → α) (cast : Nat → α → α) (k : AggKind α) (col : List (Option α))
    (v : Option α) (h : TheAggMasked sqrt k col v) : v = ((maMode sqrt cast).handler k).run col.length [col] := by
  obtain ⟨h, hv⟩ := h
  have hc : CutOf col [col] := by simp [CutOf]
  have e : ∀ {β : Type} (q : β → Prop) (u w : Option β), (match u with | none => valid col = [] | some y => q y) →
      (match w with | none => valid col = [] | some y => q y) → (∀ y, q y → valid col ≠ []) → (∀ y z, q y → q z → y = z) → u = w := by
    intro β q u w hu hw h1 h2
    cases u <;> cases w
    · rfl
    · exact absurd hu (h1 _ hw)
    · exact absurd hw (h1 _ hu)
    · exact congrArg some (h2 _ _ hu hw)
  cases k with
  | count => exact h.trans (C21_masked_count col [col] hc _).symm
  | min =>
    exact e (IsMin (valid col)) v (minMH.run col.length [col]) h (C22_masked_min_is_min_of_last_chunk [] col _)
      (fun y hy h0 => by rw [h0] at hy; exact absurd hy.1 (by simp)) (fun _ _ => isMin_unique)
  | max =>
    exact e (IsMax (valid col)) v (maxMH.run col.length [col]) h (C22_masked_max_is_max_of_last_chunk [] col _)
      (fun y hy h0 => by rw [h0] at hy; exact absurd hy.1 (by simp)) (fun _ _ => isMax_unique)
  | sum => exact h.trans (C21_masked_sum_partial col [col] hc _).symm
  | mean t => exact h.trans (C21_masked_mean t col [col] hc _).symm
  | std d => exact h.trans (C23_masked_std sqrt d col [col] hc _).symm
  | var d =>
    have h' := C23_masked_std sqrt d col [col] hc col.length
    rw [show v = _ from h]
    show _ = ((stdMH sqrt d).run col.length [col]).map (fun s => s * s)
    rw [h']
    split
    · rfl
    · rename_i hn
      push Not at hn
      simp only [Option.map_some, Option.some.injEq]
      exact (hv d rfl hn.2.2).symm

/-- C85, unmasked.  Whatever program a user writes, `a.ndarray()` returns what NumPy computes, the announced shape is right; and if the array may be an argument of
further operations, `biggus.ndarrays([a])` returns it too. -/
theorem C85_programs (sqrt : α → α) (cast : Nat → α → α) (fwd ix arr : Bool) (cut : Cut) (a : Arr α)
    (x : NDA α) (h : a.Program (ndMode sqrt cast) limit (TheAgg sqrt) fwd ix arr cut x) :
    a.Yields (ndMode sqrt cast) limit x ∧ (cut ≠ .whole → a.EngineReturns (ndMode sqrt cast) limit x) := by
  have hF := program_fine (theAgg_sound sqrt cast) h
  exact ⟨hF.yields, hF.engine⟩

/-- C85, masked: the same for `a.masked_array()` and `biggus.masked_arrays([a])`. -/
theorem C85_masked_programs (sqrt : α → α) (cast : Nat → α → α) (fwd ix arr : Bool) (cut : Cut) (a : Arr α)
    (x : NDA (Option α)) (h : a.Program (maMode sqrt cast) limit (TheAggMasked sqrt) fwd ix arr cut x) :
    a.Yields (maMode sqrt cast) limit x ∧ (cut ≠ .whole → a.EngineReturns (maMode sqrt cast) limit x) := by
  have hF := program_fine (fun k col v _ => theAggMasked_sound sqrt cast k col v) h
  exact ⟨hF.yields, hF.engine⟩

end

/-! ### A program
`biggus.mean(biggus.ArrayStack([biggus.sum(a, 0)[1:, 0], biggus.sum(a, 1)[:, 3]]), 0)` for the example source `a` of shape (2, 3, 4): a stack, below an aggregation, of
indexed aggregations; not an expression of the smaller grammar `Arr.Built`. -/

def exIndexedSums : List Nat → Arr ℚ
  | [0] => okOr ((Arr.agg (.adapter false exSource []) 0 .sum).getitem [.slice ⟨some 1, none, none⟩, .int 0]) default
  | _ => okOr ((Arr.agg (.adapter false exSource []) 1 .sum).getitem [.slice ⟨none, none, none⟩, .int 3]) default

theorem exists_theAgg (k : AggKind ℚ) (hk : ∀ d, k ≠ .var d) (col : List ℚ) (hcol : col ≠ []) : ∃ v, TheAgg id k col v := by
  refine ⟨((ndMode id (fun _ (x : ℚ) => x)).handler k).run col.length [col], ?_, fun d e => absurd e (hk d)⟩
  have hc : CutOf col [col] := by simp [CutOf]
  cases k with
  | count => exact C20_count_of_any_chunking col [col] hc _
  | min => exact (C22_single_chunk_partial col hcol _).1
  | max => exact (C22_single_chunk_partial col hcol _).2
  | sum => exact C20_sum_of_any_chunking col [col] hc _
  | mean t => exact C20_mean_of_any_chunking col [col] hc
  | std d => exact (C23_std_var_partial id d col col [] hc (Or.inr ⟨rfl, hcol⟩)).1
  | var d => exact absurd rfl (hk d)

/-- The example is a program. -/
theorem exProgram : ∃ x : NDA ℚ, (Arr.agg (.stack [2] exIndexedSums) 0 (.mean 1)).Program exMode 5 (TheAgg id) true false false .whole x ∧ x.shape = [2] := by
  have hsafe : exMode.sourceSafe exSource := fun _ _ => rfl
  have hsum : ∀ axis, axis < 3 → ∃ r, r.shape = [2, 3, 4].eraseIdx axis ∧
      (Arr.agg (.adapter false exSource []) axis .sum).Program exMode 5 (TheAgg id) true true false .sliced r := by
    intro axis hax
    have h0 : exSource.data.shape = [2, 3, 4] := rfl
    have hs : (Arr.adapter false exSource []).Program exMode 5 (TheAgg id) true true false .sliced (exSource.data.map (exMode.leaf exSource.fill)) :=
      .source _ _ _ _ _ hsafe (fun _ h => by cases h)
    have hne : ([2, 3, 4] : List Nat).getD axis 0 ≠ 0 := by
      match axis, hax with
      | 0, _ => decide
      | 1, _ => decide
      | 2, _ => decide
    have hc : ∀ idx, (exSource.data.map (exMode.leaf exSource.fill)).column axis idx ≠ [] := by
      intro idx e
      have := column_length (exSource.data.map (exMode.leaf exSource.fill)) axis idx
      rw [e] at this
      exact hne this.symm
    have hx := fun idx => exists_theAgg .sum (by simp) _ (hc idx)
    refine ⟨⟨[2, 3, 4].eraseIdx axis, fun idx => (hx idx).choose⟩, rfl, .agg hs hax hne (Or.inl sumH_lawful) ⟨rfl, fun idx _ => (hx idx).choose_spec⟩⟩
  obtain ⟨r0, e0, p0⟩ := hsum 0 (by decide)
  obtain ⟨r1, e1, p1⟩ := hsum 1 (by decide)
  obtain ⟨b0, y0, g0, n0, q0⟩ := C85_index_step (theAgg_sound id (fun _ x => x)) p0 (ks := [.slice ⟨some 1, none, none⟩, .int 0]) (by
    rw [e0]
    exact ⟨[.slice ⟨some 1, none, none⟩, .int 0], rfl, .cons (Or.inr (Or.inl ⟨_, [1, 2], rfl, fun _ => rfl, rfl, fun _ => by simp⟩))
      (.cons (Or.inl ⟨0, rfl, rfl, fun _ => by simp⟩) .nil), fun h => by cases h⟩) (fun h => by cases h)
  obtain ⟨b1, y1, g1, n1, q1⟩ := C85_index_step (theAgg_sound id (fun _ x => x)) p1 (ks := [.slice ⟨none, none, none⟩, .int 3]) (by
    rw [e1]
    exact ⟨[.slice ⟨none, none, none⟩, .int 3], rfl, .cons (Or.inr (Or.inl ⟨_, [0, 1], rfl, fun _ => rfl, rfl, fun _ => by simp⟩))
      (.cons (Or.inl ⟨3, rfl, rfl, fun _ => by simp⟩) .nil), fun h => by cases h⟩) (fun h => by cases h)
  have hs0 : y0.shape = [2] := by
    obtain ⟨fk, σ, h1, h2, rfl⟩ := npIndex_ok_iff.mp n0
    rw [e0] at h1 h2
    cases h1
    cases h2
    rfl
  have hs1 : y1.shape = [2] := by
    obtain ⟨fk, σ, h1, h2, rfl⟩ := npIndex_ok_iff.mp n1
    rw [e1] at h1 h2
    cases h1
    cases h2
    rfl
  have hb0 : exIndexedSums [0] = b0 := by
    show okOr _ default = b0
    rw [g0]; rfl
  have hb1 : exIndexedSums [1] = b1 := by
    show okOr _ default = b1
    rw [g1]; rfl
  let x : List Nat → NDA ℚ := fun i => if i = [0] then y0 else y1
  have hitem : ∀ i, InB [2] i → (exIndexedSums i).Program exMode 5 (TheAgg id) true false false .sliced (x i) ∧ (x i).shape = [2] := by
    intro i hi
    match i, hi with
    | [0], _ => rw [hb0]; exact ⟨.keep q0, hs0⟩
    | [1], _ => rw [hb1]; exact ⟨.keep q1, hs1⟩
    | [i + 2], hi => exact absurd hi.1 (by omega)
  have hst : (Arr.stack [2] exIndexedSums).Program exMode 5 (TheAgg id) true false false .sliced (NDA.stacked [2] x) :=
    .stack (fun h => by simp) (fun _ => by simp) (fun h => by cases h) (fun i hi => (hitem i hi).1) (mkStack_iff.mpr ⟨by decide, ⟨[2], fun i hi => by
      rw [(program_fine (theAgg_sound id (fun _ x => x)) (hitem i hi).1).yields.1, (hitem i hi).2]⟩, rfl⟩)
  have hsh : (NDA.stacked [2] x).shape = [2, 2] := by
    show [2] ++ (x [0]).shape = _
    rw [(hitem [0] ⟨by decide, trivial⟩).2]; rfl
  have hc : ∀ idx, (NDA.stacked [2] x).column 0 idx ≠ [] := by
    intro idx e
    have := column_length (NDA.stacked [2] x) 0 idx
    rw [e, hsh] at this
    exact absurd this (by decide)
  have hx := fun idx => exists_theAgg (.mean 1) (by simp) _ (hc idx)
  refine ⟨⟨[2], fun idx => (hx idx).choose⟩, .agg (cut := .whole) hst (by rw [hsh]; decide) (by rw [hsh]; decide) (Or.inl meanH_lawful)
    ⟨by rw [hsh]; rfl, fun idx _ => (hx idx).choose_spec⟩, rfl⟩

example : Res.view ((Arr.agg (.stack [2] exIndexedSums) 0 (.mean 1)).eval exMode 5 3) = .ok ([2], [41/2, 85/2]) := by decide +kernel

end Biggus

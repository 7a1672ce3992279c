import Verif.Proofs.LateBinding
import Verif.Props.Mutable
import Verif.Props.Elementwise
/-
C72, C73: lazy expressions over stacks whose items are assigned after the expression has been built.
-/
namespace Biggus
open Spec

section
variable {α V : Type} [Inhabited α] [Inhabited V] {m : Mode α V} {limit : Nat}

theorem Heap.Is.engineReturns {H : Heap α} {o : ArrRef α} {a : Arr α} {x : NDA V} (h : H.Is o a) (hx : a.EngineReturns m limit x) : H.EngineReturns m limit o x := by
  obtain ⟨d, hd⟩ := h
  obtain ⟨N, hN⟩ := hx
  refine ⟨max N d, fun n hn => ?_⟩
  obtain ⟨r, h1, h2⟩ := hN n (le_trans (le_max_left _ _) hn)
  refine ⟨r, ?_, h2⟩
  rw [Heap.engineOne_eq (fun G P d o a => Heap.eval_eq m limit n n G P d o a) hd (le_trans (le_max_right _ _) hn)]
  exact h1

omit [Inhabited α] in
theorem Heap.Is.both {H : Heap α} {o o' : ArrRef α} {a a' : Arr α} (h : H.Is o a) (h' : H.Is o' a') :
    ∃ d, H.IsIn (fun _ => True) d o a ∧ H.IsIn (fun _ => True) d o' a' := by
  obtain ⟨d, hd⟩ := h
  obtain ⟨d', hd'⟩ := h'
  exact ⟨max d d', hd.le (le_max_left _ _), hd'.le (le_max_right _ _)⟩

/-- C73.  The announced shape of an object never changes, whatever the program does later (in particular, whatever is assigned to the items of the stacks the object is made of). -/
theorem C73_shape_never_changes (n : Nat) (ops : List (Op α)) (H : Heap α) (o : ArrRef α) (s : List Nat) (h : H.shape o = .ok s) :
    (H.run n ops).shape o = .ok s ∧
      ∀ (a : Arr α) (x : NDA V), (H.run n ops).Is o a → a.Yields m limit x → x.shape = s := by
  have h' := Heap.shape_later (Heap.run_sameShapes n ops H) o s h
  refine ⟨h', fun a x ⟨d, hd⟩ hx => ?_⟩
  rw [hd.shape_eq, hx.1] at h'
  exact Except.ok.inj h'

/-- C72.  An object is evaluated as the expression it is at that moment: `ndarray()` and `biggus.ndarrays([...])` do the same as they would for an immutable expression with the same
parts, including the exception raised. -/
theorem C72_evaluation (H : Heap α) (o : ArrRef α) (a : Arr α) (h : H.Is o a) :
    ∃ N, ∀ n, N ≤ n → ∀ k, H.eval m limit n k o = a.eval m limit k ∧
      H.engineOne m limit n (Arr.eval m limit k) (fun G o => Heap.eval m limit n k G o) o = engineEval m limit k a := by
  obtain ⟨d, hd⟩ := h
  refine ⟨d, fun n hn k => ⟨Heap.eval_eq m limit n k H _ d o a hd hn, ?_⟩⟩
  rw [Heap.engineOne_eq (fun G P d o a => Heap.eval_eq m limit n k G P d o a) hd hn]
  rfl

omit [Inhabited V] in
/-- C72, for constructors.  Let an object be built from others at some moment.  At any later moment it is what the constructor would build from what the others are then. -/
theorem C72_built_from_current_parts (n : Nat) (ops : List (Op α)) (H : Heap α) (o o' : ArrRef α) (a a' : Arr α) (ha : (H.run n ops).Is o a) (ha' : (H.run n ops).Is o' a') :
    (∀ op e, H.mkElem2 o o' op = .ok e → ∃ b, mkElem2 a a' op = .ok b ∧ (H.run n ops).Is e b) ∧
    (∀ axes e, H.mkTransposed o axes = .ok e → ∃ b, mkTransposed a axes = .ok b ∧ (H.run n ops).Is e b) ∧
    (∀ na e, H.mkNewAxes o na = .ok e → ∃ b, mkNewAxes a na = .ok b ∧ (H.run n ops).Is e b) ∧
    (∀ dict lead e, H.mkBcast o dict lead = .ok e → ∃ b, mkBcast a dict lead = .ok b ∧ (H.run n ops).Is e b) ∧
    (∀ op, (H.run n ops).Is (.elem1 o op) (.elem1 a op)) ∧
    (∀ axis k, (H.run n ops).Is (.agg o axis k) (.agg a axis k)) ∧
    (∀ dt, (H.run n ops).Is (.asType o dt) (.asType a dt)) ∧
    (∀ v, (H.run n ops).Is (.maskVal o v) (.maskVal a v)) := by
  have hs := Heap.run_sameShapes n ops H
  obtain ⟨d, h1, h2⟩ := ha.both ha'
  refine ⟨fun op e he => ?_, fun axes e he => ?_, fun na e he => ?_, fun dict lead e he => ?_, fun op => ⟨d, .elem1 op h1⟩, fun axis k => ⟨d, .agg axis k h1⟩,
    fun dt => ⟨d, .asType dt h1⟩, fun v => ⟨d, .maskVal v h1⟩⟩
  · obtain ⟨b, k1, k2⟩ := (Heap.mkElem2_alike h1 h2 op).ok_left (Heap.mkElem2_later hs o o' op e he)
    exact ⟨b, k1, d, k2⟩
  · obtain ⟨b, k1, k2⟩ := (Heap.mkTransposed_alike h1 axes).ok_left (Heap.mkTransposed_later hs o axes e he)
    exact ⟨b, k1, d, k2⟩
  · obtain ⟨b, k1, k2⟩ := (Heap.mkNewAxes_alike h1 na).ok_left (Heap.mkNewAxes_later hs o na e he)
    exact ⟨b, k1, d, k2⟩
  · obtain ⟨b, k1, k2⟩ := (Heap.mkBcast_alike h1 dict lead).ok_left (Heap.mkBcast_later hs o dict lead e he)
    exact ⟨b, k1, d, k2⟩

omit [Inhabited V] in
/-- C72, for mosaics. -/
theorem C72_mosaic_of_current_tiles (n : Nat) (ops : List (Op α)) (H : Heap α) (os : List (ArrRef α)) (as : List (Arr α)) (axis : Nat) (e : ArrRef α)
    (ha : List.Forall₂ (fun o a => (H.run n ops).Is o a) os as) (he : H.mkMosaic os axis = .ok e) :
    ∃ b, mkMosaic as axis = .ok b ∧ (H.run n ops).Is e b := by
  have hd : ∃ d, List.Forall₂ (fun o a => (H.run n ops).IsIn (fun _ => True) d o a) os as := by
    clear he
    induction ha with
    | nil => exact ⟨0, .nil⟩
    | cons h _ ih =>
      obtain ⟨d, hd⟩ := h
      obtain ⟨d', hd'⟩ := ih
      exact ⟨max d d', .cons (hd.le (le_max_left _ _)) (hd'.imp (fun _ _ h => h.le (le_max_right _ _)))⟩
  obtain ⟨d, hd⟩ := hd
  obtain ⟨b, k1, k2⟩ := (Heap.mkMosaic_alike hd axis).ok_left (Heap.mkMosaic_later (Heap.run_sameShapes n ops H) os axis e he)
  exact ⟨b, k1, d, k2⟩

/-- C72, values of element-wise operations.  `e = o + o'` (or another operation `f`) is built at some moment.  If after some more steps of the program (assignments, ...) `o` evaluates to `x` and `o'` to
`y`, then `e` evaluates to `x + y` (broadcast as by NumPy). -/
theorem C72_elementwise (fwd : Bool) (n : Nat) (ops : List (Op α)) (H : Heap α) (o o' e : ArrRef α) (op : Op2 α) (he : H.mkElem2 o o' op = .ok e)
    (a b : Arr α) (x y : NDA V) (f : V → V → V) (r : List Nat) (ho : (H.run n ops).Is o a) (ho' : (H.run n ops).Is o' b)
    (ha : a.Built m limit fwd false .sliced) (hb : b.Built m limit fwd false .sliced) (hla : a.noLead) (hlb : b.noLead)
    (hx : a.Yields m limit x) (hy : b.Yields m limit y) (hop : m.op2 op = some f) (hr : Broadcasts x.shape y.shape r)
    (hlx : ∀ l ∈ r.take (r.length - x.shape.length), 1 ≤ l) (hly : ∀ l ∈ r.take (r.length - y.shape.length), 1 ≤ l) :
    (H.run n ops).Returns m limit e ⟨r, fun idx => f ((broadcastTo x r).get idx) ((broadcastTo y r).get idx)⟩ ∧
      (SameChunks limit a b x.shape y.shape r →
        (H.run n ops).EngineReturns m limit e ⟨r, fun idx => f ((broadcastTo x r).get idx) ((broadcastTo y r).get idx)⟩) := by
  obtain ⟨b', h1, h2⟩ := (C72_built_from_current_parts n ops H o o' a b ho ho').1 op e he
  obtain ⟨b'', k1, k2, k3⟩ := C24_elementwise fwd a b x y op f r ha hb hla hlb hx hy hop hr hlx hly
  rw [h1] at k1
  cases k1
  exact ⟨h2.returns k2.2, fun hsc => h2.engineReturns (k3 hsc)⟩

/-- C72, values of unary operations. -/
theorem C72_elementwise_unary (fwd : Bool) (H : Heap α) (o : ArrRef α) (a : Arr α) (x : NDA V) (op : Op1 α) (f : V → V) (ho : H.Is o a) (ha : a.Built m limit fwd false .sliced)
    (hx : a.Yields m limit x) (hop : m.op1 op = some f) : H.Returns m limit (.elem1 o op) (x.map f) ∧ H.EngineReturns m limit (.elem1 o op) (x.map f) := by
  obtain ⟨h1, h2⟩ := C24_elementwise_unary fwd a x op f ha hx hop
  obtain ⟨d, hd⟩ := ho
  exact ⟨Heap.Is.returns ⟨d, .elem1 op hd⟩ h1.2, Heap.Is.engineReturns ⟨d, .elem1 op hd⟩ h2⟩

end

/-- C72, values of aggregations: `biggus.sum(o)` (or `count`, `mean`) of an object, built at any moment, is the sum of what the object is when it is evaluated. -/
theorem C72_aggregations {α : Type} [Field α] [LinearOrder α] [IsStrictOrderedRing α] [Inhabited α] {limit : Nat} (sqrt : α → α) (cast : Nat → α → α) (fwd : Bool) (H : Heap α) (o : ArrRef α)
    (a : Arr α) (x : NDA α) (axis : Nat) (k : AggKind α) (ho : H.Is o a) (hk : k = .count ∨ k = .sum ∨ ∃ t, k = .mean t)
    (hb : a.Built (ndMode sqrt cast) limit fwd false .sliced) (hx : a.Yields (ndMode sqrt cast) limit x) (hax : axis < x.shape.length) (hne : x.shape.getD axis 0 ≠ 0) :
    ∃ r, H.Returns (ndMode sqrt cast) limit (.agg o axis k) r ∧ H.EngineReturns (ndMode sqrt cast) limit (.agg o axis k) r ∧ AggregateOf (IsAgg sqrt k) x axis r := by
  obtain ⟨r, h1, h2, h3⟩ := C20_count_sum_mean_arrays sqrt cast fwd a x axis k hk hb hx hax hne
  obtain ⟨d, hd⟩ := ho
  exact ⟨r, Heap.Is.returns ⟨d, .agg axis k hd⟩ h1.2, Heap.Is.engineReturns ⟨d, .agg axis k hd⟩ h2, h3⟩

/-- C72, values of masked aggregations (with `mdtol`). -/
theorem C72_masked_aggregations {α : Type} [Field α] [LinearOrder α] [IsStrictOrderedRing α] [Inhabited α] {limit : Nat} (sqrt : α → α) (hsqrt : ∀ x, 0 ≤ x → sqrt x * sqrt x = x)
    (cast : Nat → α → α) (fwd : Bool) (H : Heap α) (o : ArrRef α) (a : Arr α) (x : NDA (Option α)) (axis : Nat) (k : AggKind α) (ho : H.Is o a) (hk : k ≠ .min ∧ k ≠ .max)
    (hb : a.Built (maMode sqrt cast) limit fwd false .sliced) (hx : a.Yields (maMode sqrt cast) limit x) (hax : axis < x.shape.length) (hne : x.shape.getD axis 0 ≠ 0) :
    ∃ r, H.Returns (maMode sqrt cast) limit (.agg o axis k) r ∧ H.EngineReturns (maMode sqrt cast) limit (.agg o axis k) r ∧ AggregateOf (IsAggMasked sqrt k) x axis r := by
  obtain ⟨r, h1, h2, h3⟩ := C21_C23_masked_arrays sqrt hsqrt cast fwd a x axis k hk hb hx hax hne
  obtain ⟨d, hd⟩ := ho
  exact ⟨r, Heap.Is.returns ⟨d, .agg axis k hd⟩ h1.2, Heap.Is.engineReturns ⟨d, .agg axis k hd⟩ h2, h3⟩

/-! ### concrete programs -/

/-- `inner[-1] = exSource`. -/
def exAssign : List (Op ℚ) := [.assign 0 [.int (-1)] (.arr (.adapter false exSource []))]

/-- What stack 0 is after the assignment. -/
def exInner' : Arr ℚ := .stack [2] (fun i => if i = [1] then .adapter false exSource [] else if i = [0] then .adapter false exSource [] else .const [2, 3, 4] 7 0)

theorem exAssign_is : (exHeap.run 5 exAssign).Is (.stack 0) exInner' := by
  obtain ⟨H', h1, h2, _⟩ := Heap.setitem_ok (H := exHeap) (id := 0) (keys := [.int (-1)]) (σ := [.at 1]) (v := .arr (.adapter false exSource [])) (d := 0) (s := ⟨0, [2, 3, 4]⟩)
    exHeap_inner rfl rfl (by simp) (by decide +kernel) (.arr _ _) (by decide +kernel)
  have : exHeap.run 5 exAssign = H' := by
    show exHeap.step 5 (.assign 0 [.int (-1)] (.arr (.adapter false exSource []))) = H'
    unfold Heap.step
    simp only [Heap.perform, h1]
  rw [this]
  exact h2

theorem exInner'_built : exInner'.Built exMode 100 true false .sliced := by
  refine .stack (ss := [2]) (items := fun i => if i = [1] then .adapter false exSource [] else if i = [0] then .adapter false exSource [] else .const [2, 3, 4] 7 0) (by simp)
      (fun _ => ⟨by simp, fun i _ => by split <;> [rfl; (split <;> rfl)]⟩) (fun i hi => ?_) (mkStack_iff.mpr ⟨by decide, ⟨[2, 3, 4], fun i hi => ?_⟩, rfl⟩)
  · split
    · exact exSource_built exMode (fun i _ => rfl) 100 _
    · split
      · exact exSource_built exMode (fun i _ => rfl) 100 _
      · exact .const _ _ _ _ _
  · split
    · decide +kernel
    · split
      · decide +kernel
      · decide +kernel

/-- The hypotheses of C72 and C73 are met by `e = inner + const`, built before the assignment. -/
example : ∃ e x y, exHeap.mkElem2 (.stack 0) (.arr (.const [2, 3, 4] 1 0)) exAdd = .ok e ∧ exHeap.shape e = .ok [2, 2, 3, 4] ∧ exInner'.Yields exMode 100 x ∧ (Arr.const [2, 3, 4] 1 0).Yields exMode 100 y ∧
    (exHeap.run 5 exAssign).Returns exMode 100 e ⟨[2, 2, 3, 4], fun idx => (broadcastTo x [2, 2, 3, 4]).get idx + (broadcastTo y [2, 2, 3, 4]).get idx⟩ := by
  obtain ⟨h1, h2, _, _⟩ := exInner'_built.fine
  have hy := Arr.Yields.of_den h1 (h2.mono exMode 100 exInner' .sliced .whole (Or.inr (Or.inr rfl)))
  have hsh : (exInner'.den exMode).shape = [2, 2, 3, 4] := by decide +kernel
  have hc : (Arr.const [2, 3, 4] 1 0 : Arr ℚ).Built exMode 100 true false .sliced := .const _ _ _ _ _
  obtain ⟨c1, c2, _, _⟩ := hc.fine
  have hcy := Arr.Yields.of_den c1 (c2.mono exMode 100 _ .sliced .whole (Or.inr (Or.inr rfl)))
  have hcs : ((Arr.const [2, 3, 4] 1 0 : Arr ℚ).den exMode).shape = [2, 3, 4] := by decide +kernel
  refine ⟨_, _, _, rfl, by decide +kernel, hy, hcy, ?_⟩
  exact (C72_elementwise (m := exMode) (limit := 100) true 5 exAssign exHeap (.stack 0) (.arr (.const [2, 3, 4] 1 0)) _ exAdd rfl exInner' (.const [2, 3, 4] 1 0) _ _
    (fun x y => x + y) [2, 2, 3, 4] exAssign_is ⟨0, .arr _ _⟩ exInner'_built hc (fun i _ => by dsimp only; split <;> [trivial; (split <;> trivial)]) trivial hy hcy rfl
    (by rw [hsh, hcs]; unfold Broadcasts Stretches; decide) (by rw [hsh]; simp) (by rw [hcs]; simp)).1

/-- The program: `e = inner + 1`, `t = sum(inner, axis=0)`, `v = e[:, 1, 2, 3]`, `inner[-1] = exSource`; then evaluate `e[:, 1, 2, 3]`, `t[1, 2, 3]` (late) and `v` (a snapshot). -/
example :
    ((do
      let e ← exHeap.mkElem2 (.stack 0) (.arr (.const [2, 2, 3, 4] 1 0)) exAdd
      let t : ArrRef ℚ := .agg (.stack 0) 0 .sum
      let (H1, v) ← exHeap.getitem 5 e [.ellipsis, .int 1, .int 2, .int 3]
      let H2 ← H1.setitem 0 [.int (-1)] (.arr (.adapter false exSource []))
      let (H3, w) ← H2.getitem 5 e [.ellipsis, .int 1, .int 2, .int 3]
      let (H4, u) ← H3.getitem 5 t [.int 1, .int 2, .int 3]
      let rv ← Res.view (H4.eval exMode 100 5 2 v)
      let rw ← Res.view (H4.eval exMode 100 5 2 w)
      let ru ← Res.view (H4.eval exMode 100 5 2 u)
      return (rv, rw, ru) : Res _)) = .ok (([2], [24, 8]), ([2], [24, 24]), ([], [46])) := by decide +kernel

/-- C44, counterexample to the property without the exception for stacks inside a `BroadcastArray`: slices of `inner + c`, for `c` with one dimension more, are not snapshots.  Indexing the new
dimension only leaves the broadcast stack unindexed (_init.py:961-962), so the slice uses the stack itself. -/
theorem C44_broadcast_shares :
    ((do
      let e ← exHeap.mkElem2 (.stack 0) (.arr (.const [3, 2, 2, 3, 4] 1 0)) exAdd
      let (H1, v) ← exHeap.getitem 5 e [.int 0]
      let r1 ← H1.eval exMode 100 5 2 v
      let H2 ← H1.setitem 0 [.int 1] (.arr (.const [2, 3, 4] 9 0))
      let r2 ← H2.eval exMode 100 5 2 v
      return (r1.get [1, 0, 0, 0], r2.get [1, 0, 0, 0], H1.stackObjs.length) : Res _)) = .ok (8, 10, 2) := by decide +kernel

end Biggus

import Verif.Props.Misc
import Verif.Proofs.EvalNodes
/-
C40: a NumPy array on the left of an operator.
-/
namespace Biggus
open Spec

/-! ### NumPy's own broadcasting is NumPy's rule -/

theorem bcastRev_spec : ∀ {s t : List Nat},
    (∀ r, bcastRev s t = some r → r.length = max s.length t.length ∧ ∀ i, i < r.length → Stretches (s.getD i 1) (t.getD i 1) (r.getD i 1)) ∧
    ((∃ r : List Nat, r.length = max s.length t.length ∧ ∀ i, i < r.length → Stretches (s.getD i 1) (t.getD i 1) (r.getD i 1)) →
      bcastRev s t ≠ none)
  | [], t => by
    refine ⟨fun r h => ?_, fun _ => by simp [bcastRev]⟩
    simp only [bcastRev, Option.some.injEq] at h
    subst h
    refine ⟨by simp, fun i _ => Or.inr (Or.inl ⟨by simp, rfl⟩)⟩
  | m :: s, [] => by
    refine ⟨fun r h => ?_, fun _ => by simp [bcastRev]⟩
    simp only [bcastRev, Option.some.injEq] at h
    subst h
    refine ⟨by simp, fun i _ => Or.inr (Or.inr ⟨by simp, rfl⟩)⟩
  | m :: s, n :: t => by
    obtain ⟨ih1, ih2⟩ := @bcastRev_spec s t
    constructor
    · intro r h
      simp only [bcastRev] at h
      cases hr : bcastRev s t with
      | none => rw [hr] at h; cases h
      | some r' =>
        rw [hr] at h
        obtain ⟨k1, k2⟩ := ih1 r' hr
        have key : ∀ l, Stretches m n l → (l :: r').length = max (m :: s).length (n :: t).length ∧
            ∀ i, i < (l :: r').length → Stretches ((m :: s).getD i 1) ((n :: t).getD i 1) ((l :: r').getD i 1) := by
          intro l hl
          refine ⟨by simp only [List.length_cons, k1]; omega, fun i hi => ?_⟩
          cases i with
          | zero => simpa using hl
          | succ i => simpa using k2 i (by simpa using hi)
        simp only at h
        split at h
        · cases h; exact key _ (Or.inl ⟨‹_›, rfl⟩)
        · split at h
          · cases h; exact key _ (Or.inr (Or.inl ⟨‹_›, rfl⟩))
          · split at h
            · cases h; exact key _ (Or.inr (Or.inr ⟨‹_›, rfl⟩))
            · cases h
    · rintro ⟨r, h1, h2⟩
      cases r with
      | nil => simp at h1
      | cons l r =>
        simp only [List.length_cons] at h1
        have := ih2 ⟨r, by omega, fun i hi => by simpa using h2 (i + 1) (by simpa using hi)⟩
        have h0 : Stretches m n l := by simpa using h2 0 (by simp)
        simp only [bcastRev]
        cases hr : bcastRev s t with
        | none => exact absurd hr this
        | some r' =>
          simp only
          rcases h0 with ⟨h, _⟩ | ⟨h, _⟩ | ⟨h, _⟩
          · simp [h]
          · simp only [h]; split <;> simp
          · simp only [h]; split <;> simp

theorem bcastShape_iff {s t r : List Nat} : bcastShape s t = some r ↔ Broadcasts s t r := by
  have h1 : ∀ {r}, bcastShape s t = some r → Broadcasts s t r := by
    intro r h
    unfold bcastShape at h
    obtain ⟨r', hr, rfl⟩ := Option.map_eq_some_iff.mp h
    obtain ⟨k1, k2⟩ := bcastRev_spec.1 r' hr
    refine ⟨by simpa using k1, fun i hi => ?_⟩
    rw [List.reverse_reverse]
    exact k2 i (by simpa using hi)
  refine ⟨h1, fun h => ?_⟩
  cases hb : bcastShape s t with
  | some r' => rw [(h1 hb).unique h]
  | none =>
    unfold bcastShape at hb
    rw [Option.map_eq_none_iff] at hb
    refine absurd hb (bcastRev_spec.2 ⟨r.reverse, ?_, fun i hi => h.2 i (by simpa using hi)⟩)
    simpa using h.1

theorem bcastTo_get {β : Type} (x : NDA β) (r idx : List Nat) (hi : idx.length = r.length) (hr : x.shape.length ≤ r.length) :
    (x.bcastTo r).get idx = (broadcastTo x r).get idx := by
  simp only [NDA.bcastTo, broadcastTo, bcastIdx]
  congr 1
  apply List.ext_getElem
  · simp; omega
  · intro j h1 h2
    simp only [List.length_zipWith, List.length_drop] at h1
    simp only [List.getElem_zipWith, List.getElem_drop, List.getElem_map, List.getElem_range]
    rw [List.getD_eq_getElem _ _ (by omega : j < x.shape.length)]
    split
    · rfl
    · rw [List.getD_eq_getElem _ _ (by omega)]
      congr 1; omega

theorem inB_getD_iff : ∀ {s idx : List Nat}, InB s idx ↔ idx.length = s.length ∧ ∀ i, i < s.length → idx.getD i 0 < s.getD i 0
  | [], [] => by simp [InB]
  | [], _ :: _ => by simp [InB]
  | _ :: _, [] => by simp [InB]
  | n :: s, j :: idx => by
    simp only [InB, inB_getD_iff (s := s), List.length_cons]
    constructor
    · rintro ⟨h1, h2, h3⟩
      refine ⟨by omega, fun i hi => ?_⟩
      cases i with
      | zero => simpa using h1
      | succ i => simpa using h3 i (by omega)
    · rintro ⟨h1, h2⟩
      refine ⟨by simpa using h2 0 (by omega), by omega, fun i hi => by simpa using h2 (i + 1) (by omega)⟩

theorem npOp2_spec {V : Type} {f : V → V → V} {u y v : NDA V} (hv : y ≈ₐ v) {r : List Nat} (hr : Broadcasts u.shape v.shape r) :
    ∃ z, npOp2 f u y = .ok z ∧ z ≈ₐ ⟨r, fun idx => f ((broadcastTo u r).get idx) ((broadcastTo v r).get idx)⟩ := by
  unfold npOp2
  rw [hv.1, bcastShape_iff.mpr hr]
  refine ⟨_, rfl, rfl, fun idx hi => ?_⟩
  have hl : idx.length = r.length := InB.length hi
  have h1 := hr.1
  simp only
  rw [bcastTo_get u r idx hl (by omega), bcastTo_get y r idx hl (by rw [hv.1]; omega)]
  congr 1
  simp only [broadcastTo, hv.1]
  refine hv.2 _ ?_
  rw [hv.1]
  have hto := hr.symm.left
  obtain ⟨b1, b2⟩ := hto
  rw [inB_getD_iff] at hi ⊢
  refine ⟨by simp, fun i hi' => ?_⟩
  rw [List.getD_eq_getElem _ _ (by simpa using hi'), List.getElem_map, List.getElem_range]
  rcases b2 i hi' with h | h
  · split
    · omega
    · rw [h]; exact hi.2 _ (by simp only; omega)
  · rw [if_pos h]; omega

/-- An adapter of the data source `c`, possibly inside new axes, broadcasts, transpositions, casts or maskings. -/
inductive Arr.Over {α : Type} (c : Concrete α) : Arr α → Prop
  | adapter (f : Bool) (ks : List Key) : Over c (.adapter f c ks)
  | newAxes {a : Arr α} (l : List Nat) : Over c a → Over c (.newAxes a l)
  | bcast {a : Arr α} (l : List (Nat × Nat)) (t : List Nat) : Over c a → Over c (.bcast a l t)
  | transposed {a : Arr α} (l : List Nat) : Over c a → Over c (.transposed a l)
  | asType {a : Arr α} (t : Nat) : Over c a → Over c (.asType a t)
  | maskVal {a : Arr α} (v : α) : Over c a → Over c (.maskVal a v)

/-- C40.  Which priority decides in `C40_numpy_left`: that of the data source if there is just one, for example the 15 of a masked array; else none. -/
theorem C40_priority {α : Type} (attr : Concrete α → Option Int) (b : Arr α) :
    (∀ c, b.Over c → b.arrayPriority attr = attr c) ∧ ((¬ ∃ c, b.Over c) → b.arrayPriority attr = none) := by
  constructor
  · intro c h
    induction h with
    | adapter => rfl
    | _ => assumption
  · intro h
    induction b with
    | adapter f c ks => exact absurd ⟨c, .adapter f ks⟩ h
    | newAxes a l ih => exact ih (fun ⟨c, hc⟩ => h ⟨c, .newAxes l hc⟩)
    | bcast a l t ih => exact ih (fun ⟨c, hc⟩ => h ⟨c, .bcast l t hc⟩)
    | transposed a l ih => exact ih (fun ⟨c, hc⟩ => h ⟨c, .transposed l hc⟩)
    | asType a t ih => exact ih (fun ⟨c, hc⟩ => h ⟨c, .asType t hc⟩)
    | maskVal a v ih => exact ih (fun ⟨c, hc⟩ => h ⟨c, .maskVal v hc⟩)
    | _ => rfl

section
variable {α V : Type} [Inhabited α] [Inhabited V] {m : Mode α V} {limit : Nat}

/-- C40.  `x op b` with a NumPy array `x` on the left: the result is lazy exactly if the `__array_priority__` of `b` exceeds that of `x`, else
NumPy computes it at once; either way its elements are those of the NumPy operation on the operands, in the written order.  Shapes that do not
broadcast: `ValueError`. -/
theorem C40_numpy_left (fwd : Bool) (ok : Ufunc → Arr α → Arr α → Bool) (ops : Ufunc → Op2 α) (op : PyOp) (c : Concrete α) (b : Arr α) (u v : NDA V)
    (f : V → V → V) (prio : Int) (attr : Concrete α → Option Int)
    (hx : (Operand.numpy c).Means m limit fwd u) (hy : (Operand.arr b).Means m limit fwd v)
    (hok : ∀ a b, ok (numpyFunction op) a b = true) (hop : m.op2 (ops (numpyFunction op)) = some f) :
    ∃ N, ∀ n, N ≤ n →
      (∀ r, Broadcasts u.shape v.shape r → (∀ l ∈ r.take (r.length - u.shape.length), 1 ≤ l) →
        (∀ l ∈ r.take (r.length - v.shape.length), 1 ≤ l) →
        ∃ R, numpyOperator (fun u => binaryFn (ok u) (ops u)) m id f limit n prio attr op c u b = .ok R ∧
          ((∃ e, R = .lazy e) ↔ prio < (b.arrayPriority attr).getD (-1000000)) ∧
          match R with
          | .lazy e => e.Yields m limit ⟨r, fun idx => f ((broadcastTo u r).get idx) ((broadcastTo v r).get idx)⟩
          | .eager z => z ≈ₐ ⟨r, fun idx => f ((broadcastTo u r).get idx) ((broadcastTo v r).get idx)⟩) ∧
      ((¬ ∃ r, Broadcasts u.shape v.shape r) →
        numpyOperator (fun u => binaryFn (ok u) (ops u)) m id f limit n prio attr op c u b = .error .value) := by
  have hyy : b.Yields m limit v := by cases hy; assumption
  have hmap : ∀ y : NDA V, y.map id = y := fun y => rfl
  have hrm : rmethod (fun u => binaryFn (ok u) (ops u)) op (.arr b) (.numpy c) =
      tryCall (binaryFn (ok (numpyFunction op)) (ops (numpyFunction op))) (.numpy c) (.arr b) :=
    (method_eq (fun u => binaryFn (ok u) (ops u)) op (.numpy c) (.arr b)).2
  by_cases hp : prio < (b.arrayPriority attr).getD (-1000000)
  · refine ⟨0, fun n _ => ⟨fun r hr hlx hly => ?_, fun hn => ?_⟩⟩
    · obtain ⟨a', ha, ba, la, ya⟩ := hx.array
      obtain ⟨b', hb, bb, lb, yb⟩ := hy.array
      obtain ⟨e, he, hye, _⟩ := C24_elementwise fwd a' b' u v (ops (numpyFunction op)) f r ba bb la lb ya yb hop hr hlx hly
      have hfn : binaryFn (ok (numpyFunction op)) (ops (numpyFunction op)) (.numpy c) (.arr b) = .ok e := by
        unfold binaryFn
        rw [ha, hb]
        unfold mkElem2 at he
        obtain ⟨p, hp, he⟩ := bind_ok.mp he
        simp only [bind, Except.bind, pure, Except.pure, hp, hok, if_true]; exact he
      refine ⟨.lazy e, ?_, iff_of_true ⟨e, rfl⟩ hp, hye⟩
      unfold numpyOperator
      rw [if_pos hp, hrm]
      unfold tryCall
      rw [hfn]
    · unfold numpyOperator
      obtain ⟨a', ha, ba, la, ya⟩ := hx.array
      obtain ⟨b', hb, bb, lb, yb⟩ := hy.array
      rw [if_pos hp, hrm]
      unfold tryCall
      have hfn : binaryFn (ok (numpyFunction op)) (ops (numpyFunction op)) (.numpy c) (.arr b) = .error .value := by
        unfold binaryFn broadcastArrays
        rw [ha, hb]
        simp only [bind, Except.bind, pure, Except.pure]
        rw [ya.1, yb.1]
        simp only
        rw [computeBcastShape_error hn]
      rw [hfn]
  · obtain ⟨N, hN⟩ := hyy.2
    refine ⟨N, fun n hn => ?_⟩
    obtain ⟨d, hd, hde⟩ := hN n hn
    refine ⟨fun r hr _ _ => ?_, fun hnr => ?_⟩
    · obtain ⟨z, hz, hze⟩ := npOp2_spec (f := f) (u := u) hde hr
      refine ⟨.eager z, ?_, iff_of_false (by rintro ⟨e, he⟩; cases he) hp, hze⟩
      unfold numpyOperator
      rw [if_neg hp, hd]
      simp only [hmap, hz]
    · unfold numpyOperator
      rw [if_neg hp, hd]
      have : bcastShape u.shape d.shape = none := by
        rw [hde.1]
        cases h : bcastShape u.shape v.shape with
        | none => rfl
        | some r => exact absurd ⟨r, bcastShape_iff.mp h⟩ hnr
      simp only [hmap, npOp2, this]

omit [Inhabited V] in
/-- C40.  The same for any NumPy array `x` with elements `u` (for example a masked array) whose priority is not exceeded: the result is NumPy's operation on
`x` and the elements of `b.ndarray()`, taken as unmasked (`lift`): a mask of `b` has no effect. -/
theorem C40_numpy_left_eager {W : Type} [Inhabited W] {md : Mode α W} (lift : W → V) (fn : Ufunc → Operand α → Operand α → Res (Arr α)) (op : PyOp) (c : Concrete α)
    (b : Arr α) (u : NDA V) (v : NDA W) (f : V → V → V) (prio : Int) (attr : Concrete α → Option Int) (r : List Nat)
    (hy : b.Yields md limit v) (hp : (b.arrayPriority attr).getD (-1000000) ≤ prio) (hr : Broadcasts u.shape v.shape r) :
    ∃ N, ∀ n, N ≤ n → ∃ z, numpyOperator fn md lift f limit n prio attr op c u b = .ok (.eager z) ∧
      z ≈ₐ ⟨r, fun idx => f ((broadcastTo u r).get idx) (lift ((broadcastTo v r).get idx))⟩ := by
  obtain ⟨N, hN⟩ := hy.2
  refine ⟨N, fun n hn => ?_⟩
  obtain ⟨d, hd, hde⟩ := hN n hn
  have hde' : d.map lift ≈ₐ v.map lift := ⟨hde.1, fun idx hi => congrArg lift (hde.2 idx hi)⟩
  obtain ⟨z, hz, hze⟩ := npOp2_spec (f := f) (u := u) hde' hr
  refine ⟨z, ?_, hze⟩
  unfold numpyOperator
  rw [if_neg (by omega), hd]
  simp only [hz]

end

/-! ### Examples -/

/-- What the attribute `__array_priority__` of the data sources is: 0 for an `ndarray`, 15 for a masked array (here: fill value 9). -/
def exAttr (c : Concrete ℚ) : Option Int := if c.fill = 9 then some 15 else some 0

/-- A masked array (1, --, 3) with fill value 9. -/
def exHoles : Concrete ℚ := ⟨⟨[3], fun i => match i with
  | [0] => some 1
  | [2] => some 3
  | _ => none⟩, 9, 0⟩

/-- The elements of a result, and whether it is lazy. -/
def OpResult.view {V : Type} (ev : Arr ℚ → Res (NDA V)) : Res (OpResult ℚ V) → Res (Bool × List Nat × List V)
  | .ok (.lazy e) => (ev e).map (fun z => (true, z.shape, z.toList))
  | .ok (.eager z) => .ok (false, z.shape, z.toList)
  | .error e => .error e

/-- The operations of the examples, with their masked versions. -/
def exMaskedOps : Ufunc → Op2 ℚ
  | .add => ⟨fun x y => x + y, some (fun x y => match x, y with | some x, some y => some (x + y) | _, _ => none)⟩
  | _ => ⟨fun x y => x - y, some (fun x y => match x, y with | some x, some y => some (x - y) | _, _ => none)⟩

/-- The hypotheses of `C40_numpy_left` are met; `x - a` for the 2 x 2 ndarray `x`: computed at once for an `ndarray` source, lazy for a masked source. -/
example : (Operand.numpy exSquare).Means exMode 3 true (exSquare.data.map (exMode.leaf 0)) ∧
    (Operand.arr (.adapter false exSquare [])).Means exMode 3 true (exSquare.data.map (exMode.leaf 0)) ∧
    OpResult.view (fun e => e.eval exMode 3 2) (numpyOperator (fun u => binaryFn (fun _ _ => true) (exMaskedOps u)) exMode id (fun x y => x - y) 3 2 0 exAttr .sub
      exSquare (exSquare.data.map (exMode.leaf 0)) (.transposed (.adapter false exSquare []) [1, 0])) = .ok (false, [2, 2], [0, -1, 1, 0]) ∧
    OpResult.view (fun e => e.eval exMode 3 2) (numpyOperator (fun u => binaryFn (fun _ _ => true) (exMaskedOps u)) exMode id (fun x y => x - y) 3 2 0 exAttr .sub
      exSquare (exSquare.data.map (exMode.leaf 0)) (.transposed (.adapter false { exSquare with fill := 9 } []) [1, 0])) = .ok (true, [2, 2], [0, -1, 1, 0]) := by
  refine ⟨.numpy _ (fun _ _ => rfl), ?_, by decide +kernel, by decide +kernel⟩
  have h : (Operand.numpy exSquare).Means exMode 3 true (exSquare.data.map (exMode.leaf 0)) := .numpy _ (fun _ _ => rfl)
  obtain ⟨a, ha, h1, h2, h3⟩ := h.array
  cases ha
  exact .arr h1 h2 h3

/-- C40 fails of the code for masked data: a stack of masked sources has no `__array_priority__`, so with the ndarray (10, 10, 10) on the left NumPy computes
`x + s` at once from the filled data; `s + x` keeps the mask. -/
theorem C40_numpy_left_loses_mask :
    let s := Arr.stack [1] (fun _ => .adapter false exHoles [])
    let x : Concrete ℚ := ⟨⟨[3], fun _ => some 10⟩, 0, 0⟩
    let fn := fun u => binaryFn (fun _ _ => true) (exMaskedOps u)
    OpResult.view (fun e => e.eval (maMode id (fun _ x => x)) 5 2)
      (numpyOperator fn (ndMode id (fun _ x => x)) some ((exMaskedOps .add).ma.getD (fun x _ => x)) 5 2 0 exAttr .add x x.data s) =
      .ok (false, [1, 3], [some 11, some 19, some 13]) ∧
    Res.view (pyOperator fn .add (.arr s) (.numpy x) >>= fun e => e.eval (maMode id (fun _ x => x)) 5 2) = .ok ([1, 3], [some 11, none, some 13]) := by
  refine ⟨by decide +kernel, by decide +kernel⟩

end Biggus

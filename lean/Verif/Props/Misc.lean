import Verif.Spec.Misc
import Verif.Props.Elementwise
import Verif.Props.Adapters
/-
C31 (axis arguments), C33 (sizes), C40 (operators).
-/
namespace Biggus
open Spec

section
variable {α : Type}

theorem checkAxes_ok {n : Nat} {is : List Int} (h : ∀ i ∈ is, -(n : Int) ≤ i ∧ i < n) :
    checkAxes n is = .ok (is.map (fun i => if 0 ≤ i then i else (n : Int) + i)) := by
  unfold checkAxes
  rw [if_pos]
  rw [List.all_map, List.all_eq_true]
  intro i hi
  have := h i hi
  simp only [Function.comp, decide_eq_true_eq]
  split <;> omega

theorem checkAxes_error {n : Nat} {is : List Int} (h : ∃ i ∈ is, ¬(-(n : Int) ≤ i ∧ i < n)) : checkAxes n is = .error .value := by
  obtain ⟨i, hi, h⟩ := h
  unfold checkAxes
  rw [if_neg]
  rw [List.all_map, List.all_eq_true]
  intro hc
  have := hc i hi
  simp only [Function.comp, decide_eq_true_eq] at this
  split at this <;> omega

theorem axisTuple_seq (is : List Int) : axisTuple (.seq (is.map some)) = .ok (some is) := by
  show (if (is.map some).all Option.isSome then Except.ok (some ((is.map some).filterMap id)) else .error PyErr.type) = _
  rw [if_pos (by simp)]
  simp

/-- C31.  A single axis `i`, given as an integer or in a sequence: accepted iff `-n ≤ i < n`, and then it denotes `i mod n`;
otherwise `ValueError`. -/
theorem C31_single_axis (k : AggKind α) (a : Arr α) (s : List Nat) (hs : a.shape = .ok s) (i : Int) (arg : AxisArg)
    (harg : arg = .int i ∨ arg = .seq [some i]) :
    aggregate k a arg = if -(s.length : Int) ≤ i ∧ i < s.length then .ok (.agg a (i % s.length).toNat k) else .error .value := by
  have ht : axisTuple arg = .ok (some [i]) := by rcases harg with rfl | rfl <;> rfl
  unfold aggregate normaliseAxis
  rw [hs, ht]
  simp only [bind, Except.bind]
  by_cases h : -(s.length : Int) ≤ i ∧ i < s.length
  · rw [checkAxes_ok (by simpa using h), if_pos h]
    simp only [Except.map, List.map, pure, Except.pure]
    congr 3
    split
    · rw [Int.emod_eq_of_lt ‹_› h.2]
    · rw [← Int.add_emod_left, Int.emod_eq_of_lt (by omega) (by omega)]
  · rw [checkAxes_error ⟨i, by simp, h⟩, if_neg h]
    rfl

/-- C31.  No axis, or a sequence of no or several valid axes: the error of the function. -/
theorem C31_not_one_axis (k : AggKind α) (a : Arr α) (s : List Nat) (hs : a.shape = .ok s) (arg : AxisArg)
    (harg : arg = .none ∨ ∃ is : List Int, is.length ≠ 1 ∧ (∀ i ∈ is, -(s.length : Int) ≤ i ∧ i < s.length) ∧ arg = .seq (is.map some)) :
    aggregate k a arg = .error k.axisError := by
  unfold aggregate normaliseAxis
  rw [hs]
  rcases harg with rfl | ⟨is, hl, hi, rfl⟩
  · rfl
  · rw [axisTuple_seq]
    simp only [bind, Except.bind]
    rw [checkAxes_ok hi]
    match is, hl with
    | [], _ => rfl
    | _ :: _ :: _, _ => rfl

/-- C31.  An axis out of range among several: `ValueError`.  Objects that are not integers: `TypeError`. -/
theorem C31_invalid_axes (k : AggKind α) (a : Arr α) (s : List Nat) (hs : a.shape = .ok s) :
    (∀ is : List Int, (∃ i ∈ is, ¬(-(s.length : Int) ≤ i ∧ i < s.length)) → aggregate k a (.seq (is.map some)) = .error .value) ∧
    (∀ os : List (Option Int), none ∈ os → aggregate k a (.seq os) = .error .type) ∧ aggregate k a .other = .error .type := by
  unfold aggregate normaliseAxis
  rw [hs]
  refine ⟨?_, ?_, rfl⟩
  · intro is h
    rw [axisTuple_seq]
    simp only [bind, Except.bind]
    rw [checkAxes_error h]
    rfl
  · intro os ho
    have : axisTuple (.seq os) = .error .type := by
      show (if os.all Option.isSome then Except.ok (some (os.filterMap id)) else .error PyErr.type) = _
      rw [if_neg]
      rw [List.all_eq_true]
      intro hc
      exact absurd (hc none ho) (by simp)
    rw [this]
    rfl

/-- C31 fails in the code for `min`, `max`, `sum`: without an axis they raise `AssertionError` (nothing at all under `python -O`), not the
documented `AxisSupportError` that `count`, `mean`, `std`, `var` raise. -/
theorem C31_min_max_sum_assert (a : Arr α) (s : List Nat) (hs : a.shape = .ok s) (mdtol : α) (ddof : Int) :
    (aggregate .min a .none = .error .assertion ∧ aggregate .max a .none = .error .assertion ∧ aggregate .sum a .none = .error .assertion) ∧
    aggregate .count a .none = .error .axisSupport ∧ aggregate (.mean mdtol) a .none = .error .axisSupport ∧
    aggregate (.std ddof) a .none = .error .axisSupport ∧ aggregate (.var ddof) a .none = .error .axisSupport :=
  ⟨⟨C31_not_one_axis _ a s hs _ (.inl rfl), C31_not_one_axis _ a s hs _ (.inl rfl), C31_not_one_axis _ a s hs _ (.inl rfl)⟩,
    C31_not_one_axis _ a s hs _ (.inl rfl), C31_not_one_axis _ a s hs _ (.inl rfl), C31_not_one_axis _ a s hs _ (.inl rfl),
    C31_not_one_axis _ a s hs _ (.inl rfl)⟩

/-- C31 fails in the code for one-shot iterators: even over a single valid axis they are refused, because checking the items uses
them up. -/
theorem C31_one_shot_iterator_refused (k : AggKind α) (a : Arr α) (s : List Nat) (hs : a.shape = .ok s) (i : Int) :
    aggregate k a (.iterator [some i]) = .error k.axisError := by
  unfold aggregate
  rw [hs]
  rfl

/-- A 2 x 3 x 4 array: axis -1 is axis 2, axis -4 is refused. -/
example : aggregate .count (.const [2, 3, 4] (1 : Nat) 0) (.int (-1)) = .ok (.agg (.const [2, 3, 4] 1 0) 2 .count) ∧
    aggregate .count (.const [2, 3, 4] (1 : Nat) 0) (.int (-4)) = .error .value :=
  ⟨C31_single_axis _ _ [2, 3, 4] rfl (-1) _ (.inl rfl), C31_single_axis _ _ [2, 3, 4] rfl (-4) _ (.inl rfl)⟩
end

/-! ### C33 -/

theorem wrap64_of_lt {x : Int} (h0 : -2 ^ 63 ≤ x) (h1 : x < 2 ^ 63) : wrap64 x = x := by
  unfold wrap64
  rw [Int.emod_eq_of_lt (by omega) (by omega)]
  omega

theorem wrap64_mul (x y : Int) : wrap64 (wrap64 x * y) = wrap64 (x * y) := by
  have hw : ∀ z, ∃ q, wrap64 z = z - 2 ^ 64 * q := fun z => ⟨(z + 2 ^ 63) / 2 ^ 64, by unfold wrap64; omega⟩
  obtain ⟨q, hq⟩ := hw x
  rw [hq]
  unfold wrap64
  have : (x - 2 ^ 64 * q) * y + 2 ^ 63 = x * y + 2 ^ 63 + 2 ^ 64 * (-(q * y)) := by ring
  rw [this, Int.add_mul_emod_self_left]

theorem foldl_wrap64 (l : List Nat) (p : Int) :
    wrap64 (l.foldl (fun (p : Int) (n : Nat) => wrap64 (p * n)) (wrap64 p)) = wrap64 (p * (l.prod : Nat)) := by
  induction l generalizing p with
  | nil => simpa using wrap64_mul p 1
  | cons n l ih =>
    rw [List.foldl_cons, wrap64_mul, ih, List.prod_cons, Nat.cast_mul, mul_assoc]

/-- C33.  `nbytes` is the product of the shape times the item size, if that is less than 2^63. -/
theorem C33_nbytes_partial (shape : List Nat) (itemsize : Nat) (h : shape.prod * itemsize < 2 ^ 63) :
    nbytes shape itemsize = (shape.prod * itemsize : Nat) := by
  unfold nbytes
  have h1 := foldl_wrap64 shape 1
  rw [wrap64_of_lt (x := 1) (by decide) (by decide), one_mul] at h1
  rw [← wrap64_mul, h1, wrap64_mul, ← Nat.cast_mul]
  exact wrap64_of_lt (by omega) (by omega)

/-- C33 fails in the code for larger arrays: a 2^32 x 2^32 array of 8-byte numbers is said to need 0 bytes, and a 2^31 x 2^31 array of
2-byte numbers a negative number of bytes. -/
theorem C33_nbytes_overflow : nbytes [2 ^ 32, 2 ^ 32] 8 = 0 ∧ sizeOf (nbytes [2 ^ 32, 2 ^ 32] 8) = (0, .B) ∧
    nbytes [2 ^ 31, 2 ^ 31] 2 = -2 ^ 63 := by decide +kernel

/-- C33.  The number printed, in the unit printed, is the number of bytes; the unit is the largest one not exceeding it. -/
theorem C33_size (n : Nat) :
    (sizeOf n).1 * (unitBytes (sizeOf n).2 : ℚ) = n ∧ unitBytes (sizeOf n).2 ≤ max n 1 ∧
      ∀ u, unitBytes u ≤ n → unitBytes u ≤ unitBytes (sizeOf n).2 := by
  unfold sizeOf
  have hu : ∀ {u : SizeUnit}, unitBytes u = 1 ∨ unitBytes u = 1024 ∨ unitBytes u = 1024 ^ 2 ∨ unitBytes u = 1024 ^ 3 ∨ unitBytes u = 1024 ^ 4 := by
    intro u; cases u <;> simp [unitBytes]
  split
  · exact ⟨by simp [unitBytes], by simp [unitBytes], fun u h => by have := @hu u; generalize unitBytes u = b at *; simp only [unitBytes]; omega⟩
  split
  · refine ⟨by simp only [unitBytes]; push_cast; norm_num, by simp only [unitBytes]; omega, fun u h => by have := @hu u; generalize unitBytes u = b at *; simp only [unitBytes]; omega⟩
  split
  · refine ⟨by simp only [unitBytes]; push_cast; norm_num, by simp only [unitBytes]; omega, fun u h => by have := @hu u; generalize unitBytes u = b at *; simp only [unitBytes]; omega⟩
  split
  · refine ⟨by simp only [unitBytes]; push_cast; norm_num, by simp only [unitBytes]; omega, fun u h => by have := @hu u; generalize unitBytes u = b at *; simp only [unitBytes]; omega⟩
  · refine ⟨by simp only [unitBytes]; push_cast; norm_num, by simp only [unitBytes]; omega, fun u h => by have := @hu u; generalize unitBytes u = b at *; simp only [unitBytes]; omega⟩

/-- The documented example: 14000000 bytes are 13.35... MiB. -/
example : (sizeOf 14000000).2 = .MiB ∧ 1335 / 100 ≤ (sizeOf 14000000).1 ∧ (sizeOf 14000000).1 < 1336 / 100 := by
  refine ⟨by decide +kernel, by decide +kernel, by decide +kernel⟩

/-! ### C40 -/

section
variable {α : Type}

/-- Both methods try the same call. -/
theorem method_eq (fn : Ufunc → Operand α → Operand α → Res (Arr α)) (op : PyOp) (x y : Operand α) :
    method fn op x y = tryCall (fn (numpyFunction op)) x y ∧ rmethod fn op y x = tryCall (fn (numpyFunction op)) x y := by
  cases op <;> exact ⟨rfl, rfl⟩

/-- An operator with a biggus operand calls the function, once or twice with the same arguments. -/
theorem pyOperator_eq (fn : Ufunc → Operand α → Operand α → Res (Arr α)) (op : PyOp) (x y : Operand α) (h : BiggusOperator x y) :
    pyOperator fn op x y = fn (numpyFunction op) x y := by
  have ht : ∀ (f : Operand α → Operand α → Res (Arr α)), (match tryCall f x y with
      | .ok (some r) => Except.ok r
      | .ok none => .error PyErr.type
      | .error e => .error e) = f x y := by
    intro f
    unfold tryCall
    match h : f x y with
    | .ok a => rfl
    | .error e => cases e <;> rfl
  have hr : ∀ b, y = .arr b → (match rmethod fn op y x with
      | .ok (some r) => Except.ok r
      | .ok none => .error PyErr.type
      | .error e => .error e) = fn (numpyFunction op) x y := by
    intro b _
    rw [(method_eq fn op x y).2]
    exact ht _
  unfold pyOperator
  match x, h with
  | .arr a, _ =>
    simp only
    rw [(method_eq fn op (.arr a) y).1]
    have ht' := ht (fn (numpyFunction op))
    revert ht'
    match htc : tryCall (fn (numpyFunction op)) (.arr a) y with
    | .ok (some r) => exact id
    | .error e => exact id
    | .ok none =>
      intro ht'
      simp only at ht' ⊢
      cases y with
      | arr b => exact hr b rfl
      | _ => exact ht'
  | .scalar v dt, ⟨b, hb⟩ => subst hb; exact hr b rfl
  | .none, ⟨b, hb⟩ => subst hb; exact hr b rfl
  | .other, ⟨b, hb⟩ => subst hb; exact hr b rfl

/-- C40.  An object that is neither an array nor a scalar on either side: `TypeError`, whatever the operator. -/
theorem C40_unsupported_operand (ok : Ufunc → Arr α → Arr α → Bool) (ops : Ufunc → Op2 α) (op : PyOp) (x y : Operand α)
    (h : BiggusOperator x y) (hxy : x = .none ∨ x = .other ∨ y = .none ∨ y = .other) :
    pyOperator (fun u => binaryFn (ok u) (ops u)) op x y = .error .type := by
  rw [pyOperator_eq _ op x y h]
  unfold binaryFn
  cases x with
  | none => rfl
  | other => rfl
  | numpy c => exact h.elim
  | arr a =>
    rcases hxy with hx | hx | rfl | rfl
    · cases hx
    · cases hx
    · rfl
    · rfl
  | scalar v dt =>
    rcases hxy with hx | hx | rfl | rfl
    · cases hx
    · cases hx
    · obtain ⟨b, hb⟩ := h; cases hb
    · obtain ⟨b, hb⟩ := h; cases hb

/-- C40.  For an object it does not know, an operator method declines (`NotImplemented`), directly and reflected, so that Python asks that
object's own methods; it does the same if the operation is not defined for the operands' dtypes.  A biggus array never claims the result. -/
theorem C40_declines (ok : Ufunc → Arr α → Arr α → Bool) (ops : Ufunc → Op2 α) (op : PyOp) (a : Arr α) (y : Operand α)
    (h : y = .none ∨ y = .other ∨ (∃ b a' b', ensureArray y = .ok b ∧ broadcastArrays a b = .ok (a', b') ∧ ok (numpyFunction op) a' b' = false) ) :
    method (fun u => binaryFn (ok u) (ops u)) op (.arr a) y = .ok none ∧
    ((y = .none ∨ y = .other) → rmethod (fun u => binaryFn (ok u) (ops u)) op (.arr a) y = .ok none) := by
  refine ⟨?_, ?_⟩
  · rw [(method_eq (fun u => binaryFn (ok u) (ops u)) op (.arr a) y).1]
    rcases h with rfl | rfl | ⟨b, a', b', hb, hab, hn⟩
    · rfl
    · rfl
    · unfold tryCall binaryFn
      have he : ensureArray (.arr a) = .ok a := rfl
      simp only [he, hb, bind, Except.bind, hab]
      cases y with
      | none => rfl
      | _ => simp only [hn, pure, Except.pure]; rfl
  · intro h
    rw [(method_eq (fun u => binaryFn (ok u) (ops u)) op y (.arr a)).2]
    rcases h with rfl | rfl <;> rfl

variable {V : Type} [Inhabited α] [Inhabited V] {m : Mode α V} {limit : Nat}

theorem Operand.Means.array {fwd : Bool} {o : Operand α} {x : NDA V} (h : o.Means m limit fwd x) :
    ∃ a, ensureArray o = .ok a ∧ a.Built m limit fwd false .sliced ∧ a.noLead ∧ a.Yields m limit x := by
  cases h with
  | arr hb hl hy => exact ⟨_, rfl, hb, hl, hy⟩
  | numpy c hs =>
    have hb : (Arr.adapter false c []).Built m limit fwd false .sliced := .source _ _ _ _ hs (fun h => by cases h)
    refine ⟨.adapter false c [], rfl, hb, trivial, ?_⟩
    obtain ⟨w1, w2, _, _⟩ := hb.fine
    have := Arr.Yields.of_den (m := m) (limit := limit) w1 (w2.mono m limit _ .sliced .whole (Or.inr (Or.inr rfl)))
    exact this.congr (fresh_adapter_den m false c)
  | scalar v dt =>
    have hb : (Arr.const [] v dt : Arr α).Built m limit fwd false .sliced := .const _ _ _ _ _
    refine ⟨_, rfl, hb, trivial, rfl, 0, fun n _ => ⟨⟨[], fun _ => m.const v⟩, ?_, NDA.Eqv.refl _⟩⟩
    cases n <;> rfl

/-- C40.  `x op y` with a biggus array on either side evaluates to the NumPy operation on the evaluated operands, in the written order.
(`ok`: the operation is defined for the dtypes; `hlx`, `hly`: no broadcasting along an empty leading dimension.) -/
theorem C40_operators (fwd : Bool) (ok : Ufunc → Arr α → Arr α → Bool) (ops : Ufunc → Op2 α) (op : PyOp) (x y : Operand α) (u v : NDA V)
    (f : V → V → V) (r : List Nat) (h : BiggusOperator x y) (hx : x.Means m limit fwd u) (hy : y.Means m limit fwd v)
    (hok : ∀ a b, ok (numpyFunction op) a b = true) (hop : m.op2 (ops (numpyFunction op)) = some f) (hr : Broadcasts u.shape v.shape r)
    (hlx : ∀ l ∈ r.take (r.length - u.shape.length), 1 ≤ l) (hly : ∀ l ∈ r.take (r.length - v.shape.length), 1 ≤ l) :
    ∃ e, pyOperator (fun u => binaryFn (ok u) (ops u)) op x y = .ok e ∧
      e.Yields m limit ⟨r, fun idx => f ((broadcastTo u r).get idx) ((broadcastTo v r).get idx)⟩ := by
  obtain ⟨a, ha, ba, la, ya⟩ := hx.array
  obtain ⟨b, hb, bb, lb, yb⟩ := hy.array
  obtain ⟨e, he, hye, _⟩ := C24_elementwise fwd a b u v (ops (numpyFunction op)) f r ba bb la lb ya yb hop hr hlx hly
  refine ⟨e, ?_, hye⟩
  rw [pyOperator_eq _ op x y h]
  unfold binaryFn
  rw [ha, hb]
  unfold mkElem2 at he
  have hy' : y ≠ .none := by rintro rfl; cases hy
  obtain ⟨p, hp, he⟩ := bind_ok.mp he
  simp only [bind, Except.bind]
  cases y with
  | none => exact absurd rfl hy'
  | _ => simp only [pure, Except.pure, hp, hok, if_true]; exact he

/-- C40.  Operands whose shapes do not broadcast: `ValueError`; operands for whose dtypes the operation is not defined: `TypeError`. -/
theorem C40_rejected_operands (fwd : Bool) (ok : Ufunc → Arr α → Arr α → Bool) (ops : Ufunc → Op2 α) (op : PyOp) (x y : Operand α) (u v : NDA V)
    (h : BiggusOperator x y) (hx : x.Means m limit fwd u) (hy : y.Means m limit fwd v) :
    ((¬ ∃ r, Broadcasts u.shape v.shape r) → pyOperator (fun u => binaryFn (ok u) (ops u)) op x y = .error .value) ∧
    ((∀ a b, ok (numpyFunction op) a b = false) → (∀ r, Broadcasts u.shape v.shape r → (∀ l ∈ r, 1 ≤ l)) → (∃ r, Broadcasts u.shape v.shape r) →
      pyOperator (fun u => binaryFn (ok u) (ops u)) op x y = .error .type) := by
  obtain ⟨a, ha, ba, la, ya⟩ := hx.array
  obtain ⟨b, hb, bb, lb, yb⟩ := hy.array
  have hy' : y ≠ .none := by rintro rfl; cases hy
  have heq : pyOperator (fun u => binaryFn (ok u) (ops u)) op x y = (broadcastArrays a b >>= fun p =>
      if ok (numpyFunction op) p.1 p.2 then .ok (.elem2 p.1 p.2 (ops (numpyFunction op))) else .error .type) := by
    rw [pyOperator_eq _ op x y h]
    unfold binaryFn
    rw [ha, hb]
    simp only [bind, Except.bind]
    cases y with
    | none => exact absurd rfl hy'
    | _ => rfl
  rw [heq]
  refine ⟨fun hn => ?_, fun hk hp ⟨r, hr⟩ => ?_⟩
  · unfold broadcastArrays
    rw [ya.1, yb.1]
    simp only [bind, Except.bind]
    rw [computeBcastShape_error hn]
  · -- run the operation with an operation table that is defined, to see that the operands broadcast
    have hl := hp r hr
    obtain ⟨w1, w2, _, _⟩ := ba.fine
    obtain ⟨v1, v2, _, _⟩ := bb.fine
    have da := (ya.2.den_eqv w1 (w2.mono m limit a .sliced .whole (Or.inr (Or.inr rfl)))).symm
    have db := (yb.2.den_eqv v1 (v2.mono m limit b .sliced .whole (Or.inr (Or.inr rfl)))).symm
    have fa := w1.yieldsFlat (m := m) (limit := limit) (w2.mono m limit a .sliced .whole (Or.inr (Or.inr rfl))) la
    have fb := v1.yieldsFlat (m := m) (limit := limit) (v2.mono m limit b .sliced .whole (Or.inr (Or.inr rfl))) lb
    obtain ⟨a', h1, _⟩ := yields_bcastSide fa (full := r) (by rw [da.1]; exact hr.left) (fun l hl' => hl l (List.mem_of_mem_take hl'))
    obtain ⟨b', h2, _⟩ := yields_bcastSide fb (full := r) (by rw [db.1]; exact hr.symm.left) (fun l hl' => hl l (List.mem_of_mem_take hl'))
    rw [da.1] at h1
    rw [db.1] at h2
    unfold broadcastArrays
    rw [ya.1, yb.1]
    simp only [bind, Except.bind]
    rw [computeBcastShape_iff.mpr hr]
    simp only [h1, h2, pure, Except.pure]
    rw [hk]
    rfl

end

/-- The operations of the examples. -/
def exOps : Ufunc → Op2 ℚ
  | .add => ⟨fun x y => x + y, none⟩
  | .subtract => ⟨fun x y => x - y, none⟩
  | .multiply => ⟨fun x y => x * y, none⟩
  | _ => ⟨fun x y => x / y, none⟩

/-- `10 - a` for the 2 x 2 array `a` of 1, 2, 3, 4, and `a - 10`. -/
example :
    let fn := fun u => binaryFn (fun _ _ => true) (exOps u)
    Res.view (pyOperator fn .sub (.scalar 10 0) (.arr (.adapter false exSquare [])) >>= fun e => e.eval exMode 3 2) = .ok ([2, 2], [9, 8, 7, 6]) ∧
    Res.view (pyOperator fn .sub (.arr (.adapter false exSquare [])) (.scalar 10 0) >>= fun e => e.eval exMode 3 2) = .ok ([2, 2], [-9, -8, -7, -6]) := by
  refine ⟨by decide +kernel, by decide +kernel⟩

/-- The hypotheses of `C40_operators` are met by it. -/
example : BiggusOperator (.scalar (10 : ℚ) 0) (.arr (.adapter false exSquare [])) ∧
    (Operand.scalar (10 : ℚ) 0).Means exMode 3 true ⟨[], fun _ => exMode.const 10⟩ ∧
    (Operand.numpy exSquare).Means exMode 3 true (exSquare.data.map (exMode.leaf 0)) ∧ Broadcasts [] [2, 2] [2, 2] := by
  refine ⟨⟨_, rfl⟩, .scalar _ _, .numpy _ (fun _ _ => rfl), rfl, ?_⟩
  intro i hi
  match i, hi with
  | 0, _ => exact Or.inr (Or.inl ⟨rfl, rfl⟩)
  | 1, _ => exact Or.inr (Or.inl ⟨rfl, rfl⟩)
  | i + 2, hi => exact absurd hi (by simp)

/-- The hypotheses of `C40_declines` are met: by an unknown object, and by a sum that is not defined for the operands. -/
example :
    method (fun u => binaryFn (fun _ _ => true) (exOps u)) .add (.arr (.adapter false exSquare [])) .other = .ok none ∧
    ensureArray (.scalar (10 : ℚ) 0) = .ok (.const [] 10 0) ∧
    (broadcastArrays (.adapter false exSquare []) (.const [] 10 0)).map (fun p => (p.1.shape, p.2.shape)) = .ok (.ok [2, 2], .ok [2, 2]) :=
  ⟨(C40_declines (fun _ _ _ => true) exOps .add _ .other (.inr (.inl rfl))).1, rfl, by decide +kernel⟩

end Biggus

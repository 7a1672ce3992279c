import Verif.Proofs.MutableRun
import Verif.Proofs.CopyIso
import Verif.Props.Containers2
import Verif.Props.Compute
/-
C44 - C46, C65, C72, C73: stacks whose items are assigned, and lazy expressions over them.
-/
namespace Biggus
open Spec

variable {α V : Type} [Inhabited α] [Inhabited V] {m : Mode α V} {limit : Nat}

theorem Heap.Is.returns {H : Heap α} {o : ArrRef α} {a : Arr α} {x : NDA V} (h : H.Is o a) (hx : a.Returns m limit x) : H.Returns m limit o x := by
  obtain ⟨d, hd⟩ := h
  obtain ⟨N, hN⟩ := hx
  refine ⟨max N d, fun n hn => ?_⟩
  obtain ⟨r, h1, h2⟩ := hN n (le_trans (le_max_left _ _) hn)
  exact ⟨r, by rw [← h1]; exact Heap.eval_eq m limit n n H _ d o a hd (le_trans (le_max_right _ _) hn), h2⟩

omit [Inhabited α] in
theorem Heap.Grow.valid {H H' : Heap α} (hg : H.Grow H') (hv : H.Valid) : H'.Valid := by
  intro id s hs
  by_cases hlt : id < H.stackObjs.length
  · rw [prefix_get' hg.objs hlt] at hs
    exact lt_of_lt_of_le (hv id s hs) hg.cells.length_le
  · exact (hg.new id s hs (by omega)).2

omit [Inhabited α] in
theorem Heap.IsIn.old {H : Heap α} {P : Nat → Prop} {d : Nat} {o : ArrRef α} {a : Arr α} (h : H.IsIn P d o a) :
    H.IsIn (fun k => k < H.cells.length) d o a := h.mono (fun _ _ hk => hk)

omit [Inhabited α] in
theorem Heap.Valid.underBcast {H : Heap α} (hv : H.Valid) {o : ArrRef α} {k : Nat} (h : H.UnderBcast o k) : k < H.cells.length := by
  obtain ⟨_, _, _, _, id, s, _, hs, rfl⟩ := h
  exact hv id s hs

/-- C44, for any keys.  Indexing an object fails with the same exception as indexing the expression, or gives the indexed expression.  No later program changes the result, unless it assigns
items of stacks the result consists of: new ones, and possibly old ones that are inside a `BroadcastArray` in `o`; and no later program that assigns items of new stacks only changes
the object that was indexed. -/
theorem C44_snapshot (H : Heap α) (hv : H.Valid) (o : ArrRef α) (a : Arr α) (keys : List Key) (ho : H.Is o a) :
    ∃ N, ∀ n, N ≤ n →
      (∀ e, a.getitem keys = .error e → H.getitem n o keys = .error e) ∧
      ∀ b, a.getitem keys = .ok b → ∃ H' o', H.getitem n o keys = .ok (H', o') ∧ H'.Valid ∧ H'.Is o' b ∧ H'.Is o a ∧
        (∀ n' ops, (∀ op ∈ ops, op.Avoids (fun k => H.newCells H' k ∨ H.UnderBcast o k) (H'.stacksOf (fun k => H.newCells H' k ∨ H.UnderBcast o k))) →
          (H'.run n' ops).Is o' b) ∧
        (∀ n' ops, (∀ op ∈ ops, op.Avoids (fun k => k < H.cells.length) (fun id => id < H.stackObjs.length)) → (H'.run n' ops).Is o a) := by
  obtain ⟨d, hd⟩ := ho
  refine ⟨d, fun n hn => ?_⟩
  have hal := Heap.getitem_alike (Sh := H.UnderBcast o) n hd hn (fun _ h => h) H (Heap.Grow.refl H) keys
  refine ⟨fun e he => ?_, fun b hb => ?_⟩
  · rw [he] at hal
    cases hx : H.getitem n o keys with
    | ok p => rw [hx] at hal; exact hal.elim
    | error e' => rw [hx] at hal; cases hal; rfl
  · obtain ⟨⟨H', o'⟩, h1, hg, h2⟩ := hal.ok_right hb
    simp only at hg h2
    have hnew : H'.IsIn (fun k => H.newCells H' k ∨ H.UnderBcast o k) d o' b := h2.mono (fun k hk hlt => hk.imp_left (fun hk => ⟨hk, hlt⟩))
    have hold := hd.old.grow hg (Q := fun k => k < H.cells.length) (fun k hk _ => hk)
    have hap : H'.Apart (fun k => H.newCells H' k ∨ H.UnderBcast o k) (H'.stacksOf (fun k => H.newCells H' k ∨ H.UnderBcast o k)) := by
      refine ⟨fun k hk => ?_, fun id s hs hn hc => hn ⟨s, hs, hc⟩⟩
      rcases hk with hk | hk
      · exact hk.2
      · exact lt_of_lt_of_le (hv.underBcast hk) hg.cells.length_le
    refine ⟨H', o', h1, hg.valid hv, ⟨d, hnew.mono (fun _ _ _ => trivial)⟩, ⟨d, hold.mono (fun _ _ _ => trivial)⟩, ?_, ?_⟩
    · intro n' ops hops
      exact ⟨d, (Heap.run_isIn hap hops hnew).mono (fun _ _ _ => trivial)⟩
    · intro n' ops hops
      exact ⟨d, (Heap.run_isIn hg.apart_old hops hold).mono (fun _ _ _ => trivial)⟩

/-- C44, in terms of values.  Let the object `o` be an expression of the grammar (stacks of ... with assigned items, sums and broadcasts of stacks, ...) that evaluates to `x`.
Indexing it with simple keys gives an object that evaluates to NumPy's `x[keys]` at any later time, whatever the program assigns to the items
of `o`, of the stacks inside it, or of any other stack except those the result consists of (which are new, unless there is a `BroadcastArray` around a stack in `o`); and
assigning items of the result does not change `o`. -/
theorem C44_slices_are_snapshots (fwd : Bool) (H : Heap α) (hv : H.Valid) (o : ArrRef α) (a : Arr α) (x : NDA V) (keys : List Key) (ho : H.Is o a)
    (ha : a.Built m limit fwd false .whole) (hx : a.Yields m limit x) (hk : SimpleKeys fwd keys x.shape) :
    ∃ r, npIndex x keys = .ok r ∧ ∃ N, ∀ n, N ≤ n → ∃ H' o', H.getitem n o keys = .ok (H', o') ∧ H'.Valid ∧
      (∀ n' ops, (∀ op ∈ ops, op.Avoids (fun k => H.newCells H' k ∨ H.UnderBcast o k) (H'.stacksOf (fun k => H.newCells H' k ∨ H.UnderBcast o k))) →
        (H'.run n' ops).Returns m limit o' r) ∧
      ((∀ k, ¬ H.UnderBcast o k) → ∀ n' ops, (∀ op ∈ ops, op.Avoids (H.newCells H') (H.newStacks H')) → (H'.run n' ops).Returns m limit o' r) ∧
      (∀ n' ops, (∀ op ∈ ops, op.Avoids (fun k => k < H.cells.length) (fun id => id < H.stackObjs.length)) →
        (H'.run n' ops).Returns m limit o x) := by
  obtain ⟨hwf, hok, _, hp⟩ := ha.fine
  have hd : a.den m ≈ₐ x := (hx.2.den_eqv hwf hok).symm
  obtain ⟨fk, σ, hf, hs, hσ, hr⟩ := simpleKeys_npIndex hk
  obtain ⟨h1, h2⟩ := simpleKeys_guards m true hwf hp (by rw [hd.1]; exact hs)
  obtain ⟨b, g1, g2, g3, g4, _⟩ := index_returns m limit true hwf hok hd hf h1 h2 hr
  have hby : b.Yields m limit (x.ortho σ) := (Arr.Yields.of_den g2 g3).congr g4
  obtain ⟨N, hN⟩ := C44_snapshot H hv o a keys ho
  refine ⟨_, hr, N, fun n hn => ?_⟩
  obtain ⟨H', o', k1, k2, k3', _, k3, k4⟩ := (hN n hn).2 b g1
  refine ⟨H', o', k1, k2, fun n' ops hops => (k3 n' ops hops).returns hby.2, fun hnb n' ops hops => ?_, fun n' ops hops => (k4 n' ops hops).returns hx.2⟩
  refine (k3 n' ops (fun op hop => ?_)).returns hby.2
  have hg := Heap.getitem_grow n H o keys H' o' k1
  have hop' := hops op hop
  cases op with
  | put cell pos v => exact fun hc => hop' (hc.resolve_right (hnb _))
  | wrap cell => exact fun hc => hop' (hc.resolve_right (hnb _))
  | assign id ks v =>
    rintro ⟨s, hs, hc⟩
    refine hop' ?_
    have hc := hc.resolve_right (hnb _)
    by_contra hcon
    exact (hg.apart_new hv).objs id s hs hcon hc
  | _ => trivial

omit [Inhabited α] in
theorem resolve_intKeys : ∀ (ks : List Int) (ss : List Nat), List.Forall₂ (fun i n => inRange i n = true) ks ss →
    ∃ σ, resolve (ks.map Key.int) ss = .ok σ ∧ selSrc σ [] = List.zipWith normIdx ks ss
  | _, _, .nil => ⟨[], rfl, rfl⟩
  | _, _, .cons (a := i) (b := n) h hs => by
    obtain ⟨σ, h1, h2⟩ := resolve_intKeys _ _ hs
    refine ⟨.at (normIdx i n) :: σ, ?_, ?_⟩
    · simp only [List.map_cons]
      refine (resolve_cons_iff rfl).mpr ⟨_, _, _, _, rfl, rfl, ?_, h1⟩
      simp [resolve1, h]
    · simp [selSrc, h2]

/-- C45.  `stack[i, j, ...] = value`, for a stack of arrays of shape `s` with values `x i` and a value of the same shape (not built from the
stack itself): afterwards the stack evaluates to the stacked arrays with exactly the addressed one (negative indices count from the end)
replaced; every array that does not use the stack's object array evaluates as before. -/
theorem C45_assignment (H : Heap α) (id : Nat) (so : StackObj) (ss s : List Nat) (f : List Nat → Arr α) (x : List Nat → NDA V) (ks : List Int)
    (v : ArrRef α) (b : Arr α) (y : NDA V) (d : Nat)
    (ho : H.Is (.stack id) (.stack ss f)) (hso : H.stackObjs[id]? = some so)
    (hx : ∀ i, InB ss i → (f i).Yields m limit (x i) ∧ (x i).shape = s)
    (hne : ks ≠ []) (hks : List.Forall₂ (fun i n => inRange i n = true) ks ss)
    (hv : H.IsIn (fun k => k ≠ so.cell) d v b) (hy : b.Yields m limit y) (hys : y.shape = s) :
    ∃ H' r, H.setitem id (ks.map Key.int) v = .ok H' ∧ H'.Returns m limit (.stack id) r ∧ r.shape = ss ++ s ∧
      (∀ i j, InB ss i → InB s j → r.get (i ++ j) = if i = List.zipWith normIdx ks ss then y.get j else (x i).get j) ∧
      ∀ o a z, (∃ d, H.IsIn (fun k => k ≠ so.cell) d o a) → a.Yields m limit z → H'.Returns m limit o z := by
  obtain ⟨n, hn⟩ := ho
  obtain ⟨σ, hσ, hpos⟩ := resolve_intKeys ks ss hks
  obtain ⟨s', c', e1, _, rfl, h0, hsh⟩ := hn.stack_shape
  rw [hso] at e1
  cases e1
  have hits : so.itemShape = s := by
    have h1 := hsh _ (inB_zeros _ h0)
    have h2 := (hx _ (inB_zeros _ h0))
    rw [h2.1.1, h2.2] at h1
    cases h1
    rfl
  obtain ⟨H', h1, h2, h3⟩ := Heap.setitem_ok hn hso (by simp [Key.isScalar]) (by simpa using hne) hσ hv (by rw [hy.1, hys, hits])
  rw [hpos] at h2
  obtain ⟨b', r, k1, k2, k3, k4⟩ := C12_array_stack (m := m) (limit := limit) c'.shape s (fun i => if i = List.zipWith normIdx ks c'.shape then b else f i)
    (fun i => if i = List.zipWith normIdx ks c'.shape then y else x i) h0 (fun i hi => by
      split
      · exact ⟨hy, hys⟩
      · exact hx i hi)
  obtain ⟨_, _, rfl⟩ := mkStack_iff.mp k1
  refine ⟨H', r, h1, h2.returns k2.2, k3, fun i j hi hj => ?_, fun o a z ⟨d, hd⟩ hz => ?_⟩
  · rw [k4 i j hi hj]
    split <;> rfl
  · exact Heap.Is.returns ⟨d, (h3 o a d hd).mono (fun _ _ _ => trivial)⟩ hz.2

omit [Inhabited α] in
theorem resolve_intKeys_error : ∀ (ks : List Int) (ss : List Nat), ks.length = ss.length →
    ¬ List.Forall₂ (fun i n => inRange i n = true) ks ss → resolve (ks.map Key.int) ss = .error .index
  | [], [], _, h => absurd .nil h
  | i :: ks, n :: ss, hl, h => by
    by_cases hi : inRange i n = true
    · have ih := resolve_intKeys_error ks ss (by simpa using hl) (fun h' => h (.cons hi h'))
      simp [resolve, resolve1, hi, ih, bind, Except.bind]
    · simp [resolve, resolve1, hi, bind, Except.bind]

omit [Inhabited α] in
theorem scalar_intKeys : ∀ (keys : List Key), keys.all Key.isScalar = true → ∃ ks : List Int, keys = ks.map Key.int
  | [], _ => ⟨[], rfl⟩
  | k :: keys, h => by
    simp only [List.all_cons, Bool.and_eq_true] at h
    obtain ⟨ks, hk⟩ := scalar_intKeys keys h.2
    cases k <;> simp only [Key.isScalar] at h <;> first | exact absurd h.1 (by decide) | skip
    rename_i i
    exact ⟨i :: ks, by simp [hk]⟩

omit [Inhabited α] in
/-- C45: which assignments are accepted.  Every item must be addressed by exactly one integer for each dimension of the stack; another number of
keys, or a key that is not an integer, is an AssertionError, an integer out of range an IndexError. -/
theorem C45_accepts (H : Heap α) (id : Nat) (ss : List Nat) (f : List Nat → Arr α) (keys : List Key) (v : ArrRef α)
    (ho : H.Is (.stack id) (.stack ss f)) (hne : keys ≠ []) :
    ((∃ H', H.setitem id keys v = .ok H') ↔ ∃ ks : List Int, keys = ks.map Key.int ∧ List.Forall₂ (fun i n => inRange i n = true) ks ss) ∧
    (keys.length ≠ ss.length ∨ (∃ k ∈ keys, k.isScalar = false) → H.setitem id keys v = .error .assertion) ∧
    (∀ ks : List Int, keys = ks.map Key.int → ks.length = ss.length → ¬ List.Forall₂ (fun i n => inRange i n = true) ks ss →
      H.setitem id keys v = .error .index) := by
  obtain ⟨n, hn⟩ := ho
  obtain ⟨s', c', e1, e2, rfl, _, _⟩ := hn.stack_shape
  have hf : H.find id = .ok (s', c') := by simp [Heap.find, e1, e2]
  have hem : keys.isEmpty = false := by simpa using hne
  have hassert : keys.length ≠ c'.shape.length ∨ (∃ k ∈ keys, k.isScalar = false) → H.setitem id keys v = .error .assertion := by
    intro h
    unfold Heap.setitem
    rw [hf]
    simp only [bind, Except.bind]
    by_cases hl : keys.length ≠ c'.shape.length
    · rw [if_pos hl]
    · rw [if_neg hl]
      obtain ⟨k, hk, hks⟩ := h.resolve_left hl
      have : ¬ keys.all Key.isScalar = true := by
        rw [List.all_eq_true]
        intro h'
        rw [h' k hk] at hks
        cases hks
      simp [this]
  have hindex : ∀ ks : List Int, keys = ks.map Key.int → ks.length = c'.shape.length →
      ¬ List.Forall₂ (fun i n => inRange i n = true) ks c'.shape → H.setitem id keys v = .error .index := by
    rintro ks rfl hl hr
    unfold Heap.setitem
    rw [hf]
    simp only [bind, Except.bind]
    rw [if_neg (by simpa using hl), if_neg (by simp [Key.isScalar]), if_neg (by rw [hem]; decide), resolve_intKeys_error ks _ hl hr]
  refine ⟨⟨?_, ?_⟩, hassert, hindex⟩
  · rintro ⟨H', h⟩
    by_cases ha : keys.length ≠ c'.shape.length ∨ (∃ k ∈ keys, k.isScalar = false)
    · rw [hassert ha] at h; cases h
    · simp only [not_or, not_exists, not_and, ne_eq, not_not, Bool.not_eq_false] at ha
      obtain ⟨ks, hk⟩ := scalar_intKeys keys (by rw [List.all_eq_true]; exact ha.2)
      refine ⟨ks, hk, ?_⟩
      by_contra hr
      rw [hindex ks hk (by rw [← ha.1, hk, List.length_map]) hr] at h
      cases h
  · rintro ⟨ks, rfl, hr⟩
    obtain ⟨σ, hσ, _⟩ := resolve_intKeys ks _ hr
    refine ⟨⟨H.cells.set s'.cell ⟨c'.shape, fun j => if j = selSrc σ [] then v else c'.items j⟩, H.stackObjs⟩, ?_⟩
    · unfold Heap.setitem
      rw [hf]
      simp only [bind, Except.bind]
      rw [if_neg (by simpa using hr.length_eq), if_neg (by simp [Key.isScalar]), if_neg (by rw [hem]; decide), hσ]
      rfl

/-- C46.  `copy.deepcopy` of an object that evaluates to `x` (stacks nested in any way, items shared or not) gives an object that
evaluates to `x` too, at any later time, whatever is assigned to the items of the original; and assignments to items of the copy do not
change the original. -/
theorem C46_deepcopy (H : Heap α) (hv : H.Valid) (o : ArrRef α) (a : Arr α) (x : NDA V) (ho : H.Is o a) (hx : a.Yields m limit x) :
    ∃ N, ∀ n, N ≤ n → ∃ H' memo o', H.deepcopy n [] o = .ok (H', memo, o') ∧ H'.Valid ∧ H'.Is o' a ∧
      (∀ n' ops, (∀ op ∈ ops, op.Avoids (H.newCells H') (H.newStacks H')) → (H'.run n' ops).Returns m limit o' x) ∧
      (∀ n' ops, (∀ op ∈ ops, op.Avoids (fun k => k < H.cells.length) (fun id => id < H.stackObjs.length)) →
        (H'.run n' ops).Returns m limit o x) := by
  obtain ⟨d, hd⟩ := ho
  refine ⟨d, fun n hn => ?_⟩
  obtain ⟨⟨H', memo, o'⟩, h1, _, h2⟩ := Heap.deepcopy_sim H.cells.length n H _ [] d o a hd hn (fun id j h => by cases h) (le_refl _)
  have hg := Heap.deepcopy_grow n H [] o _ h1
  have hnew : H'.IsIn (H.newCells H') d o' a :=
    (h2.isIn (hd.grow hg (Q := fun _ => True) (fun _ _ _ => trivial))).mono (fun k hk hlt => ⟨hk, hlt⟩)
  have hold := hd.old.grow hg (Q := fun k => k < H.cells.length) (fun k hk _ => hk)
  refine ⟨H', memo, o', h1, hg.valid hv, ⟨d, hnew.mono (fun _ _ _ => trivial)⟩, ?_, ?_⟩
  · intro n' ops hops
    exact Heap.Is.returns ⟨d, (Heap.run_isIn (hg.apart_new hv) hops hnew).mono (fun _ _ _ => trivial)⟩ hx.2
  · intro n' ops hops
    exact Heap.Is.returns ⟨d, (Heap.run_isIn hg.apart_old hops hold).mono (fun _ _ _ => trivial)⟩ hx.2

omit [Inhabited α] in
/-- C65.  A deep copy is the object with each of its stacks `id` replaced by a new stack `φ id` (with a new object array of the same shape, whose
items are the old items with their stacks replaced in the same way); different stacks have different copies, with different object arrays.
So stacks that are used several times in the object are used in the same places of the copy. -/
theorem C65_deepcopy_keeps_sharing (H : Heap α) (o : ArrRef α) (a : Arr α) (ho : H.Is o a) :
    ∃ N, ∀ n, N ≤ n → ∃ H' memo φ, H.deepcopy n [] o = .ok (H', memo, o.rename φ) ∧
      (∀ id, H.Uses o id → ∃ s c s' c', H.stackObjs[id]? = some s ∧ H.cells[s.cell]? = some c ∧
        H'.stackObjs[φ id]? = some s' ∧ H'.cells[s'.cell]? = some c' ∧ H.newStacks H' (φ id) ∧ H.newCells H' s'.cell ∧
        s'.itemShape = s.itemShape ∧ c'.shape = c.shape ∧ ∀ i, InB c.shape i → c'.items i = (c.items i).rename φ) ∧
      ∀ id id' s s', H.Uses o id → H.Uses o id' → H'.stackObjs[φ id]? = some s → H'.stackObjs[φ id']? = some s' →
        (φ id = φ id' ∨ s.cell = s'.cell) → id = id' := by
  obtain ⟨d, hd⟩ := ho
  refine ⟨d, fun n hn => ?_⟩
  obtain ⟨⟨H', memo, o'⟩, h1, _, _⟩ := Heap.deepcopy_sim H.cells.length n H _ [] d o a hd hn (fun id j h => by cases h) (le_refl _)
  have hg := Heap.deepcopy_grow n H [] o _ h1
  obtain ⟨h2, h3, h4⟩ := Heap.deepcopy_iso H n H [] d o a _ hd hn (Heap.Grow.refl H)
    ⟨fun id j h => (by cases h), fun id id' j j' s s' h => (by cases h)⟩ h1
  simp only at h2 h3 h4
  have hget : ∀ {β : Type} {l : List β} {i : Nat} {x : β}, l[i]? = some x → i < l.length := by
    intro β l i x h
    by_contra hc
    rw [List.getElem?_eq_none (by omega)] at h; cases h
  refine ⟨H', memo, memoFun memo, by rw [h1, ← h3], fun id hid => ?_, fun id id' s s' hid hid' hs hs' he => ?_⟩
  · obtain ⟨j, hj⟩ := h2.iso.uses hid h4
    obtain ⟨k0, s, c, s', c', k1, k2, k3, k4, k5, k6, k7, k8⟩ := h2.iso.entry id j hj
    have hφ : memoFun memo id = j := by simp [memoFun, hj]
    rw [hφ]
    exact ⟨s, c, s', c', k1, k2, k3, k4, ⟨k0, hget k3⟩, ⟨k5, hget k4⟩, k6, k7, fun i hi => (k8 i hi).1⟩
  · obtain ⟨j, hj⟩ := h2.iso.uses hid h4
    obtain ⟨j', hj'⟩ := h2.iso.uses hid' h4
    have hφ : memoFun memo id = j := by simp [memoFun, hj]
    have hφ' : memoFun memo id' = j' := by simp [memoFun, hj']
    rw [hφ] at hs he
    rw [hφ'] at hs' he
    refine h2.iso.inj id id' j j' s s' hj hj' hs hs' ?_
    rcases he with rfl | he
    · rw [hs] at hs'; cases hs'; rfl
    · exact he

/-! ### a concrete program, and what is not guaranteed -/

/-- Two `ArrayStack`s: number 0 has the items `exSource` and a constant; number 1 has stack 0 as its only item. -/
def exHeap : Heap ℚ :=
  ⟨[⟨[2], fun i => if i = [0] then .arr (.adapter false exSource []) else .arr (.const [2, 3, 4] 7 0)⟩, ⟨[1], fun _ => .stack 0⟩],
    [⟨0, [2, 3, 4]⟩, ⟨1, [2, 2, 3, 4]⟩]⟩

def exInner : Arr ℚ := .stack [2] (fun i => if i = [0] then .adapter false exSource [] else .const [2, 3, 4] 7 0)

theorem exHeap_inner : exHeap.IsIn (fun k => k ≠ 1) 1 (.stack 0) exInner := by
  refine Heap.IsIn.stack (H := exHeap) (P := fun k => k ≠ 1) (n := 0) (id := 0) (s := ⟨0, [2, 3, 4]⟩)
    (c := ⟨[2], fun i => if i = [0] then .arr (.adapter false exSource []) else .arr (.const [2, 3, 4] 7 0)⟩)
    (f := fun i => if i = [0] then .adapter false exSource [] else .const [2, 3, 4] 7 0) rfl rfl (by decide) (by decide) (fun i hi => ?_) (fun i hi => ?_)
  · dsimp only
    split
    · decide +kernel
    · decide +kernel
  · dsimp only
    split
    · exact .arr _ _
    · exact .arr _ _

theorem exHeap_outer : exHeap.Is (.stack 1) (.stack [1] (fun _ => exInner)) := by
  refine ⟨2, Heap.IsIn.stack (H := exHeap) (P := fun _ => True) (n := 1) (id := 1) (s := ⟨1, [2, 2, 3, 4]⟩) (c := ⟨[1], fun _ => .stack 0⟩)
    (f := fun _ => exInner) rfl rfl trivial (by decide) (fun i hi => ?_) (fun i hi => ?_)⟩
  · decide +kernel
  · exact exHeap_inner.mono (fun _ _ _ => trivial)

theorem exHeap_valid : exHeap.Valid := by
  intro id s hs
  match id, hs with
  | 0, hs => cases hs; decide
  | 1, hs => cases hs; decide
  | n + 2, hs => simp [exHeap] at hs

theorem exOuter_built : (Arr.stack [1] (fun _ => exInner)).Built exMode 100 true false .whole := by
  have h0 : exInner.Built exMode 100 true false .whole := by
    refine .stack (ss := [2]) (items := fun i => if i = [0] then .adapter false exSource [] else .const [2, 3, 4] 7 0) (by simp) (by simp)
      (fun i hi => ?_) (mkStack_iff.mpr ⟨by decide, ⟨[2, 3, 4], fun i hi => ?_⟩, rfl⟩)
    · split
      · exact exSource_built exMode (fun i _ => rfl) 100 _
      · exact .const _ _ _ _ _
    · split
      · decide +kernel
      · decide +kernel
  exact .stack (ss := [1]) (items := fun _ => exInner) (by simp) (by simp) (fun _ _ => h0)
    (mkStack_iff.mpr ⟨by decide, ⟨[2, 2, 3, 4], fun i hi => by decide +kernel⟩, rfl⟩)

/-- The hypotheses of C44 and C46 are met by the nested stack of the example. -/
example : ∃ x, exHeap.Valid ∧ exHeap.Is (.stack 1) (.stack [1] (fun _ => exInner)) ∧
    (Arr.stack [1] (fun _ => exInner)).Built exMode 100 true false .whole ∧
    (Arr.stack [1] (fun _ => exInner)).Yields exMode 100 x ∧ SimpleKeys true [.int 0, .slice ⟨some 1, none, none⟩, .int 1, .ellipsis] x.shape := by
  obtain ⟨h1, h2, _, _⟩ := exOuter_built.fine
  refine ⟨_, exHeap_valid, exHeap_outer, exOuter_built, Arr.Yields.of_den h1 h2, ?_⟩
  refine ⟨[.int 0, .slice ⟨some 1, none, none⟩, .int 1, Key.full, Key.full], by decide +kernel, ?_⟩
  refine .cons (Or.inl ⟨0, rfl, by decide, fun _ => by decide⟩) (.cons (Or.inr (Or.inl ⟨_, [1], rfl, fun _ => rfl, by decide +kernel, by simp⟩))
    (.cons (Or.inl ⟨1, rfl, by decide, fun _ => by decide⟩) (.cons (Or.inr (Or.inl ⟨_, [0, 1, 2], rfl, fun _ => rfl, by decide +kernel, by simp⟩))
      (.cons (Or.inr (Or.inl ⟨_, [0, 1, 2, 3], rfl, fun _ => rfl, by decide +kernel, by simp⟩)) .nil))))

/-- The program: `v = outer[0, :, 1, 2, 3]`, `inner[-1] = exSource`, then evaluate `v`, and `outer[0, :, 1, 2, 3]` again; a copy made before the
assignment is unaffected. -/
example :
    ((do
      let (H1, v) ← exHeap.getitem 5 (.stack 1) [.int 0, .ellipsis, .int 1, .int 2, .int 3]
      let (H2, _, c) ← H1.deepcopy 5 [] (.stack 1)
      let H3 ← H2.setitem 0 [.int (-1)] (.arr (.adapter false exSource []))
      let (H4, w) ← H3.getitem 5 (.stack 1) [.int 0, .ellipsis, .int 1, .int 2, .int 3]
      let (H5, u) ← H4.getitem 5 c [.int 0, .ellipsis, .int 1, .int 2, .int 3]
      let rv ← Res.view (H5.eval exMode 100 5 1 v)
      let rw ← Res.view (H5.eval exMode 100 5 1 w)
      let ru ← Res.view (H5.eval exMode 100 5 1 u)
      return (rv, rw, ru) : Res _)) = .ok (([2], [23, 7]), ([2], [23, 23]), ([2], [23, 7])) := by decide +kernel

/-- C45 is met by the assignment in the example. -/
example : exHeap.IsIn (fun k => k ≠ 0) 0 (.arr (.adapter false exSource [])) (.adapter false exSource []) ∧
    List.Forall₂ (fun (i : Int) (n : Nat) => inRange i n = true) [-1] [2] := ⟨.arr _ _, .cons (by decide) .nil⟩

/-- C45, counterexample to the property with values of any shape: the assignment does not check the shape.  An array of shape (5,) is accepted as
an item of a stack of arrays of shape (2, 3, 4), the announced shape stays the same, and every later evaluation fails. -/
theorem C45_shape_not_checked :
    ((do
      let H1 ← exHeap.setitem 0 [.int 1] (.arr (.const [5] 9 0))
      H1.shape (.stack 0) : Res _)) = .ok [2, 2, 3, 4] ∧
    ((do
      let H1 ← exHeap.setitem 0 [.int 1] (.arr (.const [5] 9 0))
      Res.view (H1.eval exMode 100 5 1 (.stack 0)) : Res _)) = .error .value := by
  refine ⟨by decide +kernel, by decide +kernel⟩

/-- C45: the constructor keeps the caller's object array, it does not copy it.  Two stacks made from the same object array share assignments: here the
second stack is only wrapped around the object array of the first, and assigning an item of it changes the first. -/
theorem C45_object_array_shared :
    ((do
      let (H1, o) ← exHeap.newStack 0
      let H2 ← H1.setitem 2 [.int 1] (.arr (.const [2, 3, 4] 9 0))
      let r1 ← H1.eval exMode 100 5 1 (.stack 0)
      let r2 ← H2.eval exMode 100 5 1 (.stack 0)
      return (match o with | .stack j => j | _ => 0, r1.get [1, 0, 0, 0], r2.get [1, 0, 0, 0]) : Res _)) = .ok (2, 7, 9) := by decide +kernel

/-- Stack 0 and stack 1 are made from the same object array; stack 2 has the items stack 0 (twice) and stack 1. -/
def exSharedHeap : Heap ℚ :=
  ⟨[⟨[2], fun i => if i = [0] then .arr (.adapter false exSource []) else .arr (.const [2, 3, 4] 7 0)⟩,
    ⟨[3], fun i => if i = [2] then .stack 1 else .stack 0⟩], [⟨0, [2, 3, 4]⟩, ⟨0, [2, 3, 4]⟩, ⟨1, [2, 2, 3, 4]⟩]⟩

/-- C65 on this heap: in the copy (stack 5) of stack 2 the first two items are the same stack (3), a copy of stack 0.
C65 fails of the code for object arrays: in the original an assignment to an item of stack 0 is seen in all three items of stack 2; in the copy
an assignment to an item of stack 3 is not seen in the third item, because each stack copies its object array
(`memo[id(self._stack)] = result` overwrites, it is never looked up before copying). -/
theorem C65_object_array_unshared :
    Except.map (fun r => match r.2.2 with
      | .stack j => (j, (r.1.stackObjs.map StackObj.cell)) | _ => (0, [])) (exSharedHeap.deepcopy 5 [] (.stack 2)) = .ok (5, [0, 0, 1, 2, 3, 4]) ∧
    ((do
      let H1 ← exSharedHeap.setitem 0 [.int 1] (.arr (.const [2, 3, 4] 9 0))
      let r1 ← H1.eval exMode 100 5 1 (.stack 2)
      let (H2, _, o) ← exSharedHeap.deepcopy 5 [] (.stack 2)
      let H3 ← H2.setitem 3 [.int 1] (.arr (.const [2, 3, 4] 9 0))
      let r2 ← H3.eval exMode 100 5 1 o
      return ((List.range 3).map (fun i => r1.get [i, 1, 0, 0, 0]), (List.range 3).map (fun i => r2.get [i, 1, 0, 0, 0])) : Res _)) =
        .ok ([9, 9, 9], [9, 9, 7]) := by
  refine ⟨by decide +kernel, by decide +kernel⟩

/-- C65 is met by the outer stack of `exHeap`, which uses both stacks. -/
example : exHeap.Is (.stack 1) (.stack [1] (fun _ => exInner)) ∧ exHeap.Uses (.stack 1) 1 ∧ exHeap.Uses (.stack 1) 0 :=
  ⟨exHeap_outer, Relation.ReflTransGen.refl, Relation.ReflTransGen.single (.item (id := 1) (c := ⟨[1], fun _ => .stack 0⟩) (i := [0]) rfl rfl (by decide))⟩

/-- The heap after `outer[0] = outer`. -/
def exLoop : Heap ℚ :=
  ⟨[⟨[2], fun i => if i = [0] then .arr (.adapter false exSource []) else .arr (.const [2, 3, 4] 7 0)⟩,
    ⟨[1], fun j => if j = [0] then .stack 1 else .stack 0⟩], [⟨0, [2, 3, 4]⟩, ⟨1, [2, 2, 3, 4]⟩]⟩

/-- C45: a stack can be assigned to one of its own items; evaluating it then never ends (RecursionError). -/
theorem C45_self_assignment : exHeap.setitem 1 [.int 0] (.stack 1) = .ok exLoop ∧
    ∀ n k, exLoop.eval exMode 100 n k (.stack 1) = .error .runtime := by
  refine ⟨rfl, fun n k => ?_⟩
  have hf : exLoop.find 1 = .ok (⟨1, [2, 2, 3, 4]⟩, ⟨[1], fun j => if j = [0] then .stack 1 else .stack 0⟩) := rfl
  have hnd : ndindex [1] = [[0]] := rfl
  have key : ∀ (evalA : Arr ℚ → Res (NDA ℚ)) (eng : ArrRef ℚ → Res (NDA ℚ)) (n : Nat), exLoop.evalStacks exMode evalA eng n (.stack 1) = .error .runtime := by
    intro evalA eng n
    induction n with
    | zero => simp only [Heap.evalStacks, Heap.evalWith, hf, bind, Except.bind, hnd, List.foldlM_cons]
    | succ n ih => simp only [Heap.evalStacks, Heap.evalWith, hf, bind, Except.bind, hnd, List.foldlM_cons, if_true, ih]
  cases k with
  | zero => exact key _ _ n
  | succ k => exact key _ _ n

end Biggus

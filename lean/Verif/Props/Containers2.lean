import Verif.Props.Containers
/-
C11 - C15, continued: transposition, stacks, mosaics, astype and masking.
-/
namespace Biggus
open Spec

variable {α V : Type} [Inhabited α] [Inhabited V] {m : Mode α V} {limit : Nat}

/-! ### C11: transposition -/

theorem inB_getD {s i : List Nat} (h : InB s i) : ∀ k, k < s.length → i.getD k 0 < s.getD k 0 := by
  induction s generalizing i with
  | nil => intro k hk; simp at hk
  | cons n s ih =>
    match i, h with
    | x :: i, h =>
      intro k hk
      cases k with
      | zero => simpa using h.1
      | succ k => simpa using ih h.2 k (by simpa using hk)

theorem inB_map {l : List Nat} {f g : Nat → Nat} (h : ∀ k ∈ l, f k < g k) : InB (l.map g) (l.map f) := by
  induction l with
  | nil => trivial
  | cons x l ih => exact ⟨h x List.mem_cons_self, ih (fun k hk => h k (List.mem_cons_of_mem _ hk))⟩

omit [Inhabited V] in
/-- The transposed array, element by element: dimension `i` of the result is dimension `axes[i]` of `x`. -/
theorem permute_spec (x : NDA V) (axes : List Nat) (hp : axes.Perm (List.range x.shape.length)) :
    (x.permute axes).shape = axes.map (fun j => x.shape.getD j 0) ∧
    ∀ j, InB x.shape j → (x.permute axes).get (axes.map (fun k => j.getD k 0)) = x.get j := by
  refine ⟨rfl, fun j hj => ?_⟩
  simp only [NDA.permute]
  congr 1
  have hl := axes_length hp
  refine List.ext_getElem? (fun i => ?_)
  by_cases hi : i < x.shape.length
  · have hmem : i ∈ axes := hp.mem_iff.mpr (List.mem_range.mpr hi)
    have hlt : axes.idxOf i < axes.length := List.idxOf_lt_length_iff.mpr hmem
    have hij : i < j.length := by rw [hj.length]; exact hi
    rw [List.getElem?_map, List.getElem?_range (by omega), List.getElem?_eq_getElem hij, Option.map_some,
      List.getD_eq_getElem _ _ (by simpa using hlt), List.getElem_map, List.getElem_idxOf hlt, List.getD_eq_getElem _ _ hij]
  · rw [List.getElem?_eq_none (by simp; omega), List.getElem?_eq_none (by rw [hj.length]; omega)]

/-- C11.  `a.transpose(axes)` with a permutation of the dimensions (default: reversed) evaluates to the transposed data: its
shape is the permuted shape, and the element of `x` at `j` is found at the permuted position. -/
theorem C11_transpose (a : Arr α) (x : NDA V) (axes : Option (List Nat)) (h : a.Yields m limit x)
    (hp : (axes.getD (List.range x.shape.length).reverse).Perm (List.range x.shape.length)) :
    ∃ b r, a.transpose axes = .ok b ∧ b.Yields m limit r ∧
      r.shape = (axes.getD (List.range x.shape.length).reverse).map (fun j => x.shape.getD j 0) ∧
      ∀ j, InB x.shape j → r.get ((axes.getD (List.range x.shape.length).reverse).map (fun k => j.getD k 0)) = x.get j := by
  refine ⟨.transposed a (axes.getD (List.range x.shape.length).reverse), _, ?_, yields_transposed h hp, permute_spec x _ hp⟩
  cases axes with
  | none => unfold Arr.transpose; rw [h.1]; rfl
  | some axes => exact (mkTransposed_iff h.1).mpr ⟨axes_length hp, rfl⟩

example : Res.view ((Arr.adapter false exSource []).transpose (some [2, 0, 1]) >>= fun a => a.getitem [.slice ⟨some 1, some 3, none⟩, .int (-1)] >>=
    fun a => a.eval exMode 100 1) = .ok ([2, 3], [13, 17, 21, 14, 18, 22]) := by decide +kernel

/-- C11.  Transposing by `p` and then by its inverse gives the array back. -/
theorem C11_transpose_inverse (a : Arr α) (x : NDA V) (p q : List Nat) (h : a.Yields m limit x)
    (hp : p.Perm (List.range x.shape.length)) (hq : q.Perm (List.range x.shape.length))
    (hpq : ∀ i, i < x.shape.length → p.getD (q.getD i 0) 0 = i) :
    ∃ b c, a.transpose (some p) = .ok b ∧ b.transpose (some q) = .ok c ∧ c.Yields m limit x := by
  have hb := yields_transposed h hp
  have hlen : (x.permute p).shape.length = x.shape.length := by simp [NDA.permute, axes_length hp]
  have hq' : q.Perm (List.range (x.permute p).shape.length) := by rw [hlen]; exact hq
  have hc := yields_transposed hb hq'
  refine ⟨.transposed a p, .transposed (.transposed a p) q, (mkTransposed_iff h.1).mpr ⟨axes_length hp, rfl⟩,
    (mkTransposed_iff hb.1).mpr ⟨axes_length hq', rfl⟩, hc.congr ?_⟩
  have hql := axes_length hq
  have hpl := axes_length hp
  have hqlt : ∀ i, i < x.shape.length → q.getD i 0 < x.shape.length := by
    intro i hi
    rw [List.getD_eq_getElem _ _ (by omega)]
    exact List.mem_range.mp (hq.mem_iff.mp (List.getElem_mem _))
  have key : ∀ j : List Nat, j.length = x.shape.length → q.map (fun k => (p.map (fun k => j.getD k 0)).getD k 0) = j := by
    intro j hj
    refine List.ext_getElem? (fun i => ?_)
    by_cases hi : i < x.shape.length
    · have h1 := hqlt i hi
      have h2 := hpq i hi
      rw [List.getElem?_map, List.getElem?_eq_getElem (by omega), List.getElem?_eq_getElem (by omega), Option.map_some]
      have e : q.getD i 0 = q[i]'(by omega) := List.getD_eq_getElem _ _ (by omega)
      rw [e] at h1 h2
      rw [List.getD_eq_getElem _ _ (by simp; omega), List.getElem_map]
      rw [List.getD_eq_getElem _ _ (by omega)] at h2
      rw [h2, List.getD_eq_getElem _ _ (by omega)]
    · rw [List.getElem?_eq_none (by simp; omega), List.getElem?_eq_none (by omega)]
  have hsh : ((x.permute p).permute q).shape = x.shape := key x.shape rfl
  refine ⟨hsh, fun idx hi => ?_⟩
  rw [hsh] at hi
  have hin : InB (x.permute p).shape (p.map (fun k => idx.getD k 0)) := by
    show InB (p.map (fun k => x.shape.getD k 0)) _
    exact inB_map (fun k hk => (inB_getD hi k (List.mem_range.mp (hp.mem_iff.mp hk))))
  have h1 := (permute_spec (x.permute p) q hq').2 _ hin
  rw [key idx hi.length] at h1
  rw [h1, (permute_spec x p hp).2 idx hi]

example : ([2, 0, 1] : List Nat).Perm (List.range 3) ∧ ∀ i, i < 3 → [2, 0, 1].getD ([1, 2, 0].getD i 0) 0 = i := by decide

/-- C11.  Indexing a transposed expression of the grammar any number of times with simple keys (also integers, which drop
dimensions) equals transposing first and indexing after. -/
theorem C11_transposed_indexing (fwd : Bool) (a b : Arr α) (axes : List Nat) (x : NDA V) (hb : a.Built m limit fwd false .whole)
    (hx : a.Yields m limit x) (hp : axes.Perm (List.range x.shape.length)) (ht : a.transpose (some axes) = .ok b)
    (kss : List (List Key)) (hh : SimpleHistory fwd kss (axes.map (fun j => x.shape.getD j 0))) :
    ∃ c r, kss.foldlM (fun a ks => Arr.getitem a ks) b = .ok c ∧ indexAll (x.permute axes) kss = .ok r ∧ c.Yields m limit r := by
  have hbb : b.Built m limit fwd false .whole := .transposed hb hx.1 hp ht
  obtain ⟨h1, h2, _, h4⟩ := hbb.fine
  obtain ⟨_, rfl⟩ := (mkTransposed_iff hx.1).mp ht
  obtain ⟨c, r, k1, k2, k3, _⟩ := C06_simple_keys fwd kss _ _ h1 h2 h4 (yields_transposed hx hp) hh
  exact ⟨c, r, k1, k2, k3⟩

/-- C11: axes that are not a permutation are accepted by the constructor and only fail later. -/
theorem C11_non_permutation_accepted : ∃ a b : Arr ℚ, a.shape = .ok [2, 3] ∧ a.transpose (some [0, 0]) = .ok b ∧ b.shape = .error .key :=
  ⟨.const [2, 3] 0 0, .transposed (.const [2, 3] 0 0) [0, 0], rfl, rfl, by decide +kernel⟩

/-! ### C12: ArrayStack -/

/-- C12.  A stack of arrays which evaluate to arrays `x i` of one shape is accepted, and evaluates to the array whose element
`[i..., j...]` is element `[j...]` of `x [i...]`. -/
theorem C12_array_stack (ss s : List Nat) (items : List Nat → Arr α) (x : List Nat → NDA V) (h0 : ss.prod ≠ 0)
    (h : ∀ i, InB ss i → (items i).Yields m limit (x i) ∧ (x i).shape = s) :
    ∃ b r, mkStack ss items = .ok b ∧ b.Yields m limit r ∧ r.shape = ss ++ s ∧
      ∀ i j, InB ss i → InB s j → r.get (i ++ j) = (x i).get j := by
  refine ⟨.stack ss items, _, mkStack_iff.mpr ⟨h0, ⟨s, fun i hi => by rw [(h i hi).1.1, (h i hi).2]⟩, rfl⟩, yields_stack h0 h, ?_, ?_⟩
  · simp only [NDA.stacked]; rw [(h _ (inB_zeros ss h0)).2]
  · intro i j hi _
    simp only [NDA.stacked]
    rw [← hi.length, List.take_left', List.drop_left'] <;> rfl

example : Res.view (mkStack [2] (fun i => Arr.adapter false exSource [.int (i.headD 0 : Nat), .slice ⟨some 1, none, none⟩]) >>= fun a =>
    a.getitem [.slice ⟨none, none, some (-1)⟩, .int 1, .slice ⟨some 1, some 3, none⟩] >>= fun b => b.eval exMode 100 1) =
    .ok ([2, 2], [21, 22, 9, 10]) := by decide +kernel

/-- C12.  Indexing a stack of expressions of the grammar any number of times with simple keys equals indexing the stacked
array. -/
theorem C12_stack_indexing (fwd : Bool) (ss : List Nat) (items : List Nat → Arr α) (b : Arr α) (x : NDA V)
    (hb : ∀ i, InB ss i → (items i).Built m limit fwd false .whole) (hs : mkStack ss items = .ok b) (hx : b.Yields m limit x)
    (kss : List (List Key)) (hh : SimpleHistory fwd kss x.shape) :
    ∃ c r, kss.foldlM (fun a ks => Arr.getitem a ks) b = .ok c ∧ indexAll x kss = .ok r ∧ c.Yields m limit r := by
  have hbb : b.Built m limit fwd false .whole := .stack (fun h => by rcases h with h | h <;> cases h) (fun h => absurd rfl h) hb hs
  obtain ⟨h1, h2, _, h4⟩ := hbb.fine
  obtain ⟨c, r, k1, k2, k3, _⟩ := C06_simple_keys fwd kss b x h1 h2 h4 hx hh
  exact ⟨c, r, k1, k2, k3⟩

/-- C12 fails of the code for two index arrays on a two-dimensional stack: NumPy zips them on the object array, and
`IndexError` is raised although orthogonal indexing would succeed. -/
theorem C12_two_index_arrays_fail :
    ∃ b : Arr ℚ, b.shape = .ok [2, 3] ∧
      Res.view (npIndex (⟨[2, 3], fun _ => (0 : ℚ)⟩ : NDA ℚ) [.tuple [0, 1], .tuple [0, 2]]) = .ok ([2, 2], [0, 0, 0, 0]) ∧
      (b.getitem [.tuple [0, 1], .tuple [0, 2]]).map (fun _ => ()) = .error .index :=
  ⟨.stack [2, 3] (fun _ => .const [] 0 0), by decide +kernel, by decide +kernel, by decide +kernel⟩

/-! ### C13: multidim_array_stack -/

/-- The position in the list of the array that is put at position `i`: row-major (C) or column-major (F) order. -/
def Order.rank : Order → List Nat → List Nat → Nat
  | .c => flatIndex
  | .f => colIndex

/-- C13.  `multidim_array_stack(arrays, shape, order)` of arrays which evaluate to arrays `x k` of one shape puts `x k` where
`np.reshape(range(n), shape, order)` has `k`. -/
theorem C13_multidim_array_stack (arrays : List (Arr α)) (x : Nat → NDA V) (shape s : List Nat) (order : Order)
    (hne : arrays ≠ []) (hlen : shape.prod = arrays.length)
    (h : ∀ k, k < arrays.length → (arrays.getD k default).Yields m limit (x k) ∧ (x k).shape = s) :
    ∃ b r, multidimArrayStack arrays shape order = .ok b ∧ b.Yields m limit r ∧ r.shape = shape ++ s ∧
      ∀ i j, InB shape i → InB s j → r.get (i ++ j) = (x (order.rank shape i)).get j := by
  have hq : shape.reverse.prod ≠ 0 := by
    rw [List.prod_reverse, hlen]; simpa using hne
  have hz : shape.prod ≠ 0 := by rw [hlen]; simpa using hne
  have inv0 : ∀ pos : Nat → List Nat → NDA V, (∀ k, pos k = fun _ => x k) → MdInv m limit s shape.reverse.prod [] pos arrays := by
    intro pos hpos
    refine ⟨by rw [List.prod_reverse, hlen], fun k hk => ?_⟩
    rw [List.prod_reverse, hlen] at hk
    rw [hpos k]
    exact ⟨(h k hk).1.congr (stacked_nil _), fun j _ => (h k hk).2⟩
  have fin : ∀ (l' : List (Arr α)) (pos : Nat → List Nat → NDA V), (∀ i, pos 0 i = x (order.rank shape i)) →
      MdInv m limit s 1 (shape.reverse.reverse ++ []) pos l' →
      shape.reverse.foldlM (fun l length => mdStep order length l) arrays = .ok l' →
      ∃ b r, multidimArrayStack arrays shape order = .ok b ∧ b.Yields m limit r ∧ r.shape = shape ++ s ∧
        ∀ i j, InB shape i → InB s j → r.get (i ++ j) = (x (order.rank shape i)).get j := by
    intro l' pos hpos hinv hl
    rw [List.reverse_reverse, List.append_nil] at hinv
    obtain ⟨h1, h2⟩ := hinv
    obtain ⟨y, hy⟩ := h2 0 (by omega)
    match l', h1 with
    | [b], _ =>
      refine ⟨b, _, ?_, y, ?_, ?_⟩
      · unfold multidimArrayStack
        simp only [hlen, ne_eq, not_true_eq_false, if_false, hl, bind, Except.bind]
        rfl
      · simp only [NDA.stacked]; rw [hy _ (inB_zeros shape hz)]
      · intro i j hi _
        simp only [NDA.stacked]
        rw [← hi.length, List.take_left' rfl, List.drop_left' rfl, hpos]
  cases order with
  | c =>
    obtain ⟨l', h1, h2⟩ := md_loop_c (x := x) shape.reverse [] arrays hq (by simp)
      (inv0 (fun k j => x (k * ([] : List Nat).prod + flatIndex [] j)) (fun k => by funext j; simp [flatIndex]))
    exact fin l' _ (fun i => by simp [Order.rank]) h2 h1
  | f =>
    obtain ⟨l', h1, h2⟩ := md_loop_f (x := x) shape.reverse [] arrays hq (by simp)
      (inv0 (fun k j => x (k + shape.reverse.prod * colIndex [] j)) (fun k => by funext j; simp [colIndex]))
    exact fin l' _ (fun i => by simp [Order.rank]) h2 h1

/-- C13.  A size mismatch raises `ValueError`. -/
theorem C13_size_mismatch (arrays : List (Arr α)) (shape : List Nat) (order : Order) (h : shape.prod ≠ arrays.length) :
    multidimArrayStack arrays shape order = .error .value := by
  unfold multidimArrayStack
  simp only [ne_eq, h, not_false_eq_true, if_true]
  rfl

example : Res.view (multidimArrayStack ((List.range 6).map (fun i => Arr.const [1] (i : ℚ) 0)) [2, 3] .c >>= fun a => a.eval exMode 100 1) =
      .ok ([2, 3, 1], [0, 1, 2, 3, 4, 5]) ∧
    Res.view (multidimArrayStack ((List.range 6).map (fun i => Arr.const [1] (i : ℚ) 0)) [2, 3] .f >>= fun a => a.eval exMode 100 1) =
      .ok ([2, 3, 1], [0, 2, 4, 1, 3, 5]) := by
  refine ⟨by decide +kernel, by decide +kernel⟩

end Biggus

import Verif.Props.Index
import Verif.Proofs.BroadcastArrays
import Verif.Proofs.MultiStack
import Verif.Model.Stacks
/-
C07 - C15: constants, new axes, broadcasts, transposition, stacks, mosaics, astype and masking.

`a.Yields m limit x` says that the array `a` announces the shape of `x` and that evaluating it returns `x`.  Here the
parts of a container may be any arrays that evaluate to something; for *indexed* containers the grammar of C06 applies
(all containers of this file belong to it).
-/
namespace Biggus
open Spec

variable {α V : Type} [Inhabited α] [Inhabited V] {m : Mode α V} {limit : Nat}

/-! ### C07: ConstantArray -/

theorem npIndex_const {s : List Nat} {v : V} {ks : List Key} {r : NDA V} (h : npIndex (⟨s, fun _ => v⟩ : NDA V) ks = .ok r) :
    ∀ idx, r.get idx = v := by
  obtain ⟨fk, σ, _, _, rfl⟩ := npIndex_ok_iff.mp h
  intro idx; rfl

/-- C07.  `ConstantArray(shape, v)[k1]...[kn]` (keys of any kind but lists) evaluates to an array of the shape NumPy gives,
filled with `v`. -/
theorem C07_constant_indexing (s : List Nat) (v : α) (dt : Nat) (kss : List (List Key)) (hl : ∀ ks ∈ kss, ∀ l, Key.list l ∉ ks)
    (r : NDA V) (hr : indexAll ⟨s, fun _ => m.const v⟩ kss = .ok r) :
    ∃ b, kss.foldlM (fun a ks => Arr.getitem a ks) (.const s v dt) = .ok b ∧ b.Yields m limit r ∧
      ∀ idx, r.get idx = m.const v := by
  induction kss generalizing s with
  | nil =>
    cases hr
    exact ⟨_, rfl, yields_const s v dt, fun _ => rfl⟩
  | cons ks kss ih =>
    unfold indexAll at hr
    rw [List.foldlM_cons] at hr
    obtain ⟨y, hy, hr⟩ := bind_ok.mp hr
    have hsh := C02_sliced_shape_is_numpy_shape _ y ks (hl ks List.mem_cons_self) hy
    have hyc := npIndex_const hy
    have hye : y = ⟨y.shape, fun _ => m.const v⟩ := by
      cases y with
      | mk ys yg => congr 1; funext i; exact hyc i
    rw [hye] at hr
    obtain ⟨b, h1, h2, h3⟩ := ih y.shape (fun ks hks => hl ks (List.mem_cons_of_mem _ hks)) hr
    refine ⟨b, ?_, h2, h3⟩
    rw [List.foldlM_cons]
    have : (Arr.const s v dt).getitem ks = .ok (.const y.shape v dt) := by
      unfold Arr.getitem
      have hs' : slicedShape s ks = .ok y.shape := hsh
      rw [hs']; rfl
    rw [this]
    exact h1

example : Res.view (indexAll (⟨[3, 4], fun _ => (7 : ℚ)⟩ : NDA ℚ) [[.tuple [0, 2, 2], .newaxis], [.slice ⟨none, none, some (-2)⟩, .int 0, .int (-1)]])
    = .ok ([2], [7, 7]) ∧
    Res.view ([[.tuple [0, 2, 2], .newaxis], [.slice ⟨none, none, some (-2)⟩, .int 0, .int (-1)]].foldlM
      (fun a ks => Arr.getitem a ks) (.const [3, 4] 7 0) >>= fun a => a.eval exMode 100 1) = .ok ([2], [7, 7]) := by
  refine ⟨by decide +kernel, by decide +kernel⟩

/-- C07 fails of the code for out-of-range indices: `ConstantArray((3,), 7)[5]` and `[(5, 6)]` are accepted, where NumPy
raises `IndexError`. -/
theorem C07_out_of_range_accepted :
    ∃ (s : List Nat) (v : ℚ), Res.view (npIndex (⟨s, fun _ => v⟩ : NDA ℚ) [.int 5]) = .error .index ∧
      Res.view ((Arr.const s v 0).getitem [.int 5] >>= fun a => a.eval exMode 100 1) = .ok ([], [7]) ∧
      Res.view ((Arr.const s v 0).getitem [.tuple [5, 6]] >>= fun a => a.eval exMode 100 1) = .ok ([2], [7, 7]) :=
  ⟨[3], 7, by decide +kernel, by decide +kernel, by decide +kernel⟩

/-- C07 fails of the code for a list as key: `ConstantArray((3,), 7)[[0, 2]]` raises `ValueError`, where NumPy (and any adapter) selects two
elements. -/
theorem C07_list_key_rejected :
    ∃ (s : List Nat) (v : ℚ), Res.view (npIndex (⟨s, fun _ => v⟩ : NDA ℚ) [.list [0, 2]]) = .ok ([2], [7, 7]) ∧
      ((Arr.const s v 0).getitem [.list [0, 2]]).map (fun a => a.shape) = .error .value :=
  ⟨[3], 7, by decide +kernel, by decide +kernel⟩

/-! ### C08: new axes -/

/-- C08.  A `NewAxesArray` over an array that evaluates to `x` evaluates to `x` with the length-1 dimensions inserted. -/
theorem C08_new_axes_array (a b : Arr α) (x : NDA V) (na : List Nat) (h : a.Yields m limit x) (hb : mkNewAxes a na = .ok b) :
    b.Yields m limit (x.insertAxes na) := by
  obtain ⟨h1, rfl⟩ := (mkNewAxes_iff h.1).mp hb
  exact yields_newAxes h h1

/-- C08.  `a[keys]` with `newaxis` anywhere among simple keys, and any later indexing of the result (in particular of the new
dimensions), gives what NumPy gives, for every expression of the grammar of C06. -/
theorem C08_newaxis_keys (fwd : Bool) (a : Arr α) (hb : a.Built m limit fwd false .whole) (pre post : List Key) (x : NDA V)
    (hx : a.Yields m limit x) (kss : List (List Key)) (hh : SimpleHistory fwd ((pre ++ Key.newaxis :: post) :: kss) x.shape) :
    ∃ b r, ((pre ++ Key.newaxis :: post) :: kss).foldlM (fun a ks => Arr.getitem a ks) a = .ok b ∧
      indexAll x ((pre ++ Key.newaxis :: post) :: kss) = .ok r ∧ b.Yields m limit r := by
  obtain ⟨h1, h2, _, h4⟩ := hb.fine
  obtain ⟨b, r, k1, k2, k3, _⟩ := C06_simple_keys fwd _ a x h1 h2 h4 hx hh
  exact ⟨b, r, k1, k2, k3⟩

example : Res.view ((Arr.adapter true exSource []).getitem [.newaxis, .int 1, .slice ⟨none, none, some (-1)⟩, .newaxis, .newaxis] >>= fun a =>
      a.getitem [.int 0, .ellipsis, .newaxis, .slice ⟨some 0, some 1, none⟩] >>= fun b => b.eval exMode 100 3) =
    Res.view ((indexAll exSource.data [[.newaxis, .int 1, .slice ⟨none, none, some (-1)⟩, .newaxis, .newaxis],
      [.int 0, .ellipsis, .newaxis, .slice ⟨some 0, some 1, none⟩]]).map (fun x => x.map (·.getD 0))) := by decide +kernel

/-- C08 fails of the code when a new axis is cut after an earlier integer: the length of the wrong dimension is changed.
With `x` of shape (3,) and `y = x[newaxis, :, newaxis]`, `y[0, :, 0:0]` has shape (3, 0) in NumPy; biggus gives something
else. -/
theorem C08_new_axis_after_integer_wrong :
    ∃ (c : Concrete ℚ) (ks : List Key),
      Res.view ((npIndex c.data [.newaxis, Key.full, .newaxis]).bind (fun y => npIndex y ks)) = .ok ([3, 0], []) ∧
      Res.view ((Arr.adapter true c []).getitem [.newaxis, Key.full, .newaxis] >>= fun a => a.getitem ks >>= fun b =>
        b.eval exMode 100 3) ≠ .ok ([3, 0], []) :=
  ⟨⟨⟨[3], fun i => some (i.headD 0 : Nat)⟩, 0, 0⟩, [.int 0, Key.full, .slice ⟨some 0, some 0, none⟩], by decide +kernel, by decide +kernel⟩

/-! ### C09: BroadcastArray -/

/-- C09.  `BroadcastArray(a, broadcast, leading_shape)` is accepted when every axis of `broadcast` has length 1 and no leading
dimension is empty; it then has the announced shape, and its element at `idx` is the element of `x` with the leading
coordinates dropped and 0 on the broadcast axes.  `a` may itself be a broadcast without leading dimensions
(`Arr.YieldsFlat`). -/
theorem C09_broadcast_repeats_data (a : Arr α) (x : NDA V) (d : List (Nat × Nat)) (lead : List Nat) (h : a.YieldsFlat m limit x)
    (hn : (d.map Prod.fst).Nodup) (h1 : ∀ p ∈ d, x.shape[p.1]? = some 1) (hl : ∀ l ∈ lead, 1 ≤ l) :
    ∃ b r, mkBcast a d lead = .ok b ∧ b.Yields m limit r ∧
      r.shape = lead ++ (List.range x.shape.length).map (fun i => (d.lookup i).getD (x.shape.getD i 0)) ∧
      ∀ idx, InB r.shape idx → r.get idx = x.get ((List.range x.shape.length).map
        (fun i => if i ∈ d.map Prod.fst then 0 else idx.getD (lead.length + i) 0)) := by
  obtain ⟨b, hb, hy, _⟩ := yields_mkBcast h hn h1 hl
  refine ⟨b, _, hb, hy, ?_, fun idx hi => ?_⟩
  · simp only [NDA.stretch]
    congr 1
    refine List.ext_getElem? (fun i => ?_)
    rw [bcShape_getElem?]
    by_cases hi : i < x.shape.length
    · simp [hi]
    · simp [hi]
  · simp only [NDA.stretch] at hi ⊢
    congr 1
    have hlen : (idx.drop lead.length).length = x.shape.length := by
      have := hi.length
      simp only [List.length_append, bcShape_length] at this
      simp; omega
    refine List.ext_getElem? (fun i => ?_)
    rw [bcIdx_getElem?]
    by_cases hi' : i < x.shape.length
    · have : i < (idx.drop lead.length).length := by omega
      rw [List.getElem?_eq_getElem this]
      simp only [List.getElem_drop, Option.map_some, hi', List.length_map, List.length_range, List.getElem?_eq_getElem,
        List.getElem_map, List.getElem_range]
      have hlk : ((d.lookup (0 + i)).isSome = true) ↔ i ∈ d.map Prod.fst := by
        rw [Nat.zero_add, lookup_isSome_iff]; simp
      simp only [hlk]
      rw [List.getD_eq_getElem]
    · rw [List.getElem?_eq_none (by omega)]
      simp [hi']

example : Res.view (mkBcast (.bcast (.adapter true (⟨⟨[1, 3, 1], fun i => some (i.getD 1 0 : Nat)⟩, 0, 0⟩ : Concrete ℚ) []) [(0, 2)] []) [(2, 2)] [2] >>=
    fun a => a.eval exMode 100 1) = .ok ([2, 2, 3, 2], [0, 0, 1, 1, 2, 2, 0, 0, 1, 1, 2, 2, 0, 0, 1, 1, 2, 2, 0, 0, 1, 1, 2, 2]) := by
  decide +kernel

omit [Inhabited α] in
/-- C09.  Everything else is rejected with `ValueError` (for an array that is not a broadcast itself). -/
theorem C09_invalid_broadcast_rejected (a : Arr α) (s : List Nat) (hs : a.shape = .ok s) (ha : a.notBcast = true)
    (d : List (Nat × Nat)) (lead : List Nat) (hn : (d.map Prod.fst).Nodup)
    (hbad : (∃ p ∈ d, s[p.1]? ≠ some 1) ∨ ∃ l ∈ lead, l < 1) : mkBcast a d lead = .error .value := by
  rw [mkBcast_notBcast ha]
  rcases mkBcastFlat_error (lead := lead) (d := d) hs with ⟨b, hb⟩ | hb
  · obtain ⟨h1, h2, _⟩ := (mkBcastFlat_iff hs hn).mp hb
    rcases hbad with ⟨p, hp, hne⟩ | ⟨l, hl, hlt⟩
    · exact absurd (h1 p hp) hne
    · exact absurd (h2 l hl) (by omega)
  · exact hb

example : (∃ p ∈ [(1, 4)], ([1, 3] : List Nat)[p.1]? ≠ some 1) := by decide

/-- C09 fails of the code for a broadcast of a broadcast that has leading dimensions: the axis numbers of the outer broadcast
are applied to the innermost array.  `BroadcastArray(BroadcastArray(x, {}, (1,)), {0: 5})` with `x` of shape (1,) ought to
have shape (5, 1), and has shape (1, 5). -/
theorem C09_nested_leading_misaligned :
    ∃ (x b : Arr ℚ), mkBcast x [] [1] = .ok b ∧ b.shape = .ok [1, 1] ∧
      (mkBcast b [(0, 5)] [] >>= fun c => c.shape) = .ok [1, 5] :=
  ⟨.const [1] 0 0, .bcast (.const [1] 0 0) [] [1], rfl, by decide +kernel, by decide +kernel⟩

/-- C09: a scalar key out of range is accepted on a leading dimension. -/
theorem C09_leading_out_of_range_accepted :
    ∃ (b : Arr ℚ), b.shape = .ok [2, 3] ∧ Res.view (b.getitem [.int 7] >>= fun c => c.eval exMode 100 1) = .ok ([3], [0, 0, 0]) :=
  ⟨.bcast (.const [3] 0 0) [] [2], by decide +kernel, by decide +kernel⟩

/-! ### C10: broadcasting two arrays -/

/-- C10.  Two arrays that evaluate to `x` and `y` are broadcast by `broadcast_arrays` exactly when NumPy's rule allows; the
results then evaluate to `np.broadcast_arrays(x, y)`, otherwise `ValueError` is raised.  Partial: dimensions which one
of the arrays does not have must not be empty in the other (see `C10_empty_leading_dimension_rejected`), and an array
that already is a broadcast must not have leading dimensions (`C10_leading_broadcast_rejected`). -/
theorem C10_broadcast_arrays_partial (a b : Arr α) (x y : NDA V) (ha : a.YieldsFlat m limit x) (hb : b.YieldsFlat m limit y) :
    (∀ r, Broadcasts x.shape y.shape r → (∀ l ∈ r.take (r.length - min x.shape.length y.shape.length), 1 ≤ l) →
      ∃ a' b', broadcastArrays a b = .ok (a', b') ∧ a'.Yields m limit (broadcastTo x r) ∧ b'.Yields m limit (broadcastTo y r)) ∧
    ((¬ ∃ r, Broadcasts x.shape y.shape r) → broadcastArrays a b = .error .value) := by
  constructor
  · intro r hr hl
    have hlen := hr.1
    refine yields_broadcastArrays ha hb hr (fun l h => hl l ?_) (fun l h => hl l ?_)
    · exact List.mem_of_mem_take (l := r.take (r.length - min x.shape.length y.shape.length)) (i := r.length - x.shape.length)
        (by rw [List.take_take, Nat.min_eq_left (by omega)]; exact h)
    · exact List.mem_of_mem_take (l := r.take (r.length - min x.shape.length y.shape.length)) (i := r.length - y.shape.length)
        (by rw [List.take_take, Nat.min_eq_left (by omega)]; exact h)
  · intro h
    unfold broadcastArrays
    rw [ha.yields.1, hb.yields.1]
    simp only [bind, Except.bind]
    rw [computeBcastShape_error h]

example : Broadcasts [3, 1] [2, 1, 4] [2, 3, 4] ∧ ¬ ∃ r, Broadcasts [3] [2, 4] r := by
  constructor
  · rw [← computeBcastShape_iff]; decide +kernel
  · rintro ⟨r, h⟩
    rw [← computeBcastShape_iff] at h
    have : computeBcastShape [3] [2, 4] = .error .value := by decide +kernel
    rw [this] at h; cases h

omit [Inhabited α] in
/-- C10.  Swapping the arguments swaps the results. -/
theorem C10_broadcast_arrays_symmetric (a b a' b' : Arr α) : broadcastArrays a b = .ok (a', b') ↔ broadcastArrays b a = .ok (b', a') :=
  ⟨broadcastArrays_swap, broadcastArrays_swap⟩

/-- C10 fails of the code for an empty dimension which the other array does not have: NumPy broadcasts (3,) and (0, 3) to
(0, 3), `broadcast_arrays` raises `ValueError`. -/
theorem C10_empty_leading_dimension_rejected :
    Broadcasts [3] [0, 3] [0, 3] ∧ (broadcastArrays (.const [3] (0 : ℚ) 0) (.const [0, 3] 0 0)).map (fun _ => ()) = .error .value := by
  constructor
  · rw [← computeBcastShape_iff]; decide +kernel
  · decide +kernel

/-- C10 fails of the code when one array already is a broadcast with leading dimensions: (5, 1) and (5, 4) are compatible,
but `ValueError` is raised. -/
theorem C10_leading_broadcast_rejected :
    ∃ a : Arr ℚ, a.shape = .ok [5, 1] ∧ Broadcasts [5, 1] [5, 4] [5, 4] ∧
      ((broadcastArrays a (.const [5, 4] 0 0)).bind (fun p => p.1.shape)) ≠ .ok [5, 4] := by
  refine ⟨.bcast (.const [1] 0 0) [] [5], by decide +kernel, ?_, by decide +kernel⟩
  rw [← computeBcastShape_iff]; decide +kernel

end Biggus

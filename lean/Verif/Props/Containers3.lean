import Verif.Props.Containers2
/-
C14, C15: mosaics, astype and masking.
-/
namespace Biggus
open Spec

variable {α V : Type} [Inhabited α] [Inhabited V] {m : Mode α V} {limit : Nat}

/-! ### C14: LinearMosaic -/

/-- C14.  A mosaic of tiles which evaluate to arrays `x i`, equal in shape except along `axis`, is accepted and evaluates to
their concatenation: along `axis`, tile `t` begins where the tiles before it end. -/
theorem C14_linear_mosaic (tiles : List (Arr α)) (x : Nat → NDA V) (s : List Nat) (axis : Nat) (h0 : tiles ≠ [])
    (hax : axis < s.length)
    (h : ∀ i, i < tiles.length → (tiles.getD i default).Yields m limit (x i) ∧ ∃ k, (x i).shape = s.set axis k) :
    ∃ b r, mkMosaic tiles axis = .ok b ∧ b.Yields m limit r ∧
      r.shape = s.set axis ((List.range tiles.length).map (fun i => (x i).shape.getD axis 0)).sum ∧
      ∀ t idx, t < tiles.length → InB (x t).shape idx →
        r.get (idx.set axis (((List.range t).map (fun i => (x i).shape.getD axis 0)).sum + idx.getD axis 0)) = (x t).get idx := by
  have hpos := List.length_pos_iff.mpr h0
  refine ⟨_, _, mkMosaic_iff.mpr ⟨h0, ⟨s, hax, fun t ht => ?_⟩, rfl⟩, yields_mosaic hpos hax h, ?_, ?_⟩
  · obtain ⟨i, hi, rfl⟩ := List.getElem_of_mem ht
    obtain ⟨h1, k, hk⟩ := h i hi
    rw [List.getD_eq_getElem _ _ hi] at h1
    exact ⟨k, by rw [h1.1, hk]⟩
  · simp only [NDA.concat]
    obtain ⟨k, hk⟩ := (h 0 hpos).2
    rw [hk, List.set_set]
  · intro t idx ht hi
    obtain ⟨k, hk⟩ := (h t ht).2
    have hil : axis < idx.length := by rw [hi.length, hk]; simpa using hax
    simp only [NDA.concat]
    have hg : (idx.set axis (((List.range t).map (fun i => (x i).shape.getD axis 0)).sum + idx.getD axis 0)).getD axis 0 =
        ((List.range t).map (fun i => (x i).shape.getD axis 0)).sum + idx.getD axis 0 := by
      rw [List.getD_eq_getElem _ _ (by simpa using hil)]; simp
    have htk : (List.range t).map (fun i => (x i).shape.getD axis 0) =
        ((List.range tiles.length).map (fun i => (x i).shape.getD axis 0)).take t := by
      rw [← List.map_take, List.take_range, Nat.min_eq_left ht.le]
    have hloc := locate_offset ((List.range tiles.length).map (fun i => (x i).shape.getD axis 0)) t ((x t).shape.getD axis 0)
      (idx.getD axis 0) (by simp [ht]) (inB_getD hi axis (by rw [hk]; simpa using hax))
    rw [hg, htk, hloc]
    simp only
    rw [List.set_set]
    congr 1
    rw [List.getD_eq_getElem _ _ hil]
    exact List.set_getElem_self hil

example : Res.view (mkMosaic [Arr.adapter false exSource [Key.full, .slice ⟨some 1, none, none⟩, .int 0], .const [2, 1] 7 0, .const [2, 0] 7 0,
      .adapter true exSource [Key.full, .int 0]] 1 >>= fun a => a.eval exMode 100 1) =
    .ok ([2, 7], [4, 8, 7, 0, 1, 2, 3, 16, 20, 7, 12, 13, 14, 15]) := by decide +kernel

/-- C14.  Indexing a mosaic any number of times with simple keys (non-negative integers, slices with positive step that
select something, `...`, `newaxis`) equals indexing the concatenation.  The tiles are expressions of the grammar of C06
that may be tiles: orthogonal sources, constants, and transposes, stacks, mosaics, casts, masks, aggregations and
element-wise operations of such.  Partial: negative integers, negative steps, empty slices and boolean arrays are
excluded, see the counter-examples below. -/
theorem C14_mosaic_indexing_partial (tiles : List (Arr α)) (axis : Nat) (b : Arr α) (x : NDA V)
    (hb : ∀ t ∈ tiles, t.Built m limit true true .whole) (hm : mkMosaic tiles axis = .ok b) (hx : b.Yields m limit x)
    (hpos : 0 < x.shape.getD axis 0) (kss : List (List Key)) (hh : SimpleHistory true kss x.shape) :
    ∃ c r, kss.foldlM (fun a ks => Arr.getitem a ks) b = .ok c ∧ indexAll x kss = .ok r ∧ c.Yields m limit r := by
  have hbb : b.Built m limit true false .whole := .mosaic rfl (fun h => absurd rfl h) hb hm
    (fun s hs => by rw [hx.1] at hs; cases hs; exact hpos)
  obtain ⟨h1, h2, _, h4⟩ := hbb.fine
  obtain ⟨c, r, k1, k2, k3, _⟩ := C06_simple_keys true kss b x h1 h2 h4 hx hh
  exact ⟨c, r, k1, k2, k3⟩

/-- C14, with index arrays: one key for each dimension; every key is a non-negative integer, a slice with positive step or an
array of distinct non-negative indices, none selecting nothing. -/
theorem C14_mosaic_index_arrays_partial (tiles : List (Arr α)) (axis : Nat) (b : Arr α) (x : NDA V)
    (hb : ∀ t ∈ tiles, t.Built m limit true true .whole) (hm : mkMosaic tiles axis = .ok b) (hx : b.Yields m limit x)
    (hpos : 0 < x.shape.getD axis 0) (ks : List Key) (hk : List.Forall₂ (SimpleKey true true) ks x.shape) :
    ∃ c r, b.getitem ks = .ok c ∧ npIndex x ks = .ok r ∧ c.Yields m limit r := by
  have hbb : b.Built m limit true true .whole := .mosaic rfl (fun h => absurd rfl h) hb hm
    (fun s hs => by rw [hx.1] at hs; cases hs; exact hpos)
  obtain ⟨h1, h2, _, h4⟩ := hbb.fine
  have hd : b.den m ≈ₐ x := (hx.2.den_eqv h1 h2).symm
  obtain ⟨g1, g2⟩ := simple_ok m false true b true .whole h1 h4 ks (by rw [hd.1]; exact hk)
  obtain ⟨σ, hσ, _⟩ := simpleKeys_resolve hk
  have he : expandKeys ks x.shape.length = .ok ks := expand_resolve (simpleKeys_exact hk) hσ
  have hr : npIndex x ks = .ok (x.ortho σ) := npIndex_ok_iff.mpr ⟨ks, σ, he, hσ, rfl⟩
  obtain ⟨c, k1, k2, k3, k4, _⟩ := index_returns m limit false h1 h2 hd he g1 g2 hr
  exact ⟨c, _, k1, hr, (Arr.Yields.of_den k2 k3).congr k4⟩

/-- A mosaic along axis 0 of tiles of lengths 2 and 3 over an orthogonal source. -/
def exMosaic : Arr ℚ := .mosaic 2 (fun i => if i = 0 then .adapter true ⟨⟨[2, 2], fun i => some (flatIndex [2, 2] i : Nat)⟩, 0, 0⟩ []
  else .adapter true ⟨⟨[3, 2], fun i => some (4 + flatIndex [3, 2] i : Nat)⟩, 0, 0⟩ []) 0

example : Res.view (exMosaic.eval exMode 100 1) = .ok ([5, 2], [0, 1, 2, 3, 4, 5, 6, 7, 8, 9]) ∧
    Res.view (exMosaic.getitem [.iarr [4, 0, 1, 3], .int 1] >>= fun a => a.eval exMode 100 1) = .ok ([4], [9, 1, 3, 7]) ∧
    List.Forall₂ (SimpleKey true true) [.iarr [4, 0, 1, 3], .int 1] [5, 2] := by
  refine ⟨by decide +kernel, by decide +kernel, .cons (Or.inr (Or.inr ⟨rfl, _, Or.inl rfl, by simp, by decide, by decide⟩))
    (.cons (Or.inl ⟨1, rfl, by decide, by simp⟩) .nil)⟩

/-- C14 fails of the code for a negative integer: `m[-1]` is not the last element (tile lengths 2 and 3: it is element 2), and
`m[-4]` raises `IndexError`. -/
theorem C14_negative_integer_wrong :
    Res.view (exMosaic.eval exMode 100 1 >>= fun x => npIndex x [.int (-1)]) = .ok ([2], [8, 9]) ∧
    Res.view (exMosaic.getitem [.int (-1)] >>= fun a => a.eval exMode 100 1) = .ok ([2], [4, 5]) ∧
    Res.view (exMosaic.getitem [.int (-4)] >>= fun a => a.eval exMode 100 1) = .error .index := by
  refine ⟨by decide +kernel, by decide +kernel, by decide +kernel⟩

/-- C14 fails of the code for a slice with negative step that crosses tiles: the tiles are put in the wrong order. -/
theorem C14_negative_step_wrong :
    Res.view (exMosaic.eval exMode 100 1 >>= fun x => npIndex x [.slice ⟨none, none, some (-1)⟩, .int 0]) = .ok ([5], [8, 6, 4, 2, 0]) ∧
    Res.view (exMosaic.getitem [.slice ⟨none, none, some (-1)⟩, .int 0] >>= fun a => a.eval exMode 100 1) = .ok ([5], [2, 0, 8, 6, 4]) := by
  refine ⟨by decide +kernel, by decide +kernel⟩

/-- C14 fails of the code for a slice that selects nothing (`IndexError`), and for a boolean array (`TypeError`). -/
theorem C14_empty_slice_and_mask_fail :
    Res.view (exMosaic.eval exMode 100 1 >>= fun x => npIndex x [.slice ⟨some 2, some 2, none⟩]) = .ok ([0, 2], []) ∧
    Res.view (exMosaic.getitem [.slice ⟨some 2, some 2, none⟩] >>= fun a => a.eval exMode 100 1) = .error .index ∧
    Res.view (exMosaic.getitem [.barr [true, false, false, true, false]] >>= fun a => a.eval exMode 100 1) = .error .type := by
  refine ⟨by decide +kernel, by decide +kernel, by decide +kernel⟩

/-- C14 fails of the code for NumPy tiles: with two NumPy sources of shape (2, 2, 4) side by side along axis 2, `m[0, :, 1:7]`
gives the tiles an integer and an index array separated by a slice, which they read transposed: an exception is
raised. -/
theorem C14_numpy_tiles_fail :
    ∃ b : Arr ℚ, b.shape = .ok [2, 2, 8] ∧
      (b.getitem [.int 0, Key.full, .slice ⟨some 1, some 7, none⟩] >>= Arr.shape) = .ok [2, 6] ∧
      Res.view (b.getitem [.int 0, Key.full, .slice ⟨some 1, some 7, none⟩] >>= fun a => a.eval exMode 100 1) = .error .value :=
  ⟨.mosaic 2 (fun _ => .adapter false ⟨⟨[2, 2, 4], fun i => some (flatIndex [2, 2, 4] i : Nat)⟩, 0, 0⟩ []) 2,
    by decide +kernel, by decide +kernel, by decide +kernel⟩

/-! ### C15: astype and masking -/

/-- C15.  `a.astype(t)` evaluates to the cast elements (for an array that is not itself the result of an `astype`). -/
theorem C15_astype (a : Arr α) (x : NDA V) (dt : Nat) (ha : ∀ b d, a ≠ .asType b d) (h : a.Yields m limit x) :
    (a.astype dt).Yields m limit (x.map (m.cast dt)) := by
  have : a.astype dt = .asType a dt := by
    unfold Arr.astype
    split
    · rename_i b d; exact absurd rfl (ha b d)
    · rfl
  rw [this]
  exact yields_asType dt h

/-- C15.  `a.astype(t)[k]` is `a[k]` cast to `t`: whenever `a[k]` evaluates to `y`, `a.astype(t)[k]` evaluates to `y` cast to
`t`; and it fails exactly when `a[k]` does. -/
theorem C15_astype_indexing (a : Arr α) (dt : Nat) (ks : List Key) :
    (∀ b (y : NDA V), a.getitem ks = .ok b → b.Yields m limit y →
      ∃ c, (Arr.asType a dt).getitem ks = .ok c ∧ c.Yields m limit (y.map (m.cast dt))) ∧
    (∀ e, a.getitem ks = .error e ↔ (Arr.asType a dt).getitem ks = .error e) := by
  constructor
  · intro b y hb hy
    refine ⟨.asType b dt, ?_, yields_asType dt hy⟩
    unfold Arr.getitem; rw [hb]; rfl
  · intro e
    show _ ↔ (a.getitem ks >>= fun b => pure (Arr.asType b dt)) = .error e
    cases a.getitem ks with
    | ok b => simp [bind, Except.bind, pure, Except.pure]
    | error e' => simp [bind, Except.bind]

/-- C15.  `masked_equal(a, v)[k].masked_array()`: the elements equal to `v` are masked, the masked ones stay masked, all others
are unchanged. -/
theorem C15_mask_indexing [Field α] [LinearOrder α] (sqrt : α → α) (cast : Nat → α → α) (a b : Arr α) (v : α) (ks : List Key)
    (y : NDA (Option α)) (hb : a.getitem ks = .ok b) (hy : b.Yields (maMode sqrt cast) limit y) :
    ∃ c r, (Arr.maskVal a v).getitem ks = .ok c ∧ c.Yields (maMode sqrt cast) limit r ∧ r.shape = y.shape ∧
      ∀ idx, (r.get idx = none ↔ y.get idx = none ∨ y.get idx = some v) ∧ ∀ z, r.get idx = some z ↔ y.get idx = some z ∧ z ≠ v := by
  refine ⟨.maskVal b v, _, ?_, yields_maskVal v hy, rfl, fun idx => ?_⟩
  · unfold Arr.getitem; rw [hb]; rfl
  · simp only [NDA.map, maMode]
    constructor
    · split <;> simp_all
    · intro z
      split
      · rename_i h
        rw [h]
        simp only [reduceCtorEq, Option.some.injEq, false_iff, not_and, not_not]
        exact fun h => h.symm
      · rename_i h
        constructor
        · intro hz; refine ⟨hz, ?_⟩; rintro rfl; exact h hz
        · exact fun h => h.1

example : Res.view ((Arr.maskVal (.adapter false exSource []) 5).getitem [.int 0, .int 1] >>= fun a =>
    a.eval (maMode id (fun _ x => x)) 100 1) = .ok ([4], [some 4, none, some 6, some 7]) := by decide +kernel

/-- A cast that truncates to integers for dtype 1 and does nothing for other dtypes. -/
def exCast (d : Nat) (x : ℚ) : ℚ := if d = 1 then (x.num / (x.den : ℤ) : ℤ) else x

/-- C15 fails of the code for chained casts: `a.astype(int).astype(float)` casts the original array once; the elements ought
to be truncated. -/
theorem C15_chained_astype_casts_once :
    Res.view (((Arr.const [1] (5 / 2 : ℚ) 0).astype 1).eval (ndMode id exCast) 100 1) = .ok ([1], [2]) ∧
    Res.view ((((Arr.const [1] (5 / 2 : ℚ) 0).astype 1).astype 0).eval (ndMode id exCast) 100 1) = .ok ([1], [5 / 2]) := by
  refine ⟨by decide +kernel, by decide +kernel⟩

end Biggus

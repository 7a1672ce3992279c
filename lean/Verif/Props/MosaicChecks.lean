import Verif.Spec.MosaicChecks
import Verif.Props.Refuse
import Verif.Props.Adapters
/-
C75 for the dimensions of a mosaic after the one along which its tiles are put together.
-/
namespace Biggus

open Spec

variable {α V : Type} [Inhabited α] [Inhabited V]

theorem groupTiles_nonempty (lens : List Nat) {r : List Int} (h : r ≠ []) : groupTiles lens r ≠ [] := by
  cases r with
  | nil => exact absurd rfl h
  | cons i is =>
    simp only [groupTiles]
    split
    · split <;> simp
    · simp

/-- A mosaic (of tiles of any kind) of length 0 along its axis: any integer for a dimension after the axis raises `IndexError`, in range or not (no tile is selected, and a mosaic
of no tiles has no first tile, _init.py:1919).  For integers in range the code is wrong here: NumPy gives an empty result (below). -/
theorem C75_empty_mosaic (n axis : Nat) (tiles : Nat → Arr α) (hwf : (Arr.mosaic n tiles axis).WF) {s : List Nat} (hs : (Arr.mosaic n tiles axis).shape = .ok s)
    {p : Nat} (hax : axis < p) (hps : p < s.length) (h0 : s[axis]? = some 0) (i : Int) (keys : List Key)
    (hk : expandKeys keys s.length = .ok (oneInt p i (s.length - p - 1))) : (Arr.mosaic n tiles axis).getitem keys = .error .index := by
  have hs0 := hs
  obtain ⟨hm, st, hax', hit⟩ := hwf
  rw [Arr.getitem, arrayGetitem_exact hs0 hk (oneInt_exact p i (s.length - p - 1))]
  obtain ⟨k0, hk0⟩ := (hit 0 hm).2
  rw [Arr.shape, bind_val hk0] at hs
  obtain ⟨lens, hl, hs⟩ := bind_ok.mp hs
  cases hs
  unfold mosaicFull
  rw [trimKeys_oneInt, show List.replicate p Key.full ++ [Key.int i] = oneInt p i 0 from rfl]
  simp only [oneInt_length]
  rw [if_neg (by omega), bind_val hl]
  have hget : (oneInt p i 0).getD axis Key.full = Key.full := by
    unfold oneInt
    rw [List.getD_eq_getElem?_getD, List.getElem?_append_left (by simpa using hax), List.getElem?_replicate, if_pos hax]; rfl
  unfold mosaicAxis
  rw [hget]
  obtain ⟨r, hr, hrl⟩ := range_full lens.sum
  simp only [Key.full]
  rw [bind_val hr]
  simp only [List.length_set] at *
  rw [List.getElem?_set_self (by simpa using hax'), Option.some.injEq] at h0
  have hr0 : r = [] := List.eq_nil_of_length_eq_zero (by omega)
  subst hr0
  unfold mosaicMany
  cases hneg : PySlice.full.negStep <;> rfl

/-- Any well-typed keys (integers, slices, sequences, masks) with an integer out of range for a dimension of a source raise `IndexError`, whatever the other keys are. -/
theorem getitem_rejects_keys (a : Arr α) : ∀ {s : List Nat} {keys fk : List Key} {p n : Nat} {i : Int}, a.WF → a.shape = .ok s → a.overSource p →
    s[p]? = some n → expandKeys keys s.length = .ok fk → (∀ k ∈ fk, k.wellTyped) → fk[p]? = some (.int i) → (i < -n ∨ n ≤ i) → a.getitem keys = .error .index := by
  have hexa : ∀ {fk : List Key}, (∀ k ∈ fk, k.wellTyped) → Exact fk := by
    intro fk h k hk
    have := h k hk
    cases k <;> first | exact ⟨rfl, rfl⟩ | exact this.elim
  have hlen : ∀ {keys fk : List Key} {n : Nat}, (∀ k ∈ fk, k.wellTyped) → expandKeys keys n = .ok fk → fk.length = n := by
    intro keys fk n h hk
    have := (expandKeys_spec hk).2
    rwa [nConsuming_exact (hexa h)] at this
  have hfull : (Key.full : Key).wellTyped := by simp [Key.full, Key.wellTyped, PySlice.full]
  induction a with
  | adapter o c stored =>
    intro s keys fk p n i hwf hs hc hp hk hw hkp hi
    obtain ⟨hst, x, hx⟩ := hwf
    let m : Mode α (Option α) := ⟨fun _ x => x, fun _ x => x, some, fun _ x => x, fun _ x => x, fun _ => ⟨Unit, (), fun _ _ => (), fun _ _ => none, none⟩,
      fun _ => none, fun _ => none⟩
    have hxs : (Arr.adapter o c stored).shape = .ok x.shape := by
      have := (show (Arr.adapter o c stored).WF from ⟨hst, x, hx⟩).shape_eq m
      rw [den_adapter m _ _ _ x hx] at this
      exact this
    rw [hs] at hxs
    cases hxs
    have he := hexa hw
    have hfk := expand_exact he (hlen hw hk)
    have hsl : slicedShape c.data.shape stored = .ok x.shape := by rw [Arr.shape] at hs; exact hs
    rw [Arr.getitem, arrayGetitem_exact hsl hk he]
    have h := C05_out_of_range_is_rejected o c stored fk x (fun k hk => ⟨hst k hk, fun l hkl => hc l (hkl ▸ hk)⟩) hx (fun k hk => Or.inr (hw k hk))
      (by rw [List.filter_eq_nil_iff.mpr (fun k hk => by rw [(he k hk).2]; decide)]; simp)
    rw [Arr.getitem, arrayGetitem_exact hsl hfk he] at h
    refine h.2 ?_
    rintro ⟨y, hy⟩
    obtain ⟨fk', τ, f1, f2, _⟩ := npIndex_ok_iff.mp hy
    rw [hfk] at f1
    cases f1
    refine outside_resolve_new (seq := false) (p := p) (n := n) (k := .int i) (fun k hk => (he k hk).2) f2 ?_ hp (Or.inl ⟨i, rfl, hi⟩)
    have : dropNew fk = fk := List.filter_eq_self.mpr (fun k hk => by simp [(he k hk).1])
    rw [this]; exact hkp
  | transposed a axes ih =>
    intro s keys fk p n i hwf hs hc hp hk hw hkp hi
    have hs0 := hs
    have hl := hlen hw hk
    have he := hexa hw
    obtain ⟨hwa, sa, hsa, hperm⟩ := hwf
    rw [Arr.shape, bind_val hsa] at hs
    rw [Arr.getitem, arrayGetitem_exact hs0 hk he]
    obtain ⟨x, hx, hc⟩ := hc
    rw [axesForward_ok axes sa 0 hperm] at hs
    cases hs
    have hal := hperm.length_eq
    rw [List.length_range] at hal
    rw [List.length_map] at hl
    unfold transposedFull
    have hperm' : axes.Perm (List.range fk.length) := by rw [hl, hal]; exact hperm
    rw [axesInverse_ok axes fk Key.full hperm']
    rw [bind_val rfl]
    refine bind_err ?_
    have hxl : x < sa.length := by
      have := hperm.mem_iff.mp (List.mem_of_getElem? hx); simpa using this
    rw [List.getElem?_map, hx, Option.map_some, Option.some.injEq] at hp
    have hxs : sa[x]? = some n := by
      rw [← hp, List.getD_eq_getElem?_getD, List.getElem?_eq_getElem hxl]; rfl
    have hmap : ∀ k ∈ (List.range fk.length).map (fun i => fk.getD (axes.idxOf i) Key.full), k.wellTyped := by
      intro y hy
      obtain ⟨i, _, rfl⟩ := List.mem_map.mp hy
      rw [List.getD_eq_getElem?_getD]
      cases hg : fk[axes.idxOf i]? with
      | none => exact hfull
      | some y => exact hw y (List.mem_of_getElem? hg)
    refine ih hwa hsa hc hxs (expand_exact (hexa hmap) (by simp; omega)) hmap ?_ hi
    rw [List.getElem?_map, List.getElem?_range (by omega), Option.map_some, Option.some.injEq]
    have hnd : axes.Nodup := hperm.nodup_iff.mpr List.nodup_range
    obtain ⟨hpl, hxe⟩ := List.getElem?_eq_some_iff.mp hx
    have : axes.idxOf x = p := by rw [← hxe]; exact hnd.idxOf_getElem p hpl
    rw [this, List.getD_eq_getElem?_getD, hkp]; rfl
  | asType a dt ih =>
    intro s keys fk p n i hwf hs hc hp hk hw hkp hi
    rw [Arr.getitem]
    exact bind_err (ih hwf hs hc hp hk hw hkp hi)
  | maskVal a v ih =>
    intro s keys fk p n i hwf hs hc hp hk hw hkp hi
    rw [Arr.getitem]
    exact bind_err (ih hwf hs hc hp hk hw hkp hi)
  | agg a axis kd ih =>
    intro s keys fk p n i hwf hs hc hp hk hw hkp hi
    have hs0 := hs
    have hl := hlen hw hk
    have he := hexa hw
    obtain ⟨hwa, sa, hsa, hax⟩ := hwf
    rw [Arr.shape, bind_val hsa] at hs
    cases hs
    rw [Arr.getitem, arrayGetitem_exact hs0 hk he]
    rw [List.length_eraseIdx_of_lt hax] at hl
    unfold aggFull
    refine bind_err ?_
    have hex : ∀ k ∈ fk.take axis ++ [Key.full] ++ fk.drop axis, k.wellTyped := by
      intro y hy
      simp only [List.mem_append, List.mem_singleton] at hy
      rcases hy with (hy | rfl) | hy
      · exact hw y (List.mem_of_mem_take hy)
      · exact hfull
      · exact hw y (List.mem_of_mem_drop hy)
    rw [List.getElem?_eraseIdx] at hp
    refine ih hwa hsa hc ?_ (expand_exact (hexa hex) (by simp; omega)) hex ?_ hi
    · by_cases hpa : p < axis
      · rw [if_pos hpa] at hp ⊢; exact hp
      · rw [if_neg hpa] at hp ⊢; exact hp
    · have hpl := (List.getElem?_eq_some_iff.mp hkp).1
      by_cases hpa : p < axis
      · rw [if_pos hpa, List.append_assoc, List.getElem?_append_left (by simp; omega), List.getElem?_take_of_lt hpa]; exact hkp
      · rw [if_neg hpa, List.getElem?_append_right (by simp; omega), List.getElem?_drop]
        rw [show axis + (p + 1 - (fk.take axis ++ [Key.full]).length) = p by simp; omega]; exact hkp
  | elem1 a op ih =>
    intro s keys fk p n i hwf hs hc hp hk hw hkp hi
    rw [Arr.shape] at hs
    rw [Arr.getitem, arrayGetitem_exact hs hk (hexa hw)]
    exact bind_err (ih hwf hs hc hp (expand_exact (hexa hw) (hlen hw hk)) hw hkp hi)
  | elem2 a b op iha ihb =>
    intro s keys fk p n i hwf hs hc hp hk hw hkp hi
    rw [Arr.shape] at hs
    rw [Arr.getitem, arrayGetitem_exact hs hk (hexa hw)]
    exact bind_err (iha hwf.1 hs hc hp (expand_exact (hexa hw) (hlen hw hk)) hw hkp hi)
  | _ => intro s keys fk p n i hwf hs hc; exact hc.elim

/-- C75 together with other keys (`fk`: the keys once `...` is expanded): if the key for dimension `p`, a dimension of a source (`Arr.overSource`), is an integer out of range, indexing
raises `IndexError`, whatever integers, slices, sequences and masks the other keys are, in range or not. -/
theorem C75_whatever_the_other_keys (a : Arr α) (hwf : a.WF) {s : List Nat} (hs : a.shape = .ok s) {p n : Nat} (hc : a.overSource p) (hp : s[p]? = some n)
    (keys fk : List Key) (hk : expandKeys keys s.length = .ok fk) (hw : ∀ k ∈ fk, k.wellTyped) (i : Int) (hkp : fk[p]? = some (.int i)) (hi : i < -n ∨ n ≤ i) :
    a.getitem keys = .error .index :=
  getitem_rejects_keys a hwf hs hc hp hk hw hkp hi

/-- The hypotheses are met by the sums along the last axis of a transposed source with the key 3 for dimension 1, beside a sequence in range; and by a mosaic of such. -/
example : ((Arr.agg (.transposed (.adapter true exSource []) [1, 0, 2]) 2 .sum).overSource 1) ∧
    (Arr.agg (.transposed (.adapter true exSource []) [1, 0, 2]) 2 .sum).shape = .ok [3, 2] ∧
    ((Arr.agg (.transposed (.adapter true exSource []) [1, 0, 2]) 2 .sum).getitem [.tuple [0, 2, 0], .int 2] >>= Arr.shape) = .error .index ∧
    ((Arr.agg (.transposed (.adapter true exSource []) [1, 0, 2]) 2 .sum).getitem [.tuple [0, 2, 0], .int 1] >>= Arr.shape) = .ok [3] ∧
    ((Arr.mosaic 2 (fun _ => .agg (.transposed (.adapter true exSource []) [1, 0, 2]) 2 .sum) 0).getitem [.full, .int 2] >>= Arr.shape) = .error .index ∧
    ((Arr.mosaic 2 (fun _ => .agg (.transposed (.adapter true exSource []) [1, 0, 2]) 2 .sum) 0).getitem [.full, .int (-2)] >>= Arr.shape) = .ok [6] := by
  refine ⟨?_, by decide +kernel, by decide +kernel, by decide +kernel, by decide +kernel, by decide +kernel⟩
  refine ⟨0, rfl, ?_⟩
  intro l hl; cases hl

/-- C75 for mosaics, for a dimension `p` after the axis of the mosaic.  If this dimension comes, in every tile, from a source (`Arr.overSource`), an integer out of range for it raises
`IndexError`, always. -/
theorem C75_mosaic (n axis : Nat) (tiles : Nat → Arr α) (hwf : (Arr.mosaic n tiles axis).WF) {p len : Nat} (hc : ∀ t, t < n → (tiles t).overSource p)
    {s : List Nat} (hs : (Arr.mosaic n tiles axis).shape = .ok s) (hax : axis < p) (hp : s[p]? = some len)
    (i : Int) (hi : i < -len ∨ len ≤ i) (keys : List Key)
    (hk : expandKeys keys s.length = .ok (oneInt p i (s.length - p - 1))) :
    (Arr.mosaic n tiles axis).getitem keys = .error .index := by
  by_cases h0 : s[axis]? = some 0
  · exact C75_empty_mosaic n axis _ hwf hs hax (List.getElem?_eq_some_iff.mp hp).1 h0 i keys hk
  have hs0 := hs
  obtain ⟨hm, st, hax', hit⟩ := hwf
  have he := oneInt_exact p i (s.length - p - 1)
  rw [Arr.getitem, arrayGetitem_exact hs0 hk he]
  obtain ⟨k0, hk0⟩ := (hit 0 hm).2
  rw [Arr.shape, bind_val hk0] at hs
  obtain ⟨lens, hl, hs⟩ := bind_ok.mp hs
  cases hs
  have hfl := mapM_ok_inv _ _ _ hl
  have hll : lens.length = n := by have := hfl.length_eq; simpa using this.symm
  have hlpos : 0 < lens.length := by omega
  have hplt := (List.getElem?_eq_some_iff.mp hp).1
  simp only [List.length_set] at hplt
  unfold mosaicFull
  rw [trimKeys_oneInt, show List.replicate p Key.full ++ [Key.int i] = oneInt p i 0 from rfl]
  simp only [oneInt_length]
  rw [if_neg (by omega), bind_val hl]
  have hget : (oneInt p i 0).getD axis Key.full = Key.full := by
    unfold oneInt
    rw [List.getD_eq_getElem?_getD, List.getElem?_append_left (by simpa using hax), List.getElem?_replicate, if_pos hax]; rfl
  unfold mosaicAxis
  rw [hget]
  obtain ⟨r, hr, hrl⟩ := range_full lens.sum
  simp only [Key.full]
  rw [bind_val hr]
  have hr0 : r ≠ [] := by
    rintro rfl
    apply h0
    simp only [List.length_nil] at hrl
    simp only [List.length_set] at *
    rw [List.getElem?_set_self (by simpa using hax'), ← hrl]
  have hint : (oneInt p i 0)[p]? = some (.int i) := by
    unfold oneInt
    rw [List.getElem?_append_right (by simp)]; simp
  unfold mosaicMany
  refine bind_err ?_
  -- every tile rejects its keys with `IndexError`
  have htile : ∀ t, t < n → ∀ (off : Nat) (g : List Int), (tiles t).getitem ((oneInt p i 0).set axis (tileKey off g)) = .error .index := by
    intro t ht off g
    obtain ⟨hw, kk, hkk⟩ := hit t ht
    have hfull : (Key.full : Key).wellTyped := by simp [Key.full, Key.wellTyped, PySlice.full]
    have hK : ∀ k ∈ (oneInt p i 0).set axis (tileKey off g), k.wellTyped := by
      intro k hk
      rcases List.mem_or_eq_of_mem_set hk with hk | rfl
      · unfold oneInt at hk
        simp only [List.mem_append, List.mem_cons, List.mem_replicate] at hk
        rcases hk with ⟨_, rfl⟩ | rfl | ⟨_, rfl⟩
        · exact hfull
        · trivial
        · exact hfull
      · unfold tileKey
        split
        · simp [Key.wellTyped]
        · trivial
    have hKe : Exact ((oneInt p i 0).set axis (tileKey off g)) := by
      intro k hk
      have := hK k hk
      cases k <;> first | exact ⟨rfl, rfl⟩ | exact this.elim
    have hpad := expandKeys_pad (r := st.length - (p + 1)) hKe
    simp only [List.length_set, oneInt_length] at hpad
    rw [show p + 0 + 1 + (st.length - (p + 1)) = (st.set axis kk).length by rw [List.length_set]; omega] at hpad
    refine getitem_rejects_keys (tiles t) hw hkk (hc t ht) (p := p) (n := len) ?_ hpad ?_ ?_ hi
    · rw [List.getElem?_set_ne (by omega)]
      rw [List.getElem?_set_ne (by omega), List.getElem?_set_ne (by omega)] at hp
      exact hp
    · intro y hy
      rcases List.mem_append.mp hy with hy | hy
      · exact hK y hy
      · rw [List.eq_of_mem_replicate hy]; exact hfull
    · rw [List.getElem?_append_left (by simp [oneInt_length]), List.getElem?_set_ne (by omega)]
      exact hint
  cases hg : groupTiles lens r with
  | nil => exact absurd hg (groupTiles_nonempty lens hr0)
  | cons g gs =>
    have hgt : g.1 < n := by
      rw [← hll]
      exact groupTiles_fst hlpos r g (by rw [hg]; exact List.mem_cons_self)
    rw [List.mapM_cons]
    exact bind_err (htile g.1 hgt _ _)

/-- C75 for mosaics of sources (indexed before in any way without masks), for a dimension `p` after the axis of the mosaic: an integer out of range for this dimension raises
`IndexError`, always. -/
theorem C75_mosaic_of_sources (n : Nat) (o : Nat → Bool) (c : Nat → Concrete α) (stored : Nat → List Key) (axis : Nat)
    (hwf : (Arr.mosaic n (fun t => .adapter (o t) (c t) (stored t)) axis).WF) (hnb : ∀ t, t < n → ∀ l, Key.barr l ∉ stored t)
    {s : List Nat} (hs : (Arr.mosaic n (fun t => .adapter (o t) (c t) (stored t)) axis).shape = .ok s) {p len : Nat} (hax : axis < p) (hp : s[p]? = some len)
    (i : Int) (hi : i < -len ∨ len ≤ i) (keys : List Key)
    (hk : expandKeys keys s.length = .ok (oneInt p i (s.length - p - 1))) :
    (Arr.mosaic n (fun t => .adapter (o t) (c t) (stored t)) axis).getitem keys = .error .index :=
  C75_mosaic n axis _ hwf (fun t ht l => hnb t ht l) hs hax hp i hi keys hk

/-- The hypotheses are met: a mosaic along axis 0 of two sources of shape (2, 3, 4), with `[:, 3]` or `[..., -5]`. -/
example : (Arr.mosaic 2 (fun _ => .adapter true exSource []) 0).shape = .ok [4, 3, 4] ∧
    expandKeys [.full, .int 3] 3 = .ok (oneInt 1 3 1) ∧ expandKeys [.ellipsis, .int (-5)] 3 = .ok (oneInt 2 (-5) 0) ∧
    ((Arr.mosaic 2 (fun _ => .adapter true exSource []) 0).getitem [.full, .int 3] >>= Arr.shape) = .error .index ∧
    ((Arr.mosaic 2 (fun _ => .adapter true exSource []) 0).getitem [.full, .int 2] >>= Arr.shape) = .ok [4, 4] ∧
    ((Arr.mosaic 2 (fun _ => .adapter true exSource []) 0).getitem [.ellipsis, .int (-5)] >>= Arr.shape) = .error .index := by
  refine ⟨by decide +kernel, by decide +kernel, by decide +kernel, by decide +kernel, by decide +kernel, by decide +kernel⟩

/-- Two sources cut to length 0: NumPy gives an empty result for `[:, 0]`, the code raises `IndexError`. -/
example : (Arr.mosaic 2 (fun _ => .adapter true exSource [.slice ⟨some 2, none, none⟩]) 0).shape = .ok [0, 3, 4] ∧
    ((Arr.mosaic 2 (fun _ => .adapter true exSource [.slice ⟨some 2, none, none⟩]) 0).getitem [.full, .int 0] >>= Arr.shape) = .error .index ∧
    Res.view (npIndex (⟨[0, 3, 4], fun _ => (0 : ℚ)⟩ : NDA ℚ) [.full, .int 0]) = .ok ([0, 4], []) := by
  refine ⟨by decide +kernel, by decide +kernel, by decide +kernel⟩

end Biggus

import Verif.Proofs.DaskHandle
/-
What the handlers of the parts of an array give.
-/
namespace Biggus

variable {α V : Type}

/-- The chunks that contribute to a part. -/
theorem partOf_keys {A : NDA V} {cuts : List (List Key)} {order : List Nat} {cs : List (Chunk V)} (hs : StreamOk A cuts order cs)
    (hp : order.Perm (List.range A.shape.length)) (hc : CutsOk cuts A.shape) {ax : Option Nat} {S : List Nat}
    (hdims : List.Forall₂ DimCut S (dropAx ax (cuts.map (fun c => c.map keySlice)))) {o : KeyTuple} (ho : o ∈ cart (dropAx ax (cuts.map (fun c => c.map keySlice)))) :
    (partOf ax S (normalizeKeys o S) cs).map Prod.fst = (chunkKeysOf cuts order).filter (fun k => decide (dropAx ax k = o.map Key.slice)) := by
  rw [← hs.keys, List.filter_map]
  congr 1
  unfold partOf
  apply List.filter_congr
  intro c hcm
  have hm : c.1 ∈ chunkKeysOf cuts order := by rw [← hs.keys]; exact List.mem_map_of_mem hcm
  obtain ⟨k, hk, he⟩ := (chunkKey_slices hc hp).mp hm
  simp only [Function.comp]
  rw [decide_eq_decide, he, keySlice_slice, dropAx_map]
  have hinj : Function.Injective Key.slice := fun a b h => by injection h
  constructor
  · intro h
    rw [norm_inj hdims (dropAx_cart hk ax) ho h]
  · intro h
    rw [hinj.list_map h]

theorem partOf_one {A : NDA V} {cuts : List (List Key)} {order : List Nat} {cs : List (Chunk V)} (hs : StreamOk A cuts order cs)
    (hp : order.Perm (List.range A.shape.length)) (hc : CutsOk cuts A.shape) {S : List Nat}
    (hdims : List.Forall₂ DimCut S (cuts.map (fun c => c.map keySlice))) {o : KeyTuple} (ho : o ∈ cart (cuts.map (fun c => c.map keySlice))) :
    ∃ d, partOf none S (normalizeKeys o S) cs = [(o.map Key.slice, d)] ∧ (o.map Key.slice, d) ∈ cs := by
  have h1 := partOf_keys hs hp hc (ax := none) hdims ho
  have hm : o.map Key.slice ∈ chunkKeysOf cuts order := (chunkKey_slices hc hp).mpr ⟨o, ho, rfl⟩
  rw [filter_eq_of_nodup _ (o.map Key.slice) _ (chunkKeysOf_perm_cart (n := A.shape.length) hp cuts hc.length hc.nodup).2 hm (by
    intro y _
    exact ⟨fun h => of_decide_eq_true h, fun h => decide_eq_true h⟩)] at h1
  obtain ⟨c, hce, hc1⟩ := List.map_eq_singleton_iff.mp h1
  obtain ⟨k, d⟩ := c
  simp only at hc1
  subst hc1
  refine ⟨d, hce, ?_⟩
  have : (o.map Key.slice, d) ∈ partOf none S (normalizeKeys o S) cs := by rw [hce]; simp
  exact List.mem_of_mem_filter this

/-! ### Aggregations -/

theorem produce_same (h : Handler V) (axis n : Nat) (o : List Key) (ho : axis ≤ o.length) :
    ∀ (cs1 : List (Chunk V)) (cuts1 : List Key) (st : NDA h.σ), cs1.map Prod.fst = cuts1.map (fun c => o.insertIdx axis c) →
    (∀ c ∈ cs1, c.2.shape.eraseIdx axis = st.shape ∧ (c.2.shape.getD axis 0 ≠ 0 ∨ h.emptyErr = none)) →
    cs1.foldlM (fun st c => do
      let r ← aggProcessChunk h axis n st c
      return r.1) (some (o, st)) = .ok (some (o, ⟨st.shape, fun idx => (cs1.map (fun c => c.2.column axis idx)).foldl h.step (st.get idx)⟩)) := by
  intro cs1
  induction cs1 with
  | nil => intro cuts1 st _ _; rfl
  | cons c cs1 ih =>
    intro cuts1 st hk hd
    match cuts1, hk with
    | k :: cuts1, hk =>
      simp only [List.map_cons, List.cons.injEq] at hk
      obtain ⟨hc1, hc2⟩ := hd c (by simp)
      have hproc : aggProcessChunk h axis n (some (o, st)) c =
          .ok (some (o, ⟨st.shape, fun idx => h.step (st.get idx) (c.2.column axis idx)⟩), []) := by
        unfold aggProcessChunk
        simp only [hk.1, eraseIdx_insertIdx' o axis k ho, ne_eq, not_true_eq_false, if_false,
          aggProcessData_ok h hc1 hc2, bind, Except.bind, pure, Except.pure]
      rw [List.foldlM_cons, hproc]
      have := ih cuts1 ⟨st.shape, fun idx => h.step (st.get idx) (c.2.column axis idx)⟩ hk.2
        (fun c hc => hd c (by simp [hc]))
      simp only [bind, Except.bind, pure, Except.pure] at this ⊢
      rw [this]
      rfl

theorem produce_agg (m : Mode α V) {x : Arr α} {axis n : Nat} {k : AggKind α} {s' : List Nat} (hx : x.shape = .ok s') (hn : s'.getD axis 0 = n) {o : List Key}
    (ho : axis ≤ o.length) {cs1 : List (Chunk V)} {cuts1 : List Key} (hne : cuts1 ≠ []) {shape : List Nat}
    (hk : cs1.map Prod.fst = cuts1.map (fun c => o.insertIdx axis c))
    (hd : ∀ c ∈ cs1, c.2.shape.eraseIdx axis = shape ∧ (c.2.shape.getD axis 0 ≠ 0 ∨ (m.handler k).emptyErr = none)) :
    produceChunks m (.agg x axis k) cs1 = .ok (o, ⟨shape, fun idx => (m.handler k).fin n ((cs1.map (fun c => c.2.column axis idx)).foldl (m.handler k).step (m.handler k).boot)⟩) := by
  match cuts1, hne with
  | k1 :: cuts1, _ =>
    match cs1, hk with
    | c :: cs1, hk =>
      simp only [List.map_cons, List.cons.injEq] at hk
      obtain ⟨hc1, hc2⟩ := hd c (by simp)
      have hdata : aggProcessData (m.handler k) axis ⟨c.2.shape.eraseIdx axis, fun _ => (m.handler k).boot⟩ c.2 =
          .ok ⟨shape, fun idx => (m.handler k).step (m.handler k).boot (c.2.column axis idx)⟩ := by
        rw [aggProcessData_ok (m.handler k) rfl hc2, hc1]
      have hproc : aggProcessChunk (m.handler k) axis n none c =
          .ok (some (o, ⟨shape, fun idx => (m.handler k).step (m.handler k).boot (c.2.column axis idx)⟩), []) := by
        unfold aggProcessChunk
        rw [hk.1, eraseIdx_insertIdx' o axis k1 ho]
        simp only [hdata, bind, Except.bind, pure, Except.pure]
      have hs := produce_same (m.handler k) axis n o ho cs1 cuts1 ⟨shape, fun idx => (m.handler k).step (m.handler k).boot (c.2.column axis idx)⟩ hk.2
        (fun c hc => hd c (by simp [hc]))
      unfold produceChunks
      simp only [hx, bind, Except.bind, pure, Except.pure, hn, List.foldlM_cons, hproc] at hs ⊢
      rw [hs]
      rfl

/-- A part of an aggregated array is the aggregation of a part that has the whole axis. -/
theorem agg_sub [Inhabited α] [Inhabited V] (m : Mode α V) (limit : Nat) {a : Arr α} {axis : Nat} {k : AggKind α} (hwf : (Arr.agg a axis k).WF)
    (hok : (Arr.agg a axis k).Ok m limit .sliced) {fk : List Key} (hfk : List.Forall₂ SliceOk fk ((a.den m).shape.eraseIdx axis)) :
    ∃ x s', (Arr.agg a axis k).getitem fk = .ok (.agg x axis k) ∧ x.shape = .ok s' ∧ s'.getD axis 0 = (a.den m).shape.getD axis 0 := by
  have hfk' : List.Forall₂ (ChunkKey .sliced) fk ((a.den m).shape.eraseIdx axis) := hfk.imp (fun _ _ h => h.chunkKey _)
  have hexp : expandKeys fk ((a.den m).shape.eraseIdx axis).length = .ok fk := expand_chunk hfk'
  have hsh := hwf.shape_eq m
  obtain ⟨hwa, s, hs, hax⟩ := hwf
  have hden := hwa.den_shape m hs
  obtain ⟨hso, hoa⟩ := hok
  have hck : List.Forall₂ (ChunkKey .sliced) (fk.take axis ++ [Key.full] ++ fk.drop axis) (a.den m).shape := by
    rw [hden]; exact chunk_agg hax (by rw [← hden]; exact hfk')
  obtain ⟨x, σ, hx, hwx, hσ, hd⟩ := chunk_getitem m limit a .sliced hwa hoa (by decide) (expand_chunk hck) hck
  refine ⟨x, (x.den m).shape, ?_, hwx.shape_eq m, ?_⟩
  · unfold Arr.getitem
    rw [arrayGetitem_exact hsh hexp (chunkKeys_exact hfk')]
    unfold aggFull
    simp only [hx, filter_scalar_nil hfk' axis, bind, Except.bind, pure, Except.pure]
    rfl
  · rw [hd.1]
    show (selShape σ).getD axis 0 = _
    have hsp : (a.den m).shape = (a.den m).shape.take axis ++ ((a.den m).shape.getD axis 0 :: (a.den m).shape.drop (axis + 1)) := by
      rw [List.getD_eq_getElem _ _ (by rw [hden]; exact hax), ← List.drop_eq_getElem_cons, List.take_append_drop]
    have hfl := hfk.length_eq
    rw [List.length_eraseIdx, if_pos (by rw [hden]; exact hax)] at hfl
    have hl1 : (fk.take axis).length = ((a.den m).shape.take axis).length := by
      rw [List.length_take, List.length_take, hden] at *
      omega
    have hσ' := hσ
    rw [hsp, List.append_assoc] at hσ'
    have hex : Exact (fk.take axis) := fun k hk => sliceOk_exact hfk k (List.mem_of_mem_take hk)
    obtain ⟨σ1, σ2, rfl, h1, h2⟩ := resolve_append_inv hex hl1 hσ'
    rw [List.singleton_append, resolve_cons_iff rfl] at h2
    obtain ⟨n', ns', t, τ', he, rfl, ht, _⟩ := h2
    injection he with he1 he2
    rw [← he1, resolve1_full] at ht
    cases ht
    rw [selShape_append]
    have hp1 : ∀ s ∈ σ1, s.isPick = true := by
      obtain ⟨σ', hσ', hp⟩ := sliceOk_resolve hfk
      have hsp2 : (a.den m).shape.eraseIdx axis = (a.den m).shape.take axis ++ (a.den m).shape.drop (axis + 1) := List.eraseIdx_eq_take_drop_succ ..
      rw [hsp2, ← List.take_append_drop axis fk] at hσ'
      obtain ⟨τ1, τ2, rfl, g1, _⟩ := resolve_append_inv hex hl1 hσ'
      rw [g1] at h1
      cases h1
      exact fun s hs => hp s (by simp [hs])
    have hl2 : (selShape σ1).length = axis := by
      rw [selShape_picks _ hp1, (resolve_length hex h1).2, List.length_take, hden]
      omega
    simp only [selShape, List.length_range]
    exact getD_middle _ _ _ _ _ hl2

theorem slices_eraseIdx (cuts : List (List Key)) (axis : Nat) :
    (cuts.eraseIdx axis).map (fun c => c.map keySlice) = dropAx (some axis) (cuts.map (fun c => c.map keySlice)) := (List.eraseIdx_map ..).symm

/-- The parts of an aggregation. -/
theorem group_agg [Inhabited α] [Inhabited V] (m : Mode α V) (limit : Nat) {a : Arr α} {axis : Nat} {k : AggKind α} (hwf : (Arr.agg a axis k).WF)
    (hok : (Arr.agg a axis k).Ok m limit .sliced) {cuts : List (List Key)} {order : List Nat} {cs : List (Chunk V)} (hS : StreamOk (a.den m) cuts order cs)
    (hp : order.Perm (List.range (a.den m).shape.length)) (hc : CutsOk cuts (a.den m).shape)
    (hdims : List.Forall₂ DimCut ((a.den m).shape.eraseIdx axis) ((cuts.eraseIdx axis).map (fun c => c.map keySlice)))
    (hlaw : CutSafe (m.handler k) (cuts.getD axis []) ((a.den m).shape.getD axis 0)) (hemp : (a.den m).shape.getD axis 0 ≠ 0 ∨ (m.handler k).emptyErr = none)
    {N : List (List PySlice)} (hN : N = normL ((a.den m).shape.eraseIdx axis) ((cuts.eraseIdx axis).map (fun c => c.map keySlice))) {κ : KeyTuple} (hκ : κ ∈ cart N) :
    ∃ sub c, (Arr.agg a axis k).getitem (κ.map Key.slice) = .ok sub ∧
      produceChunks m sub ([cs].map (partOf (some axis) ((a.den m).shape.eraseIdx axis) κ)).flatten = .ok c ∧
      ∃ o ∈ cart ((cuts.eraseIdx axis).map (fun c => c.map keySlice)), normalizeKeys o ((a.den m).shape.eraseIdx axis) = κ ∧ c.1 = o.map Key.slice ∧
        ∃ σ, resolve c.1 ((a.den m).shape.eraseIdx axis) = .ok σ ∧ c.2 ≈ₐ ((Arr.agg a axis k).den m).ortho σ := by
  have hNspec : List.Forall₂ DimSpec ((a.den m).shape.eraseIdx axis) N := by rw [hN]; exact normL_spec hdims
  have hκs := (specs_normal hNspec).2.2 κ hκ
  obtain ⟨x, s', hx1, hx2, hx3⟩ := agg_sub m limit hwf hok hκs
  obtain ⟨hwa, s, hs, hax'⟩ := hwf
  have hax : axis < (a.den m).shape.length := by rw [hwa.den_shape m hs]; exact hax'
  have hcl := hc.length
  rw [hN, cart_normL _ _ hdims.length_eq] at hκ
  obtain ⟨o, ho, rfl⟩ := List.mem_map.mp hκ
  have hce := hc.eraseIdx axis
  have hso : List.Forall₂ SliceOk (o.map Key.slice) ((a.den m).shape.eraseIdx axis) := by
    refine chunkKeys_ok (order := List.range ((a.den m).shape.eraseIdx axis).length) hce (List.Perm.refl _) ?_
    exact (chunkKey_slices hce (List.Perm.refl _)).mpr ⟨o, ho, rfl⟩
  have hcut := forall₂_getD hc axis (by omega) [] 0
  have hkeys : (partOf (some axis) ((a.den m).shape.eraseIdx axis) (normalizeKeys o ((a.den m).shape.eraseIdx axis)) cs).map Prod.fst =
      (cuts.getD axis []).map (fun c => (o.map Key.slice).insertIdx axis c) := by
    rw [slices_eraseIdx] at hdims ho
    rw [partOf_keys hS hp hc hdims ho]
    refine chunkKeysOf_filter hc.nodup (by omega) (by rw [hcl]; exact hp) ?_ hcut.ne
    rw [← slices_eraseIdx] at ho
    rw [← slices_of_cuts hce, cart_mapmap]
    exact List.mem_map_of_mem ho
  obtain ⟨shape, hd, hP⟩ := aggGroup_ok (m.handler k) hc hax hlaw hemp hso (cs1 := partOf (some axis) _ _ cs)
    (fun c hcm => hS.data c (List.mem_of_mem_filter hcm)) hkeys
  refine ⟨_, _, hx1, ?_, o, ho, rfl, rfl, hP⟩
  rw [List.map_singleton, List.flatten_singleton]
  refine produce_agg m hx2 hx3 ?_ hcut.ne hkeys hd
  rw [hso.length_eq, List.length_eraseIdx, if_pos hax]
  omega

/-! ### Element-wise operations -/

theorem group_elem1 [Inhabited α] [Inhabited V] (m : Mode α V) (limit : Nat) {a : Arr α} {op : Op1 α} (hwf : (Arr.elem1 a op).WF)
    (hok : (Arr.elem1 a op).Ok m limit .sliced) {cuts : List (List Key)} {order : List Nat} {cs : List (Chunk V)} (hS : StreamOk (a.den m) cuts order cs)
    (hp : order.Perm (List.range (a.den m).shape.length)) (hc : CutsOk cuts (a.den m).shape)
    (hdims : List.Forall₂ DimCut (a.den m).shape (cuts.map (fun c => c.map keySlice)))
    {N : List (List PySlice)} (hN : N = normL (a.den m).shape (cuts.map (fun c => c.map keySlice))) {κ : KeyTuple} (hκ : κ ∈ cart N) :
    ∃ sub c, (Arr.elem1 a op).getitem (κ.map Key.slice) = .ok sub ∧
      produceChunks m sub ([cs].map (partOf none (a.den m).shape κ)).flatten = .ok c ∧
      ∃ o ∈ cart (cuts.map (fun c => c.map keySlice)), normalizeKeys o (a.den m).shape = κ ∧ c.1 = o.map Key.slice ∧
        ∃ σ, resolve c.1 (a.den m).shape = .ok σ ∧ c.2 ≈ₐ ((Arr.elem1 a op).den m).ortho σ := by
  have hNspec : List.Forall₂ DimSpec (a.den m).shape N := by rw [hN]; exact normL_spec hdims
  have hκs := (specs_normal hNspec).2.2 κ hκ
  have hfk' : List.Forall₂ (ChunkKey .sliced) (κ.map Key.slice) (a.den m).shape := hκs.imp (fun _ _ h => h.chunkKey _)
  obtain ⟨hop, hso, hoa⟩ := hok
  obtain ⟨f, hf⟩ := Option.isSome_iff_exists.mp hop
  have hwa : a.WF := hwf
  obtain ⟨x, σ, hx, hwx, hσ, hd⟩ := chunk_getitem m limit a .sliced hwa hoa (by decide) (expand_chunk hfk') hfk'
  rw [hN, cart_normL _ _ hdims.length_eq] at hκ
  obtain ⟨o, ho, rfl⟩ := List.mem_map.mp hκ
  obtain ⟨d, hd1, hd2⟩ := partOf_one hS hp hc hdims ho
  obtain ⟨τ, hτ1, hτ2⟩ := hS.data _ hd2
  refine ⟨.elem1 x op, (o.map Key.slice, d.map f), ?_, ?_, o, ho, rfl, rfl, τ, hτ1, ?_⟩
  · unfold Arr.getitem
    rw [arrayGetitem_exact (Arr.WF.shape_eq m _ hwa : a.shape = _) (expand_chunk hfk') (chunkKeys_exact hfk')]
    simp only [hx, bind, Except.bind, pure, Except.pure]
  · rw [List.map_singleton, List.flatten_singleton, hd1]
    unfold produceChunks
    simp only [hf, List.getLast?_singleton]
  · show d.map f ≈ₐ ((a.den m).map ((m.op1 op).getD id)).ortho τ
    rw [hf]
    exact hτ2.map f

theorem group_elem2 [Inhabited α] [Inhabited V] (m : Mode α V) (limit : Nat) {a b : Arr α} {op : Op2 α} (hwf : (Arr.elem2 a b op).WF)
    (hok : (Arr.elem2 a b op).Ok m limit .sliced) {cuts : List (List Key)} {order order' : List Nat} {cs cs' : List (Chunk V)}
    (hS : StreamOk (a.den m) cuts order cs) (hS' : StreamOk (b.den m) cuts order' cs')
    (hp : order.Perm (List.range (a.den m).shape.length)) (hp' : order'.Perm (List.range (b.den m).shape.length)) (hc : CutsOk cuts (a.den m).shape)
    (hdims : List.Forall₂ DimCut (a.den m).shape (cuts.map (fun c => c.map keySlice)))
    {N : List (List PySlice)} (hN : N = normL (a.den m).shape (cuts.map (fun c => c.map keySlice))) {κ : KeyTuple} (hκ : κ ∈ cart N) :
    ∃ sub c, (Arr.elem2 a b op).getitem (κ.map Key.slice) = .ok sub ∧
      produceChunks m sub ([cs, cs'].map (partOf none (a.den m).shape κ)).flatten = .ok c ∧
      ∃ o ∈ cart (cuts.map (fun c => c.map keySlice)), normalizeKeys o (a.den m).shape = κ ∧ c.1 = o.map Key.slice ∧
        ∃ σ, resolve c.1 (a.den m).shape = .ok σ ∧ c.2 ≈ₐ ((Arr.elem2 a b op).den m).ortho σ := by
  have hNspec : List.Forall₂ DimSpec (a.den m).shape N := by rw [hN]; exact normL_spec hdims
  have hκs := (specs_normal hNspec).2.2 κ hκ
  have hfka : List.Forall₂ (ChunkKey .sliced) (κ.map Key.slice) (a.den m).shape := hκs.imp (fun _ _ h => h.chunkKey _)
  obtain ⟨hwa, hwb, hab⟩ := hwf
  have hsh : (a.den m).shape = (b.den m).shape := by
    have h1 := hwa.shape_eq m
    rw [hab, hwb.shape_eq m] at h1
    injection h1 with h1
    exact h1.symm
  have hfkb : List.Forall₂ (ChunkKey .sliced) (κ.map Key.slice) (b.den m).shape := by rw [← hsh]; exact hfka
  obtain ⟨hop, hsa, hsb, hoa, hob⟩ := hok
  obtain ⟨f, hf⟩ := Option.isSome_iff_exists.mp hop
  obtain ⟨x, σ, hx, hwx, hσ, hdx⟩ := chunk_getitem m limit a .sliced hwa hoa (by decide) (expand_chunk hfka) hfka
  obtain ⟨y, σ', hy, hwy, hσ', hdy⟩ := chunk_getitem m limit b .sliced hwb hob (by decide) (expand_chunk hfkb) hfkb
  rw [← hsh, hσ] at hσ'
  injection hσ' with hσ'
  subst hσ'
  rw [hN, cart_normL _ _ hdims.length_eq] at hκ
  obtain ⟨o, ho, rfl⟩ := List.mem_map.mp hκ
  obtain ⟨d, hd1, hd2⟩ := partOf_one hS hp hc hdims ho
  obtain ⟨d', hd1', hd2'⟩ := partOf_one hS' hp' (by rw [← hsh]; exact hc) hdims ho
  obtain ⟨τ, hτ1, hτ2⟩ := hS.data _ hd2
  obtain ⟨τ', hτ1', hτ2'⟩ := hS'.data _ hd2'
  have hττ : τ = τ' := by
    rw [← hsh] at hτ1'
    simp only at hτ1 hτ1'
    rw [hτ1] at hτ1'
    injection hτ1'
  subst hττ
  obtain ⟨r, hr1, hr2⟩ := npOp2_ok (f := f) hτ2 hτ2' rfl
  refine ⟨.elem2 x y op, (o.map Key.slice, r), ?_, ?_, o, ho, rfl, rfl, τ, hτ1, ?_⟩
  · unfold Arr.getitem
    rw [arrayGetitem_exact (hwa.shape_eq m) (expand_chunk hfka) (chunkKeys_exact hfka)]
    simp only [hx, hy, bind, Except.bind, pure, Except.pure]
    exact mkElem2_same (s := selShape σ) (by rw [hwx.shape_eq m, hdx.1]; rfl) (by rw [hwy.shape_eq m, hdy.1]; rfl) op
  · rw [List.map_cons, List.map_cons, List.map_nil, hd1, hd1']
    unfold produceChunks
    simp only [hf, List.flatten_cons, List.flatten_nil, List.singleton_append, List.append_nil]
    unfold pairsLast
    simp only at hr1
    simp only [hr1, bind, Except.bind]
    rfl
  · show r ≈ₐ ((a.den m).zip (b.den m) ((m.op2 op).getD (fun x _ => x))).ortho τ
    rw [hf]
    exact hr2

end Biggus

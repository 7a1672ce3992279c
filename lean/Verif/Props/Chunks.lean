import Verif.Proofs.Chunks
/-
C16, C17, C18, C19, C29 (key level): chunking of arrays.  Specification vocabulary:
`Verif/Spec/Regions.lean` (`keyPos`, `inRegion`, `regionSize`, `keyStart`) and `npIndex`.
-/
namespace Biggus

/-- C16 (per dimension).  The cuts of every dimension, read one after the other, are the positions
`0, 1, ..., n-1` in increasing order - nothing missing, nothing twice - for every chunk limit (even 0),
with or without `always_slices`. -/
theorem C16_cuts_tile_each_dimension (limit : Nat) (always : Bool) (shape : List Nat) :
    (allSlicesInner limit always shape).length = shape.length ∧
    ∀ d, d < shape.length →
      ((allSlicesInner limit always shape).getD d []).flatMap (fun k => keyPos k (shape.getD d 0))
        = List.range (shape.getD d 0) := by
  refine ⟨allSlices_length limit always shape, fun d hd => ?_⟩
  exact forall₂_getD (allSlices_tiles limit always shape) d
    (by rw [allSlices_length]; exact hd) [] 0

example : (allSlicesInner 10 true [3, 4, 7]).map List.length = [3, 4, 1] ∧
    allSlicesInner 10 true [5, 4] = [[Key.span 0 2, Key.span 2 4, Key.span 4 5], [Key.full]] := by
  decide +kernel

/-- C16.  Whatever the chunk limit and the iteration order, every element of the array lies in exactly one
of the chunks generated by a producer. -/
theorem C16_each_element_in_exactly_one_chunk (limit : Nat) (shape order idx : List Nat)
    (hp : order.Perm (List.range shape.length)) (hidx : InB shape idx) :
    ((chunkIndexGen limit shape order).filter (fun ks => inRegion ks shape idx)).length = 1 := by
  rw [← List.countP_eq_length_filter]
  have h := (chunkKeysOf_perm_cart (n := shape.length) hp (allSlicesInner limit true shape)
    (allSlices_length limit true shape) (allSlices_nodup limit true shape)).1
  unfold chunkIndexGen
  rw [h.countP_eq]
  exact cart_covers_once _ _ (allSlices_tiles limit true shape) idx hidx

example : ([1, 0] : List Nat).Perm (List.range [5, 4].length) ∧ InB [5, 4] [4, 3] ∧
    (chunkIndexGen 10 [5, 4] [1, 0]).filter (fun ks => inRegion ks [5, 4] [4, 3])
      = [[Key.span 4 5, Key.full]] := by
  refine ⟨by decide, by decide, by decide +kernel⟩

/-- C16.  Enumerating the elements of all chunks, chunk after chunk, enumerates the elements of the array:
same elements, each as often as in the array, i.e. once. -/
theorem C16_chunk_elements_are_array_elements (limit : Nat) (shape order : List Nat)
    (hp : order.Perm (List.range shape.length)) :
    ((chunkIndexGen limit shape order).flatMap
      (fun ks => (ndindex shape).filter (fun idx => inRegion ks shape idx))).Perm (ndindex shape) := by
  have hcount : ∀ idx, InB shape idx → ((chunkIndexGen limit shape order).flatMap
      (fun ks => (ndindex shape).filter (fun idx => inRegion ks shape idx))).count idx = 1 := by
    intro idx hidx
    have h1 := C16_each_element_in_exactly_one_chunk limit shape order idx hp hidx
    rw [← List.countP_eq_length_filter] at h1
    rw [← h1]
    generalize chunkIndexGen limit shape order = L
    induction L with
    | nil => rfl
    | cons ks L ih =>
      rw [List.flatMap_cons, List.count_append, ih, List.countP_cons, Nat.add_comm]
      congr 1
      by_cases hr : inRegion ks shape idx = true
      · rw [List.count_filter hr, if_pos hr]
        exact List.count_eq_one_of_mem (nodup_ndindex shape) ((mem_ndindex shape idx).mpr hidx)
      · rw [if_neg hr, List.count_eq_zero]
        simp [hr]
  rw [List.perm_iff_count]
  intro idx
  by_cases hidx : InB shape idx
  · rw [hcount idx hidx, List.count_eq_one_of_mem (nodup_ndindex shape) ((mem_ndindex shape idx).mpr hidx)]
  · rw [List.count_eq_zero.mpr, List.count_eq_zero.mpr]
    · intro h; exact hidx ((mem_ndindex shape idx).mp h)
    · intro h
      simp only [List.mem_flatMap, List.mem_filter] at h
      obtain ⟨_, _, h, _⟩ := h
      exact hidx ((mem_ndindex shape idx).mp h)

/-- C17.  No chunk has more than `MAX_CHUNK_SIZE` elements (whatever that limit is, if at least 1). -/
theorem C17_chunk_size_limit (limit : Nat) (hl : 1 ≤ limit) (shape order : List Nat)
    (hp : order.Perm (List.range shape.length)) (ks : List Key)
    (hks : ks ∈ chunkIndexGen limit shape order) : regionSize ks shape ≤ limit := by
  have h := (chunkKeysOf_perm_cart (n := shape.length) hp (allSlicesInner limit true shape)
    (allSlices_length limit true shape) (allSlices_nodup limit true shape)).1
  exact (cart_limit limit hl true shape ks (h.mem_iff.mp hks)).1

/-- C17, for the keys used by `save`. -/
theorem C17_save_chunk_size_limit (limit : Nat) (hl : 1 ≤ limit) (shape : List Nat) (ks : List Key)
    (hks : ks ∈ saveKeys limit shape) : regionSize ks shape ≤ limit := by
  unfold saveKeys at hks
  rw [ndindex_pickCuts] at hks
  exact (cart_limit limit hl false shape ks hks).1

example : [Key.span 2 3, Key.span 1 2, Key.full] ∈ chunkIndexGen 10 [3, 4, 7] [0, 1, 2] ∧
    regionSize [Key.span 2 3, Key.span 1 2, Key.full] [3, 4, 7] = 7 := by decide +kernel

/-- C17: an array that fits in one chunk is not cut. -/
theorem C17_small_array_single_chunk (limit : Nat) (hl : 1 ≤ limit) (shape order : List Nat)
    (hp : order.Perm (List.range shape.length)) (h : shape.prod ≤ limit) (ks : List Key)
    (hks : ks ∈ chunkIndexGen limit shape order) : regionSize ks shape = shape.prod := by
  have h' := (chunkKeysOf_perm_cart (n := shape.length) hp (allSlicesInner limit true shape)
    (allSlices_length limit true shape) (allSlices_nodup limit true shape)).1
  exact (cart_limit limit hl true shape ks (h'.mem_iff.mp hks)).2 h

/-- C18.  Whatever the iteration order: the chunk keys are pairwise different and are exactly the key
tuples with one of the dimension's cuts in every dimension. -/
theorem C18_chunks_are_the_product_each_once (limit : Nat) (shape order : List Nat)
    (hp : order.Perm (List.range shape.length)) :
    (chunkIndexGen limit shape order).Nodup ∧
    ∀ ks, ks ∈ chunkIndexGen limit shape order ↔ ks.length = shape.length ∧
      ∀ d, d < shape.length → ks.getD d Key.full ∈ (allSlicesInner limit true shape).getD d [] := by
  have h := chunkKeysOf_perm_cart (n := shape.length) hp (allSlicesInner limit true shape)
    (allSlices_length limit true shape) (allSlices_nodup limit true shape)
  refine ⟨h.2, fun ks => ?_⟩
  unfold chunkIndexGen
  rw [h.1.mem_iff, mem_cart Key.full, allSlices_length]

/-- C18.  The traversal follows `iteration_order`: reading the chunks' start positions in the order of
dimensions given by `iteration_order`, they increase lexicographically, so the last dimension of
`iteration_order` varies fastest. -/
theorem C18_traversal_follows_iteration_order (limit : Nat) (shape order : List Nat)
    (hp : order.Perm (List.range shape.length)) :
    ((chunkIndexGen limit shape order).map (fun ks =>
      order.map (fun d => keyStart (ks.getD d Key.full) (shape.getD d 0)))).Pairwise (· < ·) := by
  apply chunkKeysOf_lex
  · rw [allSlices_length]; exact hp
  · exact allSlices_starts limit true shape

example : ([0, 1] : List Nat).Perm (List.range 2) ∧
    chunkIndexGen 2 [2, 3] [1, 0] =
      [[Key.span 0 1, Key.span 0 2], [Key.span 1 2, Key.span 0 2],
       [Key.span 0 1, Key.span 2 3], [Key.span 1 2, Key.span 2 3]] := by
  refine ⟨by decide, by decide +kernel⟩

/-- C29 (keys).  Asked for the order an aggregation over `axis` requests from its source, a producer emits,
for each output region in turn (in the requested order), exactly the cuts of the aggregated axis, in
increasing order, one after the other. -/
theorem C29_chunks_of_one_output_region_contiguous (limit : Nat) (shape order : List Nat) (axis : Nat)
    (ha : axis < shape.length) (hp : order.Perm (List.range (shape.length - 1))) :
    chunkIndexGen limit shape (order.map (fun i => if i < axis then i else i + 1) ++ [axis]) =
      (chunkKeysOf ((allSlicesInner limit true shape).eraseIdx axis) order).flatMap
        (fun outKey => ((allSlicesInner limit true shape).getD axis []).map
          (fun c => outKey.insertIdx axis c)) ∧
    (chunkKeysOf ((allSlicesInner limit true shape).eraseIdx axis) order).Nodup := by
  constructor
  · apply chunkKeysOf_agg
    · rw [allSlices_length]; exact ha
    · rw [allSlices_length]; exact hp
  · refine (chunkKeysOf_perm_cart (n := shape.length - 1) hp _ ?_ ?_).2
    · rw [List.length_eraseIdx, allSlices_length, if_pos ha]
    · intro c hc
      exact allSlices_nodup limit true shape c (List.mem_of_mem_eraseIdx hc)

example : chunkIndexGen 2 [2, 3] ([0].map (fun i => if i < 0 then i else i + 1) ++ [0]) =
      [[Key.span 0 1, Key.span 0 2], [Key.span 1 2, Key.span 0 2],
       [Key.span 0 1, Key.span 2 3], [Key.span 1 2, Key.span 2 3]] := by
  decide +kernel

/-- C19.  `save` on a source whose reads agree with indexing `src` (see C06 for when they do) succeeds,
assigns every element of the target exactly once and leaves the target equal to the source. -/
theorem C19_save_writes_every_element_once {β : Type} (limit : Nat) (src target : NDA β)
    (read : List Key → Res (NDA β)) (hsh : target.shape = src.shape)
    (hread : ∀ ks ∈ saveKeys limit src.shape, ∀ r, npIndex src ks = .ok r → ∃ d, read ks = .ok d ∧ d ≈ₐ r) :
    (∃ t, save limit src.shape read target = .ok t ∧ t ≈ₐ src) ∧
    ∃ ws, saveWrites limit src.shape target.shape read = .ok ws ∧
      (ws.map Prod.fst).Perm (ndindex src.shape) := by
  obtain ⟨ws, h1, h2, h3⟩ := saveLoop_spec src read (saveKeys limit src.shape) hread (by
    unfold saveKeys
    rw [ndindex_pickCuts]
    exact cart_resolve limit false src.shape)
  have hperm : (ws.map Prod.fst).Perm (ndindex src.shape) := by
    rw [h2]
    unfold saveKeys
    rw [ndindex_pickCuts]
    exact cart_tiles_perm _ _ (allSlices_tiles limit false src.shape)
  have hw : saveWrites limit src.shape target.shape read = .ok ws := by
    unfold saveWrites; rw [hsh]; exact h1
  refine ⟨⟨ws.foldl NDA.update target, ?_, ?_, ?_⟩, ws, hw, hperm⟩
  · simp [save, hw, bind, Except.bind, pure, Except.pure]
  · rw [foldl_update_shape, hsh]
  · intro idx hidx
    rw [foldl_update_shape, hsh] at hidx
    rw [foldl_update_get ws target idx (src.get idx) (fun w hw' he => by rw [h3 w hw', he]), if_pos]
    exact hperm.mem_iff.mpr ((mem_ndindex _ _).mpr hidx)

/-- A non-trivial instance of C19's hypotheses: reading by indexing the data itself. -/
example : (∀ ks ∈ saveKeys 2 [3, 5], ∀ r, npIndex (⟨[3, 5], fun i => i⟩ : NDA (List Nat)) ks = .ok r →
    ∃ d, npIndex (⟨[3, 5], fun i => i⟩ : NDA (List Nat)) ks = .ok d ∧ d ≈ₐ r) ∧
    (saveKeys 2 [3, 5]).length = 9 :=
  ⟨fun _ _ r h => ⟨r, h, rfl, fun _ _ => rfl⟩, by decide +kernel⟩

end Biggus

import Verif.Proofs.EvalLeaf
/-
`ndarray()` of the container classes, given the evaluated parts.
-/
namespace Biggus

variable {α V : Type}

/-! ### new axes -/

theorem na_resolve (na : List Nat) : ∀ s : List Nat, na.length = s.length + 1 →
    ∃ σ, resolve (naInsert Key.newaxis na (List.replicate s.length Key.full)) s = .ok σ ∧ selShape σ = naShape na s ∧
      ∀ idx, InB (naShape na s) idx → selSrc σ idx = naStrip na idx := by
  have hnew : ∀ (n : Nat) (rest : List Key) (s : List Nat) (σ : List Sel), resolve rest s = .ok σ →
      resolve (List.replicate n Key.newaxis ++ rest) s = .ok (List.replicate n Sel.new ++ σ) := by
    intro n rest s σ h
    induction n with
    | zero => exact h
    | succ n ih =>
      simp only [List.replicate_succ, List.cons_append]
      rw [resolve_newaxis_iff]
      exact ⟨_, rfl, ih⟩
  have hshape : ∀ (n : Nat) (σ : List Sel), selShape (List.replicate n Sel.new ++ σ) =
      List.replicate n 1 ++ selShape σ := by
    intro n σ
    induction n with
    | zero => rfl
    | succ n ih => simp [List.replicate_succ, selShape, ih]
  have hsrc : ∀ (n : Nat) (σ : List Sel) (s idx : List Nat), InB (List.replicate n 1 ++ s) idx →
      selSrc (List.replicate n Sel.new ++ σ) idx = selSrc σ (idx.drop n) := by
    intro n σ s
    induction n with
    | zero => intro idx _; rfl
    | succ n ih =>
      intro idx h
      match idx, h with
      | j :: idx, h =>
        simp only [List.replicate_succ, List.cons_append, InB] at h
        simp only [List.replicate_succ, List.cons_append, selSrc, List.drop_succ_cons]
        exact ih idx h.2
  induction na with
  | nil => intro s h; simp at h
  | cons n ns ih =>
    intro s hl
    match s with
    | [] =>
      have : ns = [] := by
        cases ns with
        | nil => rfl
        | cons _ _ => simp at hl
      subst this
      refine ⟨List.replicate n Sel.new, ?_, ?_, ?_⟩
      · simp only [List.length_nil, List.replicate_zero]
        rw [naInsert_last]
        have := hnew n [] [] [] rfl
        simpa using this
      · have := hshape n []
        simpa [naShape, selShape] using this
      · intro idx h
        have h' : InB (List.replicate n 1 ++ []) idx := by simpa [naShape] using h
        have h0 := hsrc n [] [] idx h'
        simp only [List.append_nil] at h0
        rw [h0]
        simp [naStrip, selSrc]
    | m :: s =>
      have hl' : ns.length = s.length + 1 := by simpa using hl
      obtain ⟨σ, h1, h2, h3⟩ := ih s hl'
      refine ⟨List.replicate n Sel.new ++ .pick (List.range m) :: σ, ?_, ?_, ?_⟩
      · simp only [List.length_cons, List.replicate_succ]
        rw [naInsert_cons]
        apply hnew
        rw [resolve_cons_iff (by rfl)]
        exact ⟨m, s, _, σ, rfl, rfl, resolve1_full m, h1⟩
      · rw [hshape]
        simp [selShape, naShape, h2]
      · intro idx h
        simp only [naShape] at h
        rw [hsrc n _ (m :: naShape ns s) idx h]
        obtain ⟨_, h5⟩ := inB_split h
        simp only [List.length_replicate] at h5
        match hd : idx.drop n, h5 with
        | i :: rest, h5 =>
          obtain ⟨hi, h6⟩ := h5
          have hns : ns ≠ [] := by intro e; subst e; simp at hl'
          simp only [selSrc]
          rw [h3 rest h6]
          match ns, hns with
          | n2 :: ns2, _ =>
            simp only [naStrip, hd]
            rw [List.getD_eq_getElem?_getD, List.getElem?_range hi]; rfl

theorem newAxes_eval {r A : NDA V} {na : List Nat} (h : r ≈ₐ A) (hna : na.length = A.shape.length + 1) :
    ∃ r', npIndex r (naInsert Key.newaxis na (List.replicate A.shape.length Key.full)) = .ok r' ∧
      r' ≈ₐ A.insertAxes na := by
  obtain ⟨σ, h1, h2, h3⟩ := na_resolve na A.shape hna
  have hex : ∀ (na s : List Nat), na.length = s.length + 1 →
      (∀ k ∈ naInsert Key.newaxis na (List.replicate s.length Key.full), k.isEllipsis = false) ∧
      nConsuming (naInsert Key.newaxis na (List.replicate s.length Key.full)) = s.length := by
    intro na
    induction na with
    | nil => intro s hl; simp at hl
    | cons n ns ih =>
      intro s hl
      have hrep : (∀ k ∈ List.replicate n Key.newaxis, k.isEllipsis = false) ∧
          nConsuming (List.replicate n Key.newaxis) = 0 := by
        constructor
        · intro k hk; rw [List.eq_of_mem_replicate hk]; rfl
        · unfold nConsuming
          rw [List.length_eq_zero_iff, List.filter_eq_nil_iff]
          intro k hk; rw [List.eq_of_mem_replicate hk]; decide
      match s with
      | [] =>
        have : ns = [] := by
          cases ns with
          | nil => rfl
          | cons _ _ => simp at hl
        subst this
        simp only [List.length_nil, List.replicate_zero]
        rw [naInsert_last]
        exact hrep
      | m :: s =>
        obtain ⟨i1, i2⟩ := ih s (by simpa using hl)
        simp only [List.length_cons, List.replicate_succ]
        rw [naInsert_cons]
        constructor
        · intro k hk
          rcases List.mem_append.mp hk with hk | hk
          · exact hrep.1 k hk
          · rcases List.mem_cons.mp hk with rfl | hk
            · rfl
            · exact i1 k hk
        · rw [nConsuming_append, hrep.2, nConsuming_cons, i2]
          simp [Key.full, Key.isNewaxis]; omega
  obtain ⟨e1, e2⟩ := hex na A.shape hna
  have hA : npIndex A (naInsert Key.newaxis na (List.replicate A.shape.length Key.full)) = .ok (A.ortho σ) :=
    npIndex_ok_iff.mpr ⟨_, σ, expandKeys_self e1 e2, h1, rfl⟩
  obtain ⟨r', hr', hh⟩ := npIndex_congr h.symm hA
  refine ⟨r', hr', hh.symm.trans ⟨?_, ?_⟩⟩
  · simp [NDA.ortho, NDA.insertAxes, h2]
  · intro idx hidx
    simp only [NDA.ortho, NDA.insertAxes] at hidx ⊢
    rw [h3 idx (by rw [← h2]; exact hidx)]

/-! ### broadcasting -/

theorem bcIdx_eq_map (d : List (Nat × Nat)) (idx : List Nat) :
    bcIdx d 0 idx = (List.range idx.length).map (fun ax =>
      if d.any (fun p => p.1 == ax) then 0 else idx.getD ax 0) := by
  apply List.ext_getElem?
  intro i
  rw [bcIdx_getElem?, List.getElem?_map]
  by_cases hi : i < idx.length
  · rw [List.getElem?_range hi, List.getElem?_eq_getElem hi]
    simp only [Nat.zero_add, lookup_isSome_iff, List.getD_eq_getElem?_getD, List.getElem?_eq_getElem hi, Option.map_some,
      Option.getD_some]
  · rw [List.getElem?_eq_none (by omega), List.getElem?_eq_none (by simp; omega)]; rfl

theorem bcast_eval {r A : NDA V} {d : List (Nat × Nat)} {lead : List Nat} (h : r ≈ₐ A) (hn : (d.map Prod.fst).Nodup)
    (h1 : ∀ p ∈ d, A.shape[p.1]? = some 1) :
    ∃ r', bcastNumpy r d lead = .ok r' ∧ r' ≈ₐ A.stretch d lead := by
  have hs : r.shape = A.shape := h.1
  unfold bcastNumpy
  rw [hs, shapeFromDict_ok d A.shape hn h1]
  refine ⟨_, rfl, rfl, ?_⟩
  intro idx hidx
  have hidx' : InB (lead ++ bcShape d 0 A.shape) idx := hidx
  obtain ⟨_, h3⟩ := inB_split hidx'
  have hlen : (idx.drop lead.length).length = A.shape.length := by rw [h3.length, bcShape_length]
  have hb := bcIdx_inB (d := d) (p := 0) (s := A.shape) (idx := idx.drop lead.length)
    (by intro q hq _; exact h1 q hq) h3
  have heq : (List.range A.shape.length).map (fun ax =>
      if d.any (fun p => p.1 == ax) then 0 else idx.getD (ax + lead.length) 0) = bcIdx d 0 (idx.drop lead.length) := by
    rw [bcIdx_eq_map, hlen]
    apply List.map_congr_left
    intro ax _
    simp [List.getD_eq_getElem?_getD, List.getElem?_drop, Nat.add_comm]
  simp only [NDA.stretch]
  rw [heq]
  exact h.2 _ (by rw [hs]; exact hb)

/-! ### transposing -/

theorem transposed_eval {r A : NDA V} {axes : List Nat} (h : r ≈ₐ A) (hp : axes.Perm (List.range A.shape.length)) :
    ∃ r', npTranspose r axes = .ok r' ∧ r' ≈ₐ A.permute axes := by
  have hs : r.shape = A.shape := h.1
  have hl : axes.length = A.shape.length := axes_length hp
  unfold npTranspose
  rw [hs, if_pos (by have := axes_isPerm hp; rw [hl] at this; exact this)]
  refine ⟨_, rfl, ?_⟩
  refine NDA.Eqv.trans (b := r.permute axes) ⟨by simp [NDA.permute, hs], fun idx _ => by simp [NDA.permute, hl]⟩ ?_
  exact permute_congr h (by rw [hs]; exact hp)

/-! ### storing pieces -/

theorem storeChunk_ok {t A : NDA V} {keys : List Key} {d : NDA V} {σ : List Sel} (ht : t.shape = A.shape) (he : Exact keys)
    (hσ : resolve keys A.shape = .ok σ) (hd : d ≈ₐ A.ortho σ) :
    ∃ r, storeChunk t (keys, d) = .ok r ∧ r.shape = A.shape ∧ ∀ idx,
      r.get idx = if inRegion keys A.shape idx = true then A.get idx else t.get idx := by
  have hds : d.shape = selShape σ := hd.1
  unfold storeChunk npAssignments
  simp only [ht, hσ, bind, Except.bind, hds, if_true, pure, Except.pure]
  refine ⟨_, rfl, ?_, ?_⟩
  · rw [foldl_update_shape, ht]
  · intro idx
    have hl := (resolve_length he hσ).1
    have hfst : ((ndindex (selShape σ)).map (fun j => (selSrc σ j, d.get j))).map Prod.fst =
        cart (List.zipWith keyPos keys A.shape) := by
      rw [List.map_map]
      rw [← ndindex_selSrc keys A.shape σ (fun k hk e => by have := (he k hk).1; subst e; simp [Key.isNewaxis] at this) hσ]
      rfl
    rw [foldl_update_get _ _ idx (A.get idx), hfst]
    · simp only [mem_cart_keyPos keys A.shape idx hl]
    · intro w hw hwi
      obtain ⟨j, hj, rfl⟩ := List.mem_map.mp hw
      simp only at hwi ⊢
      rw [hd.2 j (by rw [hds]; exact inB_selShape_of_mem hj)]
      simp [NDA.ortho, hwi]

theorem store_loop {ι : Type} {A : NDA V} (step : NDA V → ι → Res (NDA V)) (keysOf : ι → List Key) (l : List ι)
    (h : ∀ i ∈ l, ∀ t : NDA V, t.shape = A.shape → ∃ d σ, step t i = storeChunk t (keysOf i, d) ∧ Exact (keysOf i) ∧
      resolve (keysOf i) A.shape = .ok σ ∧ d ≈ₐ A.ortho σ) :
    ∀ t : NDA V, t.shape = A.shape → ∃ r, l.foldlM step t = .ok r ∧ r.shape = A.shape ∧
      ∀ idx, (∃ i ∈ l, inRegion (keysOf i) A.shape idx = true) ∨ t.get idx = A.get idx → r.get idx = A.get idx := by
  induction l with
  | nil => intro t ht; exact ⟨t, rfl, ht, fun idx hx => by simpa using hx⟩
  | cons i l ih =>
    intro t ht
    obtain ⟨d, σ, h1, h2, h3, h4⟩ := h i (by simp) t ht
    obtain ⟨r1, hr1, hr2, hr3⟩ := storeChunk_ok ht h2 h3 h4
    obtain ⟨r, hr, hrs, hrg⟩ := ih (fun i hi => h i (by simp [hi])) r1 hr2
    refine ⟨r, ?_, hrs, ?_⟩
    · rw [List.foldlM_cons, h1, hr1]; exact hr
    · intro idx hx
      apply hrg
      rcases hx with ⟨i', hi', hreg⟩ | hx
      · rcases List.mem_cons.mp hi' with rfl | hi'
        · right; rw [hr3, if_pos hreg]
        · left; exact ⟨i', hi', hreg⟩
      · right; rw [hr3]; split
        · rfl
        · exact hx

/-- Chunks with the right content that cover the array assemble to the array. -/
theorem assemble_ok [Inhabited V] {A : NDA V} {cs : List (Chunk V)}
    (h : ∀ c ∈ cs, ∃ σ, Exact c.1 ∧ resolve c.1 A.shape = .ok σ ∧ c.2 ≈ₐ A.ortho σ)
    (hcov : ∀ idx, InB A.shape idx → ∃ c ∈ cs, inRegion c.1 A.shape idx = true) :
    ∃ r, assemble A.shape cs = .ok r ∧ r ≈ₐ A := by
  obtain ⟨r, h1, h2, h3⟩ := store_loop (A := A) storeChunk (fun c => c.1) cs (fun c hc t _ => by
    obtain ⟨σ, h1, h2, h3⟩ := h c hc
    exact ⟨c.2, σ, rfl, h1, h2, h3⟩) ⟨A.shape, fun _ => default⟩ rfl
  exact ⟨r, h1, h2, fun idx hidx => h3 idx (Or.inl (hcov idx (by rw [← h2]; exact hidx)))⟩

/-! ### stacks -/

theorem inRegion_full (s idx : List Nat) (h : InB s idx) : inRegion (List.replicate s.length Key.full) s idx = true := by
  induction s generalizing idx with
  | nil => match idx, h with
    | [], _ => rfl
  | cons n s ih =>
    match idx, h with
    | i :: idx, h =>
      simp only [List.length_cons, List.replicate_succ, inRegion, Bool.and_eq_true, decide_eq_true_eq]
      refine ⟨?_, ih idx h.2⟩
      rw [show keyPos Key.full n = List.range n by simp [keyPos, resolve1_full]]
      simpa using h.1

theorem inRegion_append {k1 k2 : List Key} {s1 s2 i1 i2 : List Nat} (h1 : inRegion k1 s1 i1 = true)
    (h2 : inRegion k2 s2 i2 = true) : inRegion (k1 ++ k2) (s1 ++ s2) (i1 ++ i2) = true := by
  induction k1 generalizing s1 i1 with
  | nil => match s1, i1, h1 with
    | [], [], _ => exact h2
  | cons k k1 ih =>
    match s1, i1, h1 with
    | n :: s1, i :: i1, h1 =>
      simp only [inRegion, Bool.and_eq_true, decide_eq_true_eq] at h1
      simp only [List.cons_append, inRegion, Bool.and_eq_true, decide_eq_true_eq]
      exact ⟨h1.1, ih h1.2⟩

theorem resolve_ints {ss i : List Nat} (h : InB ss i) :
    resolve (i.map (fun (x : Nat) => Key.int x)) ss = .ok (i.map Sel.at) := by
  induction ss generalizing i with
  | nil => match i, h with
    | [], _ => rfl
  | cons n ss ih =>
    match i, h with
    | x :: i, h =>
      rw [List.map_cons, resolve_cons_iff (by rfl)]
      refine ⟨n, ss, .at x, i.map Sel.at, rfl, rfl, ?_, ih h.2⟩
      simp only [resolve1]
      rw [if_pos (inRange_of_bounds (by omega) (by exact_mod_cast h.1)), normIdx_nonneg (by omega)]
      simp

theorem selSrc_ats (i : List Nat) (σ : List Sel) (idx : List Nat) :
    selSrc (i.map Sel.at ++ σ) idx = i ++ selSrc σ idx := by
  induction i with
  | nil => rfl
  | cons x i ih => simp [selSrc, ih]

theorem selShape_ats (i : List Nat) (σ : List Sel) : selShape (i.map Sel.at ++ σ) = selShape σ := by
  induction i with
  | nil => rfl
  | cons x i ih => simpa [selShape] using ih

theorem resolve_fulls (s : List Nat) : ∃ σ, resolve (List.replicate s.length Key.full) s = .ok σ ∧ selShape σ = s ∧
    ∀ idx, InB s idx → selSrc σ idx = idx := by
  obtain ⟨σ, h⟩ := resolve_full_exists s
  obtain ⟨h1, h2⟩ := resolve_full h
  exact ⟨σ, h, h1, h2⟩

theorem exact_ints (i : List Nat) : Exact (i.map (fun (x : Nat) => Key.int x)) := by
  intro k hk
  obtain ⟨x, _, rfl⟩ := List.mem_map.mp hk
  exact ⟨rfl, rfl⟩

theorem stack_eval [Inhabited V] {ss s : List Nat} {items : List Nat → NDA V} {ev : List Nat → Res (NDA V)}
    (h0 : ss.prod ≠ 0) (hs : ∀ i, InB ss i → (items i).shape = s)
    (hev : ∀ i, InB ss i → ∃ d, ev i = .ok d ∧ d ≈ₐ items i) :
    ∃ r, (ndindex ss).foldlM (fun data i => do
        let d ← ev i
        stackStore data i d) (⟨ss ++ s, fun _ => default⟩ : NDA V) = .ok r ∧ r ≈ₐ NDA.stacked ss items := by
  have hz : InB ss (ss.map (fun _ => 0)) := by
    clear hs hev
    induction ss with
    | nil => trivial
    | cons n ss ih =>
      simp only [List.prod_cons, ne_eq, Nat.mul_eq_zero, not_or] at h0
      exact ⟨Nat.pos_of_ne_zero h0.1, ih h0.2⟩
  have hsh : (NDA.stacked ss items).shape = ss ++ s := by simp only [NDA.stacked]; rw [hs _ hz]
  obtain ⟨σ, hσ1, hσ2, hσ3⟩ := resolve_fulls s
  obtain ⟨r, h1, h2, h3⟩ := store_loop (A := NDA.stacked ss items) (fun data i => do
        let d ← ev i
        stackStore data i d)
      (fun i => i.map (fun (x : Nat) => Key.int x) ++ List.replicate s.length Key.full) (ndindex ss) (by
    intro i hi t ht
    have hin := (mem_ndindex ss i).mp hi
    obtain ⟨d, hd1, hd2⟩ := hev i hin
    refine ⟨d, i.map Sel.at ++ σ, ?_, (exact_ints i).append (exact_replicate_full _), ?_, ?_⟩
    · simp only [hd1, bind, Except.bind, stackStore, ht, hsh, List.length_append, hin.length, Nat.add_sub_cancel_left]
    · rw [hsh]
      exact resolve_append (exact_ints i) (resolve_ints hin) hσ1
    · refine hd2.trans ⟨?_, ?_⟩
      · simp [NDA.ortho, selShape_ats, hσ2, hs i hin]
      · intro idx hidx
        rw [hs i hin] at hidx
        simp only [NDA.ortho, selSrc_ats, hσ3 idx hidx, NDA.stacked]
        rw [List.take_append_of_le_length (by rw [hin.length]), List.take_of_length_le (by rw [hin.length]),
          List.drop_append_of_le_length (by rw [hin.length]), List.drop_of_length_le (by rw [hin.length])]
        rfl) ⟨ss ++ s, fun _ => default⟩ hsh.symm
  refine ⟨r, h1, h2, ?_⟩
  intro idx hidx
  apply h3
  left
  rw [h2, hsh] at hidx
  obtain ⟨i1, i2⟩ := inB_split hidx
  refine ⟨idx.take ss.length, (mem_ndindex _ _).mpr i1, ?_⟩
  rw [hsh]
  conv => lhs; arg 3; rw [← List.take_append_drop ss.length idx]
  apply inRegion_append
  · generalize idx.take ss.length = j at i1
    clear h0 hs hev hz hsh h1 h2 h3 i2 hidx
    induction ss generalizing j with
    | nil => match j, i1 with
      | [], _ => rfl
    | cons n ss ih =>
      match j, i1 with
      | x :: j, i1 =>
        simp only [List.map_cons, inRegion, Bool.and_eq_true, decide_eq_true_eq]
        exact ⟨by rw [keyPos_int x n i1.1]; simp, ih j i1.2⟩
  · exact inRegion_full s _ i2

/-! ### mosaics -/

theorem mosaic_eval [Inhabited V] {n axis : Nat} {s : List Nat} {tiles : Nat → NDA V} {ev : Nat → Res (NDA V)}
    {tshape : Nat → Res (List Nat)} (h0 : 0 < n) (hax : axis < s.length)
    (hs : ∀ i, i < n → ∃ k, (tiles i).shape = s.set axis k) (hts : ∀ i, i < n → tshape i = .ok (tiles i).shape)
    (hev : ∀ i, i < n → ∃ d, ev i = .ok d ∧ d ≈ₐ tiles i) :
    ∃ r off, (List.range n).foldlM (fun (st : NDA V × Nat) i => do
        let ts ← tshape i
        let d ← ev i
        let data ← mosaicStore axis st.1 st.2 (ts.getD axis 0) d
        return (data, st.2 + ts.getD axis 0))
      (⟨(NDA.concat n tiles axis).shape, fun _ => default⟩, 0) = .ok (r, off) ∧ r ≈ₐ NDA.concat n tiles axis := by
  set A := NDA.concat n tiles axis with hA
  set lens := (List.range n).map (fun i => (tiles i).shape.getD axis 0) with hlens
  have hAs : A.shape = s.set axis lens.sum := by
    obtain ⟨k, hk⟩ := hs 0 h0
    simp only [hA, NDA.concat, hk, List.set_set]
    rw [hlens]
  obtain ⟨sp, n0, sr, hsplit, hspl⟩ : ∃ sp n0 sr, s = sp ++ n0 :: sr ∧ sp.length = axis := by
    refine ⟨s.take axis, s[axis], s.drop (axis + 1), ?_, by simp; omega⟩
    rw [← List.drop_eq_getElem_cons hax, List.take_append_drop]
  have hset : ∀ k, s.set axis k = sp ++ k :: sr := by
    intro k; rw [hsplit]; exact set_middle _ _ _ _ _ hspl
  have hlenget : ∀ i, i < n → (tiles i).shape = sp ++ lens.getD i 0 :: sr := by
    intro i hi
    obtain ⟨k, hk⟩ := hs i hi
    have : lens.getD i 0 = k := by
      rw [hlens, List.getD_eq_getElem?_getD, List.getElem?_map, List.getElem?_range hi]
      simp only [Option.map_some, Option.getD_some, hk, hset]
      exact getD_middle _ _ _ _ _ hspl
    rw [this, hk, hset]
  have hAs' : A.shape = sp ++ lens.sum :: sr := by rw [hAs, hset]
  obtain ⟨σp, hp1, hp2, hp3⟩ := resolve_fulls sp
  obtain ⟨σr, hr1, hr2, hr3⟩ := resolve_fulls sr
  have hll : lens.length = n := by simp [hlens]
  -- the loop
  have key : ∀ j, j ≤ n → ∃ r, (List.range j).foldlM (fun (st : NDA V × Nat) i => do
        let ts ← tshape i
        let d ← ev i
        let data ← mosaicStore axis st.1 st.2 (ts.getD axis 0) d
        return (data, st.2 + ts.getD axis 0)) ((⟨A.shape, fun _ => default⟩ : NDA V), 0) = .ok (r, (lens.take j).sum) ∧
      r.shape = A.shape ∧ ∀ idx, InB A.shape idx → idx.getD axis 0 < (lens.take j).sum → r.get idx = A.get idx := by
    intro j
    induction j with
    | zero => intro _; exact ⟨_, rfl, rfl, fun idx _ h => by simp at h⟩
    | succ j ih =>
      intro hj
      obtain ⟨r, hr, hrs, hrg⟩ := ih (by omega)
      obtain ⟨d, hd1, hd2⟩ := hev j (by omega)
      have htj := hlenget j (by omega)
      have hlj : (tiles j).shape.getD axis 0 = lens.getD j 0 := by rw [htj]; exact getD_middle _ _ _ _ _ hspl
      set off := (lens.take j).sum with hoff
      have hsum : (lens.take (j + 1)).sum = off + lens.getD j 0 := by
        rw [List.take_add_one, List.sum_append, ← hoff, List.getD_eq_getElem?_getD,
          List.getElem?_eq_getElem (by omega)]
        simp
      have hle : off + lens.getD j 0 ≤ lens.sum := by
        rw [← hsum]
        conv => rhs; rw [← List.take_append_drop (j + 1) lens]
        rw [List.sum_append]; omega
      have hkeys : (List.replicate r.shape.length Key.full).set axis (Key.span off (off + lens.getD j 0)) =
          List.replicate sp.length Key.full ++ Key.span off (off + lens.getD j 0) ::
            List.replicate sr.length Key.full := by
        rw [hrs, hAs']
        simp only [List.length_append, List.length_cons]
        rw [show sp.length + (sr.length + 1) = sp.length + 1 + sr.length by omega, List.replicate_add, List.replicate_add]
        rw [List.append_assoc, show List.replicate 1 Key.full ++ List.replicate sr.length Key.full =
          Key.full :: List.replicate sr.length Key.full from rfl]
        exact set_middle _ _ _ _ _ (by simp [hspl])
      have hres : resolve (List.replicate sp.length Key.full ++ Key.span off (off + lens.getD j 0) ::
            List.replicate sr.length Key.full) A.shape =
          .ok (σp ++ .pick (List.range' off (lens.getD j 0)) :: σr) := by
        rw [hAs']
        apply resolve_append (exact_replicate_full _) hp1
        rw [resolve_cons_iff (by rfl)]
        refine ⟨lens.sum, sr, _, σr, rfl, rfl, ?_, hr1⟩
        rw [resolve1_span _ _ _ (by omega) hle]
        simp
      have hex : Exact (List.replicate sp.length Key.full ++ Key.span off (off + lens.getD j 0) ::
            List.replicate sr.length Key.full) := by
        apply (exact_replicate_full _).append
        intro k hk
        rcases List.mem_cons.mp hk with rfl | hk
        · exact ⟨rfl, rfl⟩
        · exact exact_replicate_full _ k hk
      have hdA : d ≈ₐ A.ortho (σp ++ .pick (List.range' off (lens.getD j 0)) :: σr) := by
        refine hd2.trans ⟨?_, ?_⟩
        · simp [NDA.ortho, selShape_append, selShape, hp2, hr2, htj]
        · intro idx hidx
          rw [htj] at hidx
          obtain ⟨i1, i2⟩ := inB_split hidx
          have hl1 := i1.length
          match hd : idx.drop sp.length, i2 with
          | x :: i3, i2 =>
            obtain ⟨hx, i3'⟩ := i2
            have hidx' : idx = idx.take sp.length ++ x :: i3 := by rw [← hd, List.take_append_drop]
            set ip := idx.take sp.length with hip
            simp only [NDA.ortho]
            have hsrc : selSrc (σp ++ Sel.pick (List.range' off (lens.getD j 0)) :: σr) idx = ip ++ (off + x) :: i3 := by
              rw [hidx', selSrc_append (by rw [hp2, List.take_append_of_le_length (by omega), List.take_of_length_le (by omega)]; exact i1)]
              rw [hp2, List.take_append_of_le_length (by omega), List.take_of_length_le (by omega),
                List.drop_append_of_le_length (by omega), List.drop_of_length_le (by omega), hp3 ip i1]
              simp only [List.nil_append, selSrc, hr3 i3 i3']
              congr 2
              rw [List.getD_eq_getElem?_getD, List.getElem?_range' (by exact hx)]
              simp
            rw [hsrc, hA]
            simp only [NDA.concat]
            rw [← hlens, getD_middle _ _ _ _ _ (by omega : ip.length = axis)]
            have hloc : locate lens (off + x) = (j, x) := by
              rw [hoff]
              exact locate_offset lens j (lens.getD j 0) x (getD_some 0 (by omega)) hx
            rw [hloc]
            simp only
            rw [set_middle _ _ _ _ _ (by omega : ip.length = axis), ← hidx']
      obtain ⟨r', hst, hst2, hst3⟩ := storeChunk_ok hrs hex hres hdA
      refine ⟨r', ?_, hst2, ?_⟩
      · rw [List.range_succ, List.foldlM_append, hr]
        simp only [List.foldlM_cons, List.foldlM_nil, bind, Except.bind, hts j (by omega), hd1, mosaicStore, hlj, hkeys, hst,
          pure, Except.pure, hsum]
      · intro idx hidx hlt
        rw [hst3]
        split
        · rfl
        · rename_i hreg
          apply hrg idx hidx
          by_contra hge
          apply hreg
          rw [hAs'] at hidx ⊢
          obtain ⟨i1, i2⟩ := inB_split hidx
          have hl1 := i1.length
          match hd : idx.drop sp.length, i2 with
          | x :: i3, i2 =>
            have hidx' : idx = idx.take sp.length ++ x :: i3 := by rw [← hd, List.take_append_drop]
            rw [hidx']
            apply inRegion_append (inRegion_full _ _ i1)
            simp only [inRegion, Bool.and_eq_true, decide_eq_true_eq]
            refine ⟨?_, inRegion_full _ _ i2.2⟩
            rw [keyPos_span _ _ _ (by omega) hle]
            have hx : idx.getD axis 0 = x := by
              rw [hidx']; exact getD_middle _ _ _ _ _ (by omega)
            rw [hx] at hge hlt
            rw [List.mem_range'_1]
            omega
  obtain ⟨r, h1, h2, h3⟩ := key n (Nat.le_refl n)
  refine ⟨r, _, h1, h2, fun idx hidx => h3 idx (by rw [← h2]; exact hidx) ?_⟩
  rw [List.take_of_length_le (by omega)]
  rw [h2, hAs'] at hidx
  obtain ⟨i1, i2⟩ := inB_split hidx
  have hl1 := i1.length
  match hd : idx.drop sp.length, i2 with
  | x :: i3, i2 =>
    have hidx' : idx = idx.take sp.length ++ x :: i3 := by rw [← hd, List.take_append_drop]
    rw [hidx', getD_middle _ _ _ _ _ (by omega)]
    exact i2.1

/-! ### element-wise -/

theorem bcastRev_self (s : List Nat) : bcastRev s s = some s := by
  induction s with
  | nil => rfl
  | cons n s ih => simp [bcastRev, ih]

theorem bcastIdx_self {s idx : List Nat} (h : InB s idx) : bcastIdx s idx = idx := by
  unfold bcastIdx
  rw [h.length, Nat.sub_self, List.drop_zero]
  induction s generalizing idx with
  | nil => match idx, h with
    | [], _ => rfl
  | cons n s ih =>
    match idx, h with
    | i :: idx, h =>
      rw [List.zipWith_cons_cons, ih h.2]
      obtain ⟨h1, _⟩ := h
      congr 1
      split <;> omega

theorem npOp2_ok {f : V → V → V} {a b A B : NDA V} (ha : a ≈ₐ A) (hb : b ≈ₐ B) (hs : A.shape = B.shape) :
    ∃ r, npOp2 f a b = .ok r ∧ r ≈ₐ A.zip B f := by
  have h1 : a.shape = A.shape := ha.1
  have h2 : b.shape = A.shape := by rw [hb.1, hs]
  unfold npOp2 bcastShape
  rw [h1, h2, bcastRev_self]
  refine ⟨_, rfl, by simp [NDA.zip], ?_⟩
  intro idx hidx
  simp only [List.reverse_reverse] at hidx
  simp only [NDA.bcastTo, NDA.zip, h1, h2, List.reverse_reverse]
  rw [bcastIdx_self hidx, ha.2 idx (by rw [h1]; exact hidx), hb.2 idx (by rw [h2]; exact hidx)]

end Biggus

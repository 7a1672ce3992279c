import Verif.Proofs.Memory
import Verif.Proofs.Threads
/-
The chunks of a group of arrays have at most `limit` elements.
-/
namespace Biggus

variable {α V : Type}

/-- No aggregation is along an axis of length 0. -/
def Skel.solid : Skel → Prop
  | .prod _ => True
  | .agg s axis => s.shape.getD axis 0 ≠ 0 ∧ s.solid

theorem Skel.cuts_ok (limit : Nat) : ∀ sk : Skel, CutsOk (sk.cuts limit) sk.shape
  | .prod s => allSlices_ok limit s
  | .agg s axis => (Skel.cuts_ok limit s).eraseIdx axis

theorem sliceOk_pos {k : Key} {n : Nat} (h : SliceOk k n) (hn : n ≠ 0) : 1 ≤ (keyPos k n).length := by
  obtain ⟨_, l, h1, h2, _⟩ := h
  unfold keyPos
  rw [h1]
  exact List.length_pos_iff.mpr (h2 hn)

theorem cart_erase : ∀ (cuts : List (List Key)) (shape : List Nat) (axis : Nat) (ks : List Key), CutsOk cuts shape → shape.getD axis 0 ≠ 0 →
    ks ∈ cart (cuts.eraseIdx axis) → ∃ ks' ∈ cart cuts, regionSize ks (shape.eraseIdx axis) ≤ regionSize ks' shape
  | [], [], axis, ks, _, h, _ => by simp at h
  | c :: cs, n :: ns, 0, ks, hc, hn, hk => by
    cases hc with
    | cons h1 h2 =>
    have hn' : n ≠ 0 := by simpa using hn
    match c, h1 with
    | [], h1 => exact absurd rfl h1.ne
    | k :: c, h1 =>
      have hk1 := sliceOk_pos (h1.slices k (by simp)) hn'
      refine ⟨k :: ks, ?_, ?_⟩
      · simp only [List.eraseIdx_zero, List.tail_cons] at hk
        simp only [cart, List.mem_flatMap, List.mem_map]
        exact ⟨k, by simp, ks, hk, rfl⟩
      · simp only [List.eraseIdx_zero, List.tail_cons, regionSize]
        exact Nat.le_mul_of_pos_left _ hk1
  | c :: cs, n :: ns, axis + 1, ks, hc, hn, hk => by
    cases hc with
    | cons h1 h2 =>
    simp only [List.eraseIdx_cons_succ, cart, List.mem_flatMap, List.mem_map] at hk
    obtain ⟨k, hk1, ks1, hk2, rfl⟩ := hk
    obtain ⟨ks', h3, h4⟩ := cart_erase cs ns axis ks1 h2 (by simpa using hn) hk2
    refine ⟨k :: ks', ?_, ?_⟩
    · simp only [cart, List.mem_flatMap, List.mem_map]
      exact ⟨k, hk1, ks', h3, rfl⟩
    · simp only [List.eraseIdx_cons_succ, regionSize]
      exact Nat.mul_le_mul_left _ h4

theorem Skel.cuts_limit {limit : Nat} (hl : 1 ≤ limit) : ∀ (sk : Skel), sk.solid → ∀ ks ∈ cart (sk.cuts limit), regionSize ks sk.shape ≤ limit
  | .prod s, _, ks, hk => (cart_limit limit hl true s ks hk).1
  | .agg s axis, h, ks, hk => by
    obtain ⟨ks', h1, h2⟩ := cart_erase _ _ axis ks (s.cuts_ok limit) h.1 hk
    exact le_trans h2 (Skel.cuts_limit hl s h.2 ks' h1)

theorem resolve_size : ∀ {ks : List Key} {s : List Nat}, List.Forall₂ SliceOk ks s → ∀ {σ}, resolve ks s = .ok σ →
    (selShape σ).prod = regionSize ks s ∧ ∀ axis, s.getD axis 0 ≠ 0 → (selShape σ).getD axis 0 ≠ 0 := by
  intro ks s h
  induction h with
  | nil => intro σ hσ; cases hσ; exact ⟨rfl, by simp⟩
  | @cons k n ks ns hr ht ih =>
    intro σ hσ
    obtain ⟨⟨sl, rfl, _⟩, l, h1, h2, h3⟩ := hr
    simp only [resolve, h1] at hσ
    obtain ⟨τ, hτ, e⟩ := bind_ok.mp (show (resolve ks ns >>= fun τ => .ok (Sel.pick l :: τ)) = .ok σ from hσ)
    cases e
    obtain ⟨i1, i2⟩ := ih hτ
    refine ⟨?_, ?_⟩
    · simp only [selShape, List.prod_cons, regionSize, i1]
      unfold keyPos
      rw [h1]
    · intro axis
      cases axis with
      | zero =>
        simp only [List.getD_cons_zero, selShape]
        intro hn
        have := h2 hn
        simpa using this
      | succ axis => simpa [selShape] using i2 axis

theorem prod_eraseIdx_le : ∀ (s : List Nat) (axis : Nat), s.getD axis 0 ≠ 0 → (s.eraseIdx axis).prod ≤ s.prod
  | [], _, h => by simp at h
  | n :: ns, 0, h => by
    simp only [List.eraseIdx_zero, List.tail_cons, List.prod_cons]
    exact Nat.le_mul_of_pos_left _ (Nat.pos_of_ne_zero (by simpa using h))
  | n :: ns, axis + 1, h => by
    simp only [List.eraseIdx_cons_succ, List.prod_cons]
    exact Nat.mul_le_mul_left _ (prod_eraseIdx_le ns axis (by simpa using h))

/-- The chunks of a stream have at most `limit` elements. -/
theorem streamOk_size {limit : Nat} (hl : 1 ≤ limit) {A : NDA V} {sk : Skel} (hsh : sk.shape = A.shape) (hso : sk.solid) {order : List Nat} {cs : List (Chunk V)}
    (hp : order.Perm (List.range A.shape.length)) (h : StreamOk A (sk.cuts limit) order cs) :
    ∀ c ∈ cs, c.2.shape.prod ≤ limit ∧ ∀ axis, A.shape.getD axis 0 ≠ 0 → c.2.shape.getD axis 0 ≠ 0 := by
  intro c hc
  have hcuts := sk.cuts_ok limit
  rw [hsh] at hcuts
  have hk : c.1 ∈ chunkKeysOf (sk.cuts limit) order := by rw [← h.keys]; exact List.mem_map_of_mem hc
  have hs := chunkKeys_ok hcuts hp hk
  obtain ⟨σ, h1, h2⟩ := h.data c hc
  obtain ⟨e1, e2⟩ := resolve_size hs h1
  have e3 : c.2.shape = selShape σ := h2.1
  have hcart := (chunkKeysOf_perm_cart (n := A.shape.length) hp (sk.cuts limit) hcuts.length hcuts.nodup).1.mem_iff.mp hk
  have := sk.cuts_limit hl hso c.1 hcart
  rw [hsh, ← e1] at this
  rw [e3]
  exact ⟨this, e2⟩

theorem skel_solid [Inhabited V] (m : Mode α V) : ∀ (a : Arr α), a.WF → a.solid → a.skel.solid
  | .agg a axis k, hw, h => by
    obtain ⟨hwa, s, hs, hax⟩ := hw
    refine ⟨?_, skel_solid m a hwa h.2⟩
    rw [(skel_shape m a hwa).2, hwa.den_shape m hs]
    have := h.1
    rwa [hs] at this
  | .elem1 a op, hw, h => skel_solid m a hw h
  | .elem2 a b op, hw, h => skel_solid m a hw.1 h.1
  | .adapter .., _, _ | .const .., _, _ | .newAxes .., _, _ | .bcast .., _, _ | .transposed .., _, _ | .stack .., _, _
  | .mosaic .., _, _ | .asType .., _, _ | .maskVal .., _, _ => trivial

section
variable [Inhabited α] [Inhabited V] {m : Mode α V} {limit : Nat} {G : Arr α → Prop} {evalP : Arr α → Res (NDA V)} {heap : Nat → AObj α} {ord : Nat → List Nat}

structure Fit (m : Mode α V) (limit : Nat) (G : Arr α → Prop) (a : Arr α) (o : List Nat) : Prop where
  wf : a.WF
  good : a.streamGood m limit G
  solid : a.solid
  perm : o.Perm (List.range (a.den m).shape.length)

/-- The chunks of a node of size at most `limit`. -/
def SmallAt (limit : Nat) (N : Graph (Chunk V) (NDA V)) (i : Nat) : Prop := ∀ c, Tok.chunk c ∈ N.tokens i → c.2.shape.prod ≤ limit

theorem makeNode_small (hl : 1 ≤ limit) (hE : ∀ b : Arr α, b.WF → G b → ∃ r, evalP b = .ok r ∧ r ≈ₐ b.den m) {x : AObj α} {o : List Nat} {b b' : Build V} {T : Nat → List Nat} {n : Nat}
    (hb : BInv False False heap ord m limit evalP b T) (ha : Asked False False heap ord m limit evalP x o) (hf : Fit m limit G x.toArr o)
    (h : makeNode m limit evalP x o b = .ok (n, b')) : (∃ T', BInv False False heap ord m limit evalP b' T') ∧ n < b'.nodes.length ∧ b.nodes <+: b'.nodes ∧
      (∀ c, Tok.chunk c ∈ b'.nodes.tokens n → c.2.shape.prod ≤ limit ∧ ∀ axis, (x.toArr.den m).shape.getD axis 0 ≠ 0 → c.2.shape.getD axis 0 ≠ 0) := by
  rcases makeNode_ok x o b T hb ha with ⟨e, e', h1, h2⟩ | ⟨n', b'', T', h1, h2, h3, h4, h5, h6, h7⟩
  · rw [h1] at h; cases h
  · rw [h1] at h; cases h
    refine ⟨⟨T', h2⟩, h3, h6, fun c hc => ?_⟩
    obtain ⟨cs, k1, k2, _⟩ := stream_ok m limit G evalP hE x.toArr hf.wf hf.good o hf.perm
    rw [k1] at h4
    obtain ⟨e1, _⟩ := h4
    rw [e1] at hc
    have hcs : c ∈ cs := by simpa using hc
    exact streamOk_size hl (skel_shape m _ hf.wf).2 (skel_solid m _ hf.wf hf.solid) hf.perm k2 c hcs

omit [Inhabited V] in
theorem connections_snoc {N : Graph (Chunk V) (NDA V)} {g : GNode (Chunk V) (NDA V)} : Graph.connections (N ++ [g]) = N.connections + g.sources.length := by
  unfold Graph.connections
  rw [List.length_append, List.length_singleton, List.range_succ, List.map_append, List.sum_append]
  simp only [List.map_cons, List.map_nil, List.sum_cons, List.sum_nil, sources_last]
  congr 2
  apply List.map_congr_left
  intro i hi
  rw [sources_append (List.mem_range.mp hi)]

/-- The graph of a group: chunks and partial results are small; every node but those of `S` is used by another one or is a result
node. -/
structure Sized (limit : Nat) (S : List Nat) (N : Graph (Chunk V) (NDA V)) : Prop where
  small : ∀ i, i < N.length → SmallAt limit N i
  stores : ∀ i, i < N.length → N.Stores limit i
  used : ∀ i, i < N.length → i ∈ S ∨ (∃ k, i ∈ N.sources k) ∨ N.Silent i ∧ ∀ t, N[i]? ≠ some (.prod t)

omit [Inhabited V] in
theorem Sized.snoc {S S' : List Nat} {N : Graph (Chunk V) (NDA V)} {g : GNode (Chunk V) (NDA V)} (hv : N.Valid) (h : Sized limit S N)
    (hs : ∀ s ∈ g.sources, s < N.length)
    (h1 : SmallAt limit (N ++ [g]) N.length) (h2 : Graph.Stores (N ++ [g]) limit N.length)
    (hS : ∀ i ∈ S, i ∈ S' ∨ i ∈ g.sources) (h3 : N.length ∈ S' ∨ Graph.Silent (N ++ [g]) N.length ∧ ∀ t, g ≠ .prod t) : Sized limit S' (N ++ [g]) := by
  have key : ∀ i, i < (N ++ [g]).length → i < N.length ∨ i = N.length := by
    intro i hi; simp at hi; omega
  refine ⟨fun i hi => ?_, fun i hi => ?_, fun i hi => ?_⟩
  · rcases key i hi with hi | rfl
    · intro c hc
      rw [(tokens_append N [g] hi).1] at hc
      exact h.small i hi c hc
    · exact h1
  · rcases key i hi with hi | rfl
    · intro s o hg
      rw [List.getElem?_append_left hi] at hg
      obtain ⟨a1, a2⟩ := h.stores i hi s o hg
      refine ⟨a1, fun st cs r b1 b2 b3 => a2 st cs r b1 (fun c hc => ?_) b3⟩
      obtain ⟨j, hj, ht⟩ := b2 c hc
      refine ⟨j, hj, ?_⟩
      have hjl : j < N.length := by
        have : j ∈ N.sources i := by unfold Graph.sources; rw [hg]; exact hj
        exact lt_trans (hv.1 i j this) hi
      rwa [(tokens_append N [g] hjl).1] at ht
    · exact h2
  · rcases key i hi with hi | rfl
    · rcases h.used i hi with h' | ⟨k, hk⟩ | ⟨h', h''⟩
      · rcases hS i h' with h' | h'
        · exact Or.inl h'
        · refine Or.inr (Or.inl ⟨N.length, ?_⟩)
          rw [sources_last]; exact h'
      · refine Or.inr (Or.inl ⟨k, ?_⟩)
        have hkl : k < N.length := by
          by_contra hk'
          rw [sources_out (by omega)] at hk
          cases hk
        rw [sources_append hkl]; exact hk
      · refine Or.inr (Or.inr ⟨?_, ?_⟩)
        · intro s o hg
          rw [List.getElem?_append_left hi] at hg
          exact h' s o hg
        · intro t
          rw [List.getElem?_append_left hi]
          exact h'' t
    · rcases h3 with h3 | ⟨h3, h4⟩
      · exact Or.inl h3
      · refine Or.inr (Or.inr ⟨h3, fun t => ?_⟩)
        rw [List.getElem?_append_right (le_refl _)]
        simpa using h4 t

omit [Inhabited V] in
theorem stores_zero {N : Graph (Chunk V) (NDA V)} {g : GNode (Chunk V) (NDA V)} (h : ∀ s (o : Obj (Chunk V) (NDA V)), g = .cons s o → ∀ st, o.stored st = 0) :
    Graph.Stores (N ++ [g]) limit N.length := by
  intro s o hg
  rw [List.getElem?_append_right (le_refl _)] at hg
  simp only [Nat.sub_self, List.getElem?_cons_zero, Option.some.injEq] at hg
  refine ⟨by rw [h s o hg]; omega, fun st cs r _ _ _ => by rw [h s o hg]; omega⟩

omit [Inhabited V] in
theorem aggProcessData_shape {h : Handler V} {axis : Nat} {st r : NDA h.σ} {d : NDA V} (e : aggProcessData h axis st d = .ok r) : r.shape = st.shape := by
  unfold aggProcessData at e
  split at e
  · cases e
  · split at e
    · split at e
      · cases e
      · cases e; rfl
    · cases e; rfl

omit [Inhabited V] in
theorem stores_agg {N : Graph (Chunk V) (NDA V)} (h : Handler V) (axis k n : Nat) (hn : n < N.length)
    (hc : ∀ c, Tok.chunk c ∈ N.tokens n → (c.2.shape.eraseIdx axis).prod ≤ limit) : Graph.Stores (N ++ [.cons [n] (aggObj h axis k)]) limit N.length := by
  intro s o hg
  rw [List.getElem?_append_right (le_refl _)] at hg
  simp only [Nat.sub_self, List.getElem?_cons_zero, Option.some.injEq, GNode.cons.injEq] at hg
  obtain ⟨rfl, rfl⟩ := hg
  refine ⟨Nat.zero_le _, fun st cs r hst hcs hp => ?_⟩
  match cs, hp with
  | [c], hp =>
    obtain ⟨j, hj, ht⟩ := hcs c (by simp)
    simp only [List.mem_singleton] at hj
    subst hj
    rw [(tokens_append N _ hn).1] at ht
    have hcl := hc c ht
    obtain ⟨⟨st', out⟩, h1, h2⟩ := bind_ok.mp (show (aggProcessChunk h axis k st c >>= fun p => Except.ok (p.1, p.2.head?)) = .ok r from hp)
    cases h2
    show (aggObj h axis k).stored st' ≤ limit
    match st, h1, hst with
    | none, h1, _ =>
      obtain ⟨s', h3, h4⟩ := bind_ok.mp (show (aggProcessData h axis ⟨c.2.shape.eraseIdx axis, fun _ => h.boot⟩ c.2 >>= fun s' => Except.ok (some (c.1.eraseIdx axis, s'), [])) = .ok (st', out) from h1)
      cases h4
      show s'.shape.prod ≤ limit
      rw [aggProcessData_shape h3]; exact hcl
    | some (cur, s), h1, hst =>
      unfold aggProcessChunk at h1
      simp only at h1
      split at h1
      · obtain ⟨s', h3, h4⟩ := bind_ok.mp h1
        cases h4
        show s'.shape.prod ≤ limit
        rw [aggProcessData_shape h3]; exact hcl
      · obtain ⟨s', h3, h4⟩ := bind_ok.mp h1
        cases h4
        show s'.shape.prod ≤ limit
        rw [aggProcessData_shape h3]; exact hst


theorem Fit.agg_src {a : Arr α} {axis : Nat} {k : AggKind α} {o : List Nat} (h : Fit m limit G (.agg a axis k) o) : Fit m limit G a (aggOrder axis o) := by
  obtain ⟨⟨w1, s, w2, w3⟩, h2, h3, h4⟩ := h
  refine ⟨w1, h2.2.2, h3.2, ?_⟩
  have hd := w1.den_shape m w2
  have hsh : ((Arr.agg a axis k).den m).shape = (a.den m).shape.eraseIdx axis := rfl
  rw [hsh, List.length_eraseIdx, if_pos (by rw [hd]; exact w3)] at h4
  exact aggOrder_perm' (by rw [hd]; exact w3) h4

theorem den_elem2_shape {a b : Arr α} {op : Op2 α} (hw : (Arr.elem2 a b op).WF) :
    ((Arr.elem2 a b op).den m).shape = (a.den m).shape ∧ (b.den m).shape = (a.den m).shape := by
  refine ⟨Arr.WF.den_shape m hw (by rw [Arr.shape]; exact hw.1.shape_eq m), ?_⟩
  have e1 := hw.1.shape_eq m
  have e2 := hw.2.1.shape_eq m
  rw [hw.2.2, e2] at e1
  exact Except.ok.inj e1

theorem Fit.asked {x : AObj α} {o : List Nat} (hf : Fit m limit G x.toArr o) (h1 : x.inHeap heap) (h2 : x.Proper) (h3 : x.served m limit evalP ord o) :
    Asked False False heap ord m limit evalP x o :=
  ⟨h1, h2, h3, hf.wf, aligned_of_streamGood _ o hf.wf hf.good hf.perm, ⟨_, hf.wf.shape_eq m, hf.perm⟩, False.elim, False.elim⟩

theorem consRun_result_silent : ∀ (rs : List (List (Tok (Chunk V)))) (r : NDA V) (c : Chunk V), Tok.chunk c ∉ (consRun (resultObjAt r) rs).1
  | [], r, c => by simp [consRun]
  | t :: rs, r, c => by
    rw [consRun]
    split
    · simp
    · split
      · simp [resultObjAt, resultObj, outTok]
      · split
        · simp
        · rename_i st' o hp
          have ih := consRun_result_silent rs st' c
          match hcs : t.filterMap Tok.chunk?, hp with
          | [], hp => cases hp
          | [x], hp =>
            obtain ⟨r', _, h2⟩ := bind_ok.mp (show (storeChunk r x >>= fun r' => Except.ok (r', none)) = .ok (st', o) from hp)
            cases h2
            intro hc
            rcases List.mem_append.mp hc with hc | hc
            · simp [outTok] at hc
            · exact ih hc
          | _ :: _ :: _, hp => cases hp

theorem makeNode_sized (hl : 1 ≤ limit) (hE : ∀ b : Arr α, b.WF → G b → ∃ r, evalP b = .ok r ∧ r ≈ₐ b.den m) : ∀ (x : AObj α) (o S : List Nat) (b b' : Build V) (T : Nat → List Nat) (n : Nat),
    BInv False False heap ord m limit evalP b T → x.inHeap heap → x.Proper → x.served m limit evalP ord o → Fit m limit G x.toArr o → Sized limit S b.nodes →
    makeNode m limit evalP x o b = .ok (n, b') → Sized limit (n :: S) b'.nodes ∧ b'.nodes.length ≤ b.nodes.length + x.ids.length ∧ b'.nodes.connections + 1 ≤ b.nodes.connections + x.ids.length := by
  have hcached : ∀ (x : AObj α) (S : List Nat) (b b' : Build V) (n n' : Nat), Sized limit S b.nodes → (.ok (n', b) : Res (Nat × Build V)) = .ok (n, b') →
      Sized limit (n :: S) b'.nodes ∧ b'.nodes.length ≤ b.nodes.length + x.ids.length ∧ b'.nodes.connections + 1 ≤ b.nodes.connections + x.ids.length := by
    intro x S b b' n n' hs h
    cases h
    exact ⟨⟨hs.small, hs.stores, fun i hi => (hs.used i hi).imp (List.mem_cons_of_mem _) _root_.id⟩, by omega, by
      have : 0 < x.ids.length := List.length_pos_of_mem x.id_mem
      omega⟩
  intro x
  induction x with
  | prod id a =>
    intro o S b b' T n hb hh hp hsv hf hs h
    obtain ⟨hb', hn, hpre, hsm⟩ := makeNode_small hl hE hb (hf.asked hh hp hsv) hf h
    rw [makeNode] at h
    match hlk : b.cache.lookup id with
    | some n' => rw [hlk] at h; exact hcached _ S b b' n n' hs h
    | none =>
      rw [hlk] at h
      simp only at h
      have e := hf.wf.shape_eq m
      have e' : a.shape = .ok (a.den m).shape := e
      rw [e'] at h
      simp only [andThen] at h
      split at h
      · cases h
      · cases h
        refine ⟨hs.snoc hb.valid (by simp [GNode.sources]) (fun c hc => (hsm c hc).1) (stores_zero (fun _ _ h => by cases h)) (fun i hi => Or.inl (List.mem_cons_of_mem _ hi))
          (Or.inl (by simp [Build.add])), by simp [Build.add, AObj.ids], by simp [Build.add, connections_snoc, AObj.ids, GNode.sources]⟩
  | agg id x axis k ih =>
    intro o S b b' T n hb hh hp hsv hf hs h
    obtain ⟨hb', hn, hpre, hsm⟩ := makeNode_small hl hE hb (hf.asked hh hp hsv) hf h
    rw [makeNode] at h
    match hlk : b.cache.lookup id with
    | some n' => rw [hlk] at h; exact hcached _ S b b' n n' hs h
    | none =>
      rw [hlk] at h
      simp only at h
      have hfx := Fit.agg_src (a := x.toArr) hf
      rw [hfx.wf.shape_eq m] at h
      simp only [andThen] at h
      match hm : makeNode m limit evalP x (aggOrder axis o) b with
      | .error e => rw [hm] at h; cases h
      | .ok (n1, b1) =>
        rw [hm] at h
        cases h
        obtain ⟨⟨T1, hb1⟩, hn1, _, hsm1⟩ := makeNode_small hl hE hb (hfx.asked hh.2 hp hsv.2) hfx hm
        obtain ⟨i1, i2, i3⟩ := ih (aggOrder axis o) S b b1 T n1 hb hh.2 hp hsv.2 hfx hs hm
        refine ⟨i1.snoc hb1.valid (by simpa [GNode.sources] using hn1) (fun c hc => (hsm c hc).1) (stores_agg _ _ _ _ hn1 (fun c hc => ?_)) ?_
          (Or.inl (by simp [Build.add])), by simp [Build.add, AObj.ids]; omega, by simp [Build.add, connections_snoc, AObj.ids, GNode.sources]; omega⟩
        · obtain ⟨c1, c2⟩ := hsm1 c hc
          refine le_trans (prod_eraseIdx_le _ _ (c2 axis ?_)) c1
          have h0 : (okOr x.toArr.shape []).getD axis 0 ≠ 0 := hf.solid.1
          rwa [hfx.wf.shape_eq m] at h0
        · intro i hi
          rcases List.mem_cons.mp hi with rfl | hi
          · exact Or.inr (by simp [GNode.sources])
          · exact Or.inl (List.mem_cons_of_mem _ hi)
  | elem1 id x op ih =>
    intro o S b b' T n hb hh hp hsv hf hs h
    obtain ⟨hb', hn, hpre, hsm⟩ := makeNode_small hl hE hb (hf.asked hh hp hsv) hf h
    rw [makeNode] at h
    match hlk : b.cache.lookup id with
    | some n' => rw [hlk] at h; exact hcached _ S b b' n n' hs h
    | none =>
      rw [hlk] at h
      simp only at h
      match hop : m.op1 op with
      | none => rw [hop] at h; cases h
      | some f =>
        rw [hop] at h
        simp only at h
        have hfx : Fit m limit G x.toArr o := by
          refine ⟨hf.wf, hf.good.2, hf.solid, ?_⟩
          have := hf.perm
          rwa [show ((AObj.elem1 id x op).toArr.den m).shape = (x.toArr.den m).shape from Arr.WF.den_shape m hf.wf (by rw [AObj.toArr, Arr.shape]; exact Arr.WF.shape_eq m (a := x.toArr) hf.wf)] at this
        match hm : makeNode m limit evalP x o b with
        | .error e => rw [hm] at h; cases h
        | .ok (n1, b1) =>
          rw [hm] at h
          cases h
          obtain ⟨⟨T1, hb1⟩, hn1, _, hsm1⟩ := makeNode_small hl hE hb (hfx.asked hh.2 hp hsv.2) hfx hm
          obtain ⟨i1, i2, i3⟩ := ih o S b b1 T n1 hb hh.2 hp hsv.2 hfx hs hm
          refine ⟨i1.snoc hb1.valid (by simpa [GNode.sources] using hn1) (fun c hc => (hsm c hc).1) (stores_zero (fun s o h => by cases h; intro st; rfl)) ?_
            (Or.inl (by simp [Build.add])), by simp [Build.add, AObj.ids]; omega, by simp [Build.add, connections_snoc, AObj.ids, GNode.sources]; omega⟩
          intro i hi
          rcases List.mem_cons.mp hi with rfl | hi
          · exact Or.inr (by simp [GNode.sources])
          · exact Or.inl (List.mem_cons_of_mem _ hi)
  | elem2 id x y op ihx ihy =>
    intro o S b b' T n hb hh hp hsv hf hs h
    obtain ⟨hb', hn, hpre, hsm⟩ := makeNode_small hl hE hb (hf.asked hh hp hsv) hf h
    rw [makeNode] at h
    match hlk : b.cache.lookup id with
    | some n' => rw [hlk] at h; exact hcached _ S b b' n n' hs h
    | none =>
      rw [hlk] at h
      simp only at h
      match hop : m.op2 op with
      | none => rw [hop] at h; cases h
      | some f =>
        rw [hop] at h
        simp only at h
        obtain ⟨d1, d2⟩ := den_elem2_shape (m := m) (a := x.toArr) (b := y.toArr) (op := op) hf.wf
        have hfx : Fit m limit G x.toArr o := ⟨hf.wf.1, hf.good.2.1, hf.solid.1, by
          have := hf.perm
          rwa [show ((AObj.elem2 id x y op).toArr.den m).shape = (x.toArr.den m).shape from d1] at this⟩
        have hfy : Fit m limit G y.toArr o := ⟨hf.wf.2.1, hf.good.2.2.1, hf.solid.2, by rw [d2]; exact hfx.perm⟩
        match hm : makeNode m limit evalP x o b with
        | .error e => rw [hm] at h; cases h
        | .ok (n1, b1) =>
          rw [hm] at h
          obtain ⟨⟨T1, hb1⟩, hn1, _, hsm1⟩ := makeNode_small hl hE hb (hfx.asked hh.2.1 hp.1 hsv.2.1) hfx hm
          obtain ⟨i1, i2, i3⟩ := ihx o S b b1 T n1 hb hh.2.1 hp.1 hsv.2.1 hfx hs hm
          match hm2 : makeNode m limit evalP y o b1 with
          | .error e => simp only [bind, Except.bind, hm2] at h; cases h
          | .ok (n2, b2) =>
            simp only [bind, Except.bind, hm2] at h
            cases h
            obtain ⟨⟨T2, hb2⟩, hn2, hp2, hsm2⟩ := makeNode_small hl hE hb1 (hfy.asked hh.2.2 hp.2 hsv.2.2) hfy hm2
            obtain ⟨j1, j2, j3⟩ := ihy o (n1 :: S) b1 b2 T1 n2 hb1 hh.2.2 hp.2 hsv.2.2 hfy i1 hm2
            have hn1' : n1 < b2.nodes.length := lt_of_lt_of_le hn1 hp2.length_le
            refine ⟨j1.snoc hb2.valid (by simp [GNode.sources, hn1', hn2]) (fun c hc => (hsm c hc).1) (stores_zero (fun s o h => by cases h; intro st; rfl)) ?_
              (Or.inl (by simp [Build.add])), by simp [Build.add, AObj.ids]; omega, by simp [Build.add, connections_snoc, AObj.ids, GNode.sources]; omega⟩
            intro i hi
            rcases List.mem_cons.mp hi with rfl | hi
            · exact Or.inr (by simp [GNode.sources])
            · rcases List.mem_cons.mp hi with rfl | hi
              · exact Or.inr (by simp [GNode.sources])
              · exact Or.inl (List.mem_cons_of_mem _ hi)

theorem buildGroup_sized (hl : 1 ≤ limit) (hE : ∀ b : Arr α, b.WF → G b → ∃ r, evalP b = .ok r ∧ r ≈ₐ b.den m) : ∀ (xs : List (AObj α)) (b b' : Build V) (T : Nat → List Nat) (rs : List Nat),
    BInv False False heap ord m limit evalP b T →
    (∀ x ∈ xs, x.inHeap heap ∧ x.Proper ∧ x.served m limit evalP ord (List.range (x.toArr.den m).shape.length) ∧ Fit m limit G x.toArr (List.range (x.toArr.den m).shape.length)) →
    Sized limit [] b.nodes → buildGroup m limit evalP xs b = .ok (rs, b') →
    Sized limit [] b'.nodes ∧ b'.nodes.length ≤ b.nodes.length + (xs.flatMap AObj.ids).length + xs.length ∧
      b'.nodes.connections ≤ b.nodes.connections + (xs.flatMap AObj.ids).length ∧ b'.nodes.Valid
  | [], b, b', T, rs, hb, _, hs, h => by
    cases h
    exact ⟨hs, by simp, by simp, hb.valid⟩
  | x :: xs, b, b', T, rs, hb, hx, hs, h => by
    obtain ⟨h1, h2, h3, hf⟩ := hx x (by simp)
    have hsh := hf.wf.shape_eq m
    rw [buildGroup] at h
    simp only [hsh, andThen] at h
    match hm : makeNode m limit evalP x (List.range (x.toArr.den m).shape.length) b with
    | .error e => rw [hm] at h; cases h
    | .ok (n, b1) =>
      rw [hm] at h
      obtain ⟨_, hn1, _, hsm1⟩ := makeNode_small hl hE hb (hf.asked h1 h2 h3) hf hm
      obtain ⟨i1, i2, i3⟩ := makeNode_sized hl hE x _ [] b b1 T n hb h1 h2 h3 hf hs hm
      rcases makeNode_ok x _ b T hb (hf.asked h1 h2 h3) with ⟨e, e', k1, k2⟩ | ⟨n', b'', T', k1, k2, k3, k4, k5, k6, k7⟩
      · rw [k1] at hm; cases hm
      · rw [k1] at hm; cases hm
        obtain ⟨T'', g1, g2⟩ := k2.result hsh k3 k4 False.elim
        obtain ⟨rs', q1, q2⟩ : ∃ rs', buildGroup m limit evalP xs ⟨b1.nodes ++ [.cons [n] (resultObj (x.toArr.den m).shape)], b1.cache⟩ = .ok (rs', b') ∧ rs = b1.nodes.length :: rs' := by
          match hq : buildGroup m limit evalP xs ⟨b1.nodes ++ [.cons [n] (resultObj (x.toArr.den m).shape)], b1.cache⟩ with
          | .error e => simp only [bind, Except.bind, hq] at h; cases h
          | .ok (rs', b2) => simp only [bind, Except.bind, hq] at h; cases h; exact ⟨rs', hq, rfl⟩
        subst q2
        have hsil : Graph.Silent (b1.nodes ++ [.cons [n] (resultObj (V := V) (x.toArr.den m).shape)]) b1.nodes.length := by
          intro s o hg
          rw [List.getElem?_append_right (le_refl _)] at hg
          simp only [Nat.sub_self, List.getElem?_cons_zero, Option.some.injEq, GNode.cons.injEq] at hg
          obtain ⟨rfl, rfl⟩ := hg
          refine ⟨fun st cs r hp => ?_, fun st r hp => by cases hp; rfl⟩
          match cs, hp with
          | [c], hp =>
            obtain ⟨r', _, h2⟩ := bind_ok.mp (show (storeChunk st c >>= fun r' => Except.ok (r', none)) = .ok r from hp)
            cases h2; rfl
        have hsnoc := i1.snoc (S' := []) (g := .cons [n] (resultObj (V := V) (x.toArr.den m).shape)) k2.valid (by simpa [GNode.sources] using hn1) ?_ (stores_zero (fun s o h => by cases h; intro st; rfl))
          (by intro i hi; exact Or.inr (by simpa [GNode.sources] using hi)) (Or.inr ⟨hsil, fun t h => by cases h⟩)
        · obtain ⟨r1, r2, r3, r4⟩ := buildGroup_sized hl hE xs _ b' T'' rs' g1 (fun y hy => hx y (List.mem_cons_of_mem _ hy)) hsnoc q1
          simp only [List.length_append, List.length_cons, List.length_nil] at r2
          simp only [connections_snoc, GNode.sources, List.length_cons, List.length_nil] at r3
          simp only [List.flatMap_cons, List.length_append, List.length_cons]
          exact ⟨r1, by omega, by omega, r4⟩
        · intro c hc
          exfalso
          rw [(tokens_last_cons k2.valid (by simpa using hn1) (by simp)).1] at hc
          exact consRun_result_silent _ _ c hc

end

end Biggus

import Verif.Spec.Threads
import Verif.Props.Groups
import Verif.Proofs.EvalClosed
import Verif.Proofs.StreamKeys
/-
Proofs about threaded evaluation.
-/
namespace Biggus

variable {α V : Type}

/-- The keys of the chunks of a stream. -/
theorem skel_keys (limit : Nat) : ∀ (s : Skel) (o : List Nat), s.WF → o.Perm (List.range s.shape.length) → s.keys limit o = chunkKeysOf (s.cuts limit) o
  | .prod s, o, _, _ => rfl
  | .agg s axis, o, hw, hp => by
    have hax : axis < s.shape.length := hw.2
    have hp' : o.Perm (List.range (s.shape.length - 1)) := by
      have : (Skel.agg s axis).shape.length = s.shape.length - 1 := by
        show (s.shape.eraseIdx axis).length = _
        rw [List.length_eraseIdx, if_pos hax]
      rwa [this] at hp
    have ih := skel_keys limit s (aggOrder axis o) hw.1 (aggOrder_perm' hax hp')
    show dropRepeats ((s.keys limit (aggOrder axis o)).map (fun k => k.eraseIdx axis)) = chunkKeysOf ((s.cuts limit).eraseIdx axis) o
    rw [ih]
    exact agg_keys (s.cutsOk limit hw.1) hax hp'

theorem aligned_of_streamGood [Inhabited α] [Inhabited V] {m : Mode α V} {limit : Nat} {G : Arr α → Prop} : ∀ (a : Arr α) (o : List Nat), a.WF → a.streamGood m limit G →
    o.Perm (List.range (a.den m).shape.length) → a.aligned limit o
  | .agg a axis k, o, hw, h, hp => by
    obtain ⟨hwa, s, hs, hax⟩ := hw
    have hd : (a.den m).shape = s := hwa.den_shape m hs
    have hsh : ((Arr.agg a axis k).den m).shape = (a.den m).shape.eraseIdx axis := rfl
    rw [hsh, List.length_eraseIdx, if_pos (by rw [hd]; exact hax)] at hp
    exact aligned_of_streamGood a _ hwa h.2.2 (aggOrder_perm' (by rw [hd]; exact hax) hp)
  | .elem1 a op, o, hw, h, hp => aligned_of_streamGood a o hw h.2 hp
  | .elem2 a b op, o, hw, h, hp => by
    have hb : (a.den m).shape = (b.den m).shape := by
      have e1 := hw.1.shape_eq m
      have e2 := hw.2.1.shape_eq m
      rw [hw.2.2, e2] at e1
      exact (Except.ok.inj e1).symm
    have hsh : ((Arr.elem2 a b op).den m).shape = (a.den m).shape := Arr.WF.den_shape m hw (by rw [Arr.shape]; exact hw.1.shape_eq m)
    rw [hsh] at hp
    refine ⟨aligned_of_streamGood a o hw.1 h.2.1 hp, aligned_of_streamGood b o hw.2.1 h.2.2.1 (hb ▸ hp), ?_⟩
    obtain ⟨w1, w2⟩ := skel_shape m a hw.1
    obtain ⟨v1, v2⟩ := skel_shape m b hw.2.1
    rw [skel_keys limit _ o w1 (by rw [w2]; exact hp), skel_keys limit _ o v1 (by rw [v2, ← hb]; exact hp), h.2.2.2]
  | .adapter .., _, _, _, _ | .const .., _, _, _, _ | .newAxes .., _, _, _, _ | .bcast .., _, _, _, _ | .transposed .., _, _, _, _ | .stack .., _, _, _, _
  | .mosaic .., _, _, _, _ | .asType .., _, _, _, _ | .maskVal .., _, _, _, _ => trivial

variable [Inhabited α] [Inhabited V]

/-- `evalBy` with a right engine. -/
theorem evalBy_ok (m : Mode α V) (S : Arr α → Prop) (engs : List (Arr α) → Res (List (NDA V)))
    (hE : ∀ xs : List (Arr α), xs ≠ [] → (∀ b ∈ xs, b.WF ∧ S b) → ∃ rs, engs xs = .ok rs ∧ List.Forall₂ (fun r b => r ≈ₐ Arr.den m b) rs xs) :
    ∀ (a : Arr α), a.WF → a.evalGood m S → ∃ r, a.evalBy m engs = .ok r ∧ r ≈ₐ a.den m := by
  have hE1 : ∀ b : Arr α, b.WF → S b → ∃ r, theOne (engs [b]) = .ok r ∧ r ≈ₐ b.den m := by
    intro b hb hS
    obtain ⟨rs, h1, h2⟩ := hE [b] (by simp) (by simpa using ⟨hb, hS⟩)
    cases h2 with
    | cons hr h3 =>
      cases h3
      exact ⟨_, by rw [h1]; rfl, hr⟩
  intro a
  induction a with
  | agg a axis k ih => intro hwf hg; exact hE1 _ hwf hg
  | elem1 a op ih =>
    intro hwf hg
    obtain ⟨g1, g2⟩ := hg
    obtain ⟨f, hf⟩ := Option.isSome_iff_exists.mp g1
    obtain ⟨r, h1, h2⟩ := hE1 a hwf g2
    refine ⟨_, by unfold Arr.evalBy; rw [hf, h1]; rfl, ?_⟩
    unfold Arr.den
    rw [hf]; exact h2.map _
  | elem2 a b op iha ihb =>
    intro hwf hg
    obtain ⟨g1, g2, g3⟩ := hg
    obtain ⟨hwa, hwb, hab⟩ := hwf
    have hsh : (a.den m).shape = (b.den m).shape := by
      have h1 := hwa.shape_eq m
      rw [hab, hwb.shape_eq m] at h1
      injection h1 with h1
      exact h1.symm
    obtain ⟨f, hf⟩ := Option.isSome_iff_exists.mp g1
    obtain ⟨rs, h1, h2⟩ := hE [a, b] (by simp) (by
      intro c hc
      simp only [List.mem_cons, List.not_mem_nil, or_false] at hc
      rcases hc with rfl | rfl
      · exact ⟨hwa, g2⟩
      · exact ⟨hwb, g3⟩)
    cases h2 with
    | cons hra h3 =>
      cases h3 with
      | cons hrb h4 =>
        cases h4
        obtain ⟨r, r1, r2⟩ := npOp2_ok (f := f) hra hrb hsh
        refine ⟨r, by unfold Arr.evalBy; rw [hf, h1]; exact r1, ?_⟩
        unfold Arr.den
        rw [hf]; exact r2
  | adapter o c keys =>
    intro hwf hg
    obtain ⟨hs, r, hr⟩ := hwf
    obtain ⟨r', h1, h2⟩ := applyKeys_ok o c.data r keys hs hr hg.2
    refine ⟨_, by unfold Arr.evalBy; rw [h1]; rfl, ?_⟩
    rw [den_adapter m o c keys r hr]
    exact leaf0_eqv (show (Arr.adapter o c keys).WF from ⟨hs, r, hr⟩) hg.1 hr h2
  | const s v d => intro _ _; exact ⟨_, rfl, NDA.Eqv.refl _⟩
  | newAxes a na ih =>
    intro hwf hg
    obtain ⟨hwa, s, hs, hl⟩ := hwf
    have hden := hwa.den_shape m hs
    obtain ⟨r, h1, h2⟩ := ih hwa hg
    obtain ⟨r', k1, k2⟩ := newAxes_eval h2 (na := na) (by rw [hden]; exact hl)
    refine ⟨r', ?_, k2⟩
    unfold Arr.evalBy
    rw [hs, h1]
    rw [hden] at k1; exact k1
  | bcast a d l ih =>
    intro hwf hg
    obtain ⟨hwa, _, _, hn, _, s, hs, h1s⟩ := hwf
    have hden := hwa.den_shape m hs
    obtain ⟨r, h1, h2⟩ := ih hwa hg
    obtain ⟨r', k1, k2⟩ := bcast_eval (lead := l) h2 hn (by rw [hden]; exact h1s)
    refine ⟨r', ?_, k2⟩
    unfold Arr.evalBy
    rw [h1]; exact k1
  | transposed a ax ih =>
    intro hwf hg
    obtain ⟨hwa, s, hs, hl⟩ := hwf
    have hden := hwa.den_shape m hs
    obtain ⟨r, h1, h2⟩ := ih hwa hg
    obtain ⟨r', k1, k2⟩ := transposed_eval h2 (axes := ax) (by rw [hden]; exact hl)
    refine ⟨r', ?_, k2⟩
    unfold Arr.evalBy
    rw [h1]; exact k1
  | stack ss items ih =>
    intro hwf hg
    have hsh := hwf.shape_eq m
    obtain ⟨h0, s, hi⟩ := hwf
    have hshape : ((Arr.stack ss items).den m).shape = ss ++ s := by
      unfold Arr.den NDA.stacked
      have := hi _ (inB_zeros ss h0)
      simp only
      rw [this.1.den_shape m this.2]
    obtain ⟨r, k1, k2⟩ := stack_eval (ss := ss) (s := s) (items := fun i => (items i).den m)
      (ev := fun i => (items i).evalBy m engs) h0 (fun i h => (hi i h).1.den_shape m (hi i h).2)
      (fun i h => ih i (hi i h).1 (hg i h))
    refine ⟨r, ?_, k2⟩
    unfold Arr.evalBy
    rw [hsh, hshape]
    exact k1
  | mosaic n tiles axis ih =>
    intro hwf hg
    have hsh := hwf.shape_eq m
    obtain ⟨h0, s, hax, ht⟩ := hwf
    obtain ⟨r, off, k1, k2⟩ := mosaic_eval (n := n) (axis := axis) (s := s) (tiles := fun i => (tiles i).den m)
      (ev := fun i => (tiles i).evalBy m engs) (tshape := fun i => (tiles i).shape) h0 hax
      (fun i h => by obtain ⟨h1, k, h2⟩ := ht i h; exact ⟨k, h1.den_shape m h2⟩)
      (fun i h => (ht i h).1.shape_eq m)
      (fun i h => ih i (ht i h).1 (hg i h))
    refine ⟨r, ?_, k2⟩
    unfold Arr.evalBy
    rw [hsh]
    simp only [bind, Except.bind] at k1 ⊢
    unfold Arr.den
    rw [k1]
    rfl
  | asType a d ih =>
    intro hwf hg
    obtain ⟨r, h1, h2⟩ := ih hwf hg
    exact ⟨_, by unfold Arr.evalBy; rw [h1]; rfl, h2.map _⟩
  | maskVal a v ih =>
    intro hwf hg
    obtain ⟨r, h1, h2⟩ := ih hwf hg
    exact ⟨_, by unfold Arr.evalBy; rw [h1]; rfl, h2.map _⟩

/-- One call of the engine. -/
theorem engineCall_ok (m : Mode α V) (limit : Nat) (R : Arr α → Res (NDA V) → Prop) (G : Arr α → Prop)
    (hR : ∀ b r, b.WF → G b → R b r → ∃ d, r = .ok d ∧ d ≈ₐ b.den m) {xs : List (Arr α)} (hx : ∀ b ∈ xs, b.WF ∧ b.streamGood m limit G) {res : Res (List (NDA V))}
    (h : EngineCall m limit (WellShared limit) R xs res) : ∃ rs, res = .ok rs ∧ List.Forall₂ (fun r b => r ≈ₐ Arr.den m b) rs xs := by
  obtain ⟨evalP, ys, out, he, rfl, ⟨hc, hsh⟩, ho, hres⟩ := h
  have hx' : ∀ y ∈ ys, y.toArr.WF ∧ y.toArr.streamGood m limit G := fun y hy => hx _ (List.mem_map_of_mem hy)
  have hone : ∃ rs, oneByOne m limit evalP ys = .ok rs ∧ List.Forall₂ (fun r b => r ≈ₐ Arr.den m b) rs (ys.map AObj.toArr) := by
    clear hx hc hsh ho
    induction ys with
    | nil => exact ⟨[], rfl, .nil⟩
    | cons y ys ih =>
      obtain ⟨rs, h1, h2⟩ := ih (fun z hz => hx' z (by simp [hz]))
      obtain ⟨hw, hg⟩ := hx' y (by simp)
      obtain ⟨r, h3, h4⟩ := engineOne_ok m limit G evalP (fun b hb hG => hR b _ hb hG (he b)) y.toArr hw hg
      refine ⟨r :: rs, ?_, .cons h4 h2⟩
      unfold oneByOne at h1 ⊢
      rw [mapM_ok_iff] at h1 ⊢
      exact .cons h3 h1
  obtain ⟨rs, h1, h2⟩ := hone
  have key : ∃ q, out = some q ∧ ∀ rs, q = .ok rs ↔ oneByOne m limit evalP ys = .ok rs := by
    rcases hsh with hn | hp | h1c
    · refine C27_group_tree hc.proper hn (fun y hy => (hx' y hy).1) (fun y hy => ?_) (by decide) ho
      refine aligned_of_streamGood (m := m) _ _ (hx' y hy).1 (hx' y hy).2 ?_
      rw [(hx' y hy).1.shape_eq m]; exact List.Perm.refl _
    · refine ⟨.ok rs, (C28_together_as_alone hc (fun y hy => (hx' y hy).1) hp (by decide) h1 out).mp ho, fun rs' => ?_⟩
      rw [h1]
    · obtain ⟨heap, hh⟩ := hc.coherent
      exact (C28_one_chunk hc.proper hh (fun y hy => (hx' y hy).1) h1c (by decide)).2 out ho
  obtain ⟨q, hq1, hq2⟩ := key
  have hq : q = .ok rs := (hq2 rs).mpr h1
  subst hq1 hq
  rcases hres with hres | ⟨hres, _⟩
  · cases hres; exact ⟨rs, rfl, h2⟩
  · cases hres

theorem runs_good (m : Mode α V) (limit : Nat) : ∀ (n : Nat) (a : Arr α) (r : Res (NDA V)), a.WF → a.good m limit n →
    a.Runs m limit (WellShared limit) n r → ∃ d, r = .ok d ∧ d ≈ₐ a.den m
  | 0, a, r, hwf, hg, h => by
    cases h
    refine evalBy_ok m (fun _ => False) _ (fun xs hne hxs => ?_) a hwf hg
    exact (hxs _ (List.head_mem hne)).2.elim
  | n + 1, a, r, hwf, hg, h => by
    obtain ⟨engs, h1, rfl⟩ := h
    refine evalBy_ok m _ engs (fun xs _ hxs => ?_) a hwf hg
    exact engineCall_ok m limit _ (Arr.good m limit n) (fun b r hb hG hr => runs_good m limit n b r hb hG hr) hxs (h1 xs)

/-! ### Executions exist -/

/-- The nodes created so far refer to earlier nodes, and so does the cache. -/
def Build.Sound (b : Build V) : Prop := b.nodes.Valid ∧ ∀ i n, b.cache.lookup i = some n → n < b.nodes.length

omit [Inhabited α] [Inhabited V] in
theorem Build.Sound.add {b : Build V} (h : b.Sound) (id : Nat) {g : GNode (Chunk V) (NDA V)} (hs : ∀ s ∈ g.sources, s < b.nodes.length)
    (hc : ∀ s o, g = .cons s o → s ≠ []) : (b.add id g).2.Sound ∧ (b.add id g).1 < (b.add id g).2.nodes.length ∧ b.nodes.length ≤ (b.add id g).2.nodes.length := by
  refine ⟨⟨h.1.snoc hs hc, fun i n hi => ?_⟩, by simp [Build.add], by simp [Build.add]⟩
  simp only [Build.add, List.lookup_cons] at hi ⊢
  split at hi
  · cases hi; simp
  · have := h.2 i n hi
    simp; omega

omit [Inhabited V] in
theorem makeNode_sound {m : Mode α V} {limit : Nat} {evalP : Arr α → Res (NDA V)} : ∀ (x : AObj α) (o : List Nat) (b b' : Build V) (n : Nat), b.Sound →
    makeNode m limit evalP x o b = .ok (n, b') → b'.Sound ∧ n < b'.nodes.length ∧ b.nodes.length ≤ b'.nodes.length
  | .prod id a, o, b, b', n, hb, h => by
    rw [makeNode] at h
    match hl : b.cache.lookup id with
    | some k => rw [hl] at h; cases h; exact ⟨hb, hb.2 _ _ hl, le_refl _⟩
    | none =>
      rw [hl] at h
      match hs : a.shape with
      | .error e => rw [hs] at h; cases h
      | .ok s =>
        rw [hs] at h
        simp only [andThen] at h
        split at h
        · cases h
        · cases h
          exact hb.add id (by simp [GNode.sources]) (fun s o e => by cases e)
  | .agg id x axis k, o, b, b', n, hb, h => by
    rw [makeNode] at h
    match hl : b.cache.lookup id with
    | some k => rw [hl] at h; cases h; exact ⟨hb, hb.2 _ _ hl, le_refl _⟩
    | none =>
      rw [hl] at h
      match hs : x.toArr.shape with
      | .error e => rw [hs] at h; cases h
      | .ok s =>
        rw [hs] at h
        simp only [andThen] at h
        match hm : makeNode m limit evalP x (aggOrder axis o) b with
        | .error e => rw [hm] at h; cases h
        | .ok (i, b1) =>
          rw [hm] at h
          cases h
          obtain ⟨h1, h2, h3⟩ := makeNode_sound x _ b b1 i hb hm
          obtain ⟨k1, k2, k3⟩ := h1.add id (g := .cons [i] (aggObj (m.handler k) axis (s.getD axis 0))) (by simpa [GNode.sources] using h2) (fun s o e => by cases e; simp)
          exact ⟨k1, k2, h3.trans k3⟩
  | .elem1 id x op, o, b, b', n, hb, h => by
    rw [makeNode] at h
    match hl : b.cache.lookup id with
    | some k => rw [hl] at h; cases h; exact ⟨hb, hb.2 _ _ hl, le_refl _⟩
    | none =>
      rw [hl] at h
      match hs : m.op1 op with
      | none => rw [hs] at h; cases h
      | some f =>
        rw [hs] at h
        match hm : makeNode m limit evalP x o b with
        | .error e => rw [hm] at h; cases h
        | .ok (i, b1) =>
          rw [hm] at h
          cases h
          obtain ⟨h1, h2, h3⟩ := makeNode_sound x _ b b1 i hb hm
          obtain ⟨k1, k2, k3⟩ := h1.add id (g := .cons [i] (elem1Obj f)) (by simpa [GNode.sources] using h2) (fun s o e => by cases e; simp)
          exact ⟨k1, k2, h3.trans k3⟩
  | .elem2 id x y op, o, b, b', n, hb, h => by
    rw [makeNode] at h
    match hl : b.cache.lookup id with
    | some k => rw [hl] at h; cases h; exact ⟨hb, hb.2 _ _ hl, le_refl _⟩
    | none =>
      rw [hl] at h
      match hs : m.op2 op with
      | none => rw [hs] at h; cases h
      | some f =>
        rw [hs] at h
        match hm : makeNode m limit evalP x o b with
        | .error e => rw [hm] at h; cases h
        | .ok (i, b1) =>
          rw [hm] at h
          simp only [bind, Except.bind] at h
          match hm2 : makeNode m limit evalP y o b1 with
          | .error e => rw [hm2] at h; cases h
          | .ok (j, b2) =>
            rw [hm2] at h
            cases h
            obtain ⟨h1, h2, h3⟩ := makeNode_sound x _ b b1 i hb hm
            obtain ⟨g1, g2, g3⟩ := makeNode_sound y _ b1 b2 j h1 hm2
            obtain ⟨k1, k2, k3⟩ := g1.add id (g := .cons [i, j] (elem2Obj f)) (by simp [GNode.sources]; omega) (fun s o e => by cases e; simp)
            exact ⟨k1, k2, (h3.trans g3).trans k3⟩

theorem buildGroup_sound {m : Mode α V} {limit : Nat} {evalP : Arr α → Res (NDA V)} : ∀ (xs : List (AObj α)) (b b' : Build V) (rs : List Nat), b.Sound →
    buildGroup m limit evalP xs b = .ok (rs, b') → b'.Sound
  | [], b, b', rs, hb, h => by cases h; exact hb
  | x :: xs, b, b', rs, hb, h => by
    rw [buildGroup] at h
    match hs : x.toArr.shape with
    | .error e => rw [hs] at h; cases h
    | .ok s =>
      rw [hs] at h
      simp only [andThen] at h
      match hm : makeNode m limit evalP x (List.range s.length) b with
      | .error e => rw [hm] at h; cases h
      | .ok (i, b1) =>
        rw [hm] at h
        simp only [bind, Except.bind] at h
        obtain ⟨h1, h2, h3⟩ := makeNode_sound x _ b b1 i hb hm
        match hm2 : buildGroup m limit evalP xs ⟨b1.nodes ++ [.cons [i] (resultObj s)], b1.cache⟩ with
        | .error e => rw [hm2] at h; cases h
        | .ok (rs2, b2) =>
          rw [hm2] at h
          cases h
          refine buildGroup_sound xs _ _ _ ?_ hm2
          refine ⟨h1.1.snoc (by simpa [GNode.sources] using h2) (fun s o e => by cases e; simp), fun j n hj => ?_⟩
          have := h1.2 j n hj
          simp; omega

/-- Every call of the engine has a complete execution. -/
theorem groupOutcome_exists (m : Mode α V) (limit cap : Nat) (evalP : Arr α → Res (NDA V)) (xs : List (AObj α)) : ∃ out, GroupOutcome m limit cap evalP xs out := by
  unfold GroupOutcome
  match hb : buildGroup m limit evalP xs ⟨[], []⟩ with
  | .error e => exact ⟨_, rfl⟩
  | .ok (rs, b) =>
    have hv : b.nodes.Valid := (buildGroup_sound xs _ b rs ⟨⟨by simp [Graph.sources], by simp⟩, by simp⟩ hb).1
    obtain ⟨K, e, k1, k2⟩ := C25_schedule_independent (cap := cap) hv (outs_wired hv)
    obtain ⟨m', _, k3⟩ := k2 0 _ (.refl _)
    exact ⟨_, m', e, k3, k1, rfl⟩

omit [Inhabited α] [Inhabited V] in
/-- Every array can be made of objects with fresh identities. -/
theorem exists_object : ∀ (a : Arr α) (k : Nat), ∃ y : AObj α, y.toArr = a ∧ y.Proper ∧ y.ids.Nodup ∧ ∃ k', k ≤ k' ∧ ∀ i ∈ y.ids, k ≤ i ∧ i < k'
  | .agg a axis op, k => by
    obtain ⟨y, h1, h2, h3, k', h4, h5⟩ := exists_object a k
    refine ⟨.agg k' y axis op, by simp [AObj.toArr, h1], h2, ?_, k' + 1, by omega, ?_⟩
    · rw [AObj.ids, List.nodup_append]
      exact ⟨h3, by simp, fun i hi j hj => by have := h5 i hi; simp at hj; omega⟩
    · intro i hi
      simp only [AObj.ids, List.mem_append, List.mem_singleton] at hi
      rcases hi with hi | rfl
      · have := h5 i hi; omega
      · omega
  | .elem1 a op, k => by
    obtain ⟨y, h1, h2, h3, k', h4, h5⟩ := exists_object a k
    refine ⟨.elem1 k' y op, by simp [AObj.toArr, h1], h2, ?_, k' + 1, by omega, ?_⟩
    · rw [AObj.ids, List.nodup_append]
      exact ⟨h3, by simp, fun i hi j hj => by have := h5 i hi; simp at hj; omega⟩
    · intro i hi
      simp only [AObj.ids, List.mem_append, List.mem_singleton] at hi
      rcases hi with hi | rfl
      · have := h5 i hi; omega
      · omega
  | .elem2 a b op, k => by
    obtain ⟨y, h1, h2, h3, k', h4, h5⟩ := exists_object a k
    obtain ⟨z, g1, g2, g3, k'', g4, g5⟩ := exists_object b k'
    refine ⟨.elem2 k'' y z op, by simp [AObj.toArr, h1, g1], ⟨h2, g2⟩, ?_, k'' + 1, by omega, ?_⟩
    · rw [AObj.ids, List.nodup_append, List.nodup_append]
      refine ⟨⟨h3, g3, fun i hi j hj => by have := h5 i hi; have := g5 j hj; omega⟩, by simp, fun i hi j hj => ?_⟩
      simp only [List.mem_append] at hi
      simp only [List.mem_singleton] at hj
      rcases hi with hi | hi
      · have := h5 i hi; omega
      · have := g5 i hi; omega
    · intro i hi
      simp only [AObj.ids, List.mem_append, List.mem_singleton] at hi
      rcases hi with (hi | hi) | rfl
      · have := h5 i hi; omega
      · have := g5 i hi; omega
      · omega
  | .adapter o c ks, k => ⟨.prod k (.adapter o c ks), rfl, rfl, by simp [AObj.ids], k + 1, by omega, by simp [AObj.ids]⟩
  | .const s v d, k => ⟨.prod k (.const s v d), rfl, rfl, by simp [AObj.ids], k + 1, by omega, by simp [AObj.ids]⟩
  | .newAxes a na, k => ⟨.prod k (.newAxes a na), rfl, rfl, by simp [AObj.ids], k + 1, by omega, by simp [AObj.ids]⟩
  | .bcast a d l, k => ⟨.prod k (.bcast a d l), rfl, rfl, by simp [AObj.ids], k + 1, by omega, by simp [AObj.ids]⟩
  | .transposed a ax, k => ⟨.prod k (.transposed a ax), rfl, rfl, by simp [AObj.ids], k + 1, by omega, by simp [AObj.ids]⟩
  | .stack ss it, k => ⟨.prod k (.stack ss it), rfl, rfl, by simp [AObj.ids], k + 1, by omega, by simp [AObj.ids]⟩
  | .mosaic n t ax, k => ⟨.prod k (.mosaic n t ax), rfl, rfl, by simp [AObj.ids], k + 1, by omega, by simp [AObj.ids]⟩
  | .asType a d, k => ⟨.prod k (.asType a d), rfl, rfl, by simp [AObj.ids], k + 1, by omega, by simp [AObj.ids]⟩
  | .maskVal a v, k => ⟨.prod k (.maskVal a v), rfl, rfl, by simp [AObj.ids], k + 1, by omega, by simp [AObj.ids]⟩

omit [Inhabited α] [Inhabited V] in
theorem exists_objects : ∀ (xs : List (Arr α)) (k : Nat), ∃ ys : List (AObj α), ys.map AObj.toArr = xs ∧ (∀ y ∈ ys, y.Proper) ∧ (ys.flatMap AObj.ids).Nodup ∧
    ∀ i ∈ ys.flatMap AObj.ids, k ≤ i
  | [], k => ⟨[], rfl, by simp, by simp, by simp⟩
  | x :: xs, k => by
    obtain ⟨y, h1, h2, h3, k', h4, h5⟩ := exists_object x k
    obtain ⟨ys, g1, g2, g3, g4⟩ := exists_objects xs k'
    refine ⟨y :: ys, by simp [h1, g1], ?_, ?_, ?_⟩
    · intro z hz
      rcases List.mem_cons.mp hz with rfl | hz
      · exact h2
      · exact g2 z hz
    · rw [List.flatMap_cons, List.nodup_append]
      exact ⟨h3, g3, fun i hi j hj => by have := h5 i hi; have := g4 j hj; omega⟩
    · intro i hi
      rw [List.flatMap_cons, List.mem_append] at hi
      rcases hi with hi | hi
      · exact (h5 i hi).1
      · have := g4 i hi; omega

theorem engineCall_exists (m : Mode α V) (limit : Nat) {R : Arr α → Res (NDA V) → Prop} (hR : ∀ b, ∃ r, R b r) (xs : List (Arr α)) :
    ∃ res, EngineCall m limit (WellShared limit) R xs res := by
  choose evalP he using hR
  obtain ⟨ys, h1, h2, h3, _⟩ := exists_objects xs 0
  obtain ⟨out, ho⟩ := groupOutcome_exists m limit queueSize evalP ys
  have hw : WellShared limit ys := ⟨compatible_of_nodup ys h2 h3, Or.inl h3⟩
  match out, ho with
  | some res, ho => exact ⟨res, evalP, ys, some res, he, h1, hw, ho, Or.inl rfl⟩
  | none, ho => exact ⟨.error .other, evalP, ys, none, he, h1, hw, ho, Or.inr ⟨rfl, _, rfl⟩⟩

theorem runs_exists (m : Mode α V) (limit : Nat) : ∀ (n : Nat) (a : Arr α), ∃ r, a.Runs m limit (WellShared limit) n r
  | 0, a => ⟨_, rfl⟩
  | n + 1, a => by
    choose engs h using engineCall_exists m limit (runs_exists m limit n)
    exact ⟨_, engs, h, rfl⟩

end Biggus

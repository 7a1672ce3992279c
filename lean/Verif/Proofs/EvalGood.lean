import Verif.Proofs.Streams
/-
Evaluation is right for every expression whose streamed parts can be cut by slices (`Arr.good`).
-/
namespace Biggus

variable {α V : Type}

/-- Can be streamed, given that the pieces `b` with `G b` are evaluated rightly. -/
def Arr.streamGood [Inhabited α] (m : Mode α V) (limit : Nat) (G : Arr α → Prop) : Arr α → Prop
  | .agg a axis k => ((okOr a.shape []).getD axis 0 ≠ 0 ∨ (m.handler k).emptyErr = none) ∧
      CutSafe (m.handler k) ((a.skel.cuts limit).getD axis []) ((okOr a.shape []).getD axis 0) ∧ a.streamGood m limit G
  | .elem1 a op => (m.op1 op).isSome = true ∧ a.streamGood m limit G
  | .elem2 a b op => (m.op2 op).isSome = true ∧ a.streamGood m limit G ∧ b.streamGood m limit G ∧
      a.skel.cuts limit = b.skel.cuts limit
  | a => ∀ s, a.shape = .ok s → ∀ ks, List.Forall₂ SliceOk ks s → a.keysOk ks ∧ ∀ b, a.getitem ks = .ok b → G b

/-- Can be evaluated, given that the expressions `a` with `S a` can be streamed. -/
def Arr.evalGood (m : Mode α V) (S : Arr α → Prop) : Arr α → Prop
  | .adapter o c keys => m.zeroDimSafe c keys ∧ (o = false → takeSafe keys)
  | .const _ _ _ => True
  | .newAxes a _ => a.evalGood m S
  | .bcast a _ _ => a.evalGood m S
  | .transposed a _ => a.evalGood m S
  | .stack ss items => ∀ i, InB ss i → (items i).evalGood m S
  | .mosaic n tiles _ => ∀ i, i < n → (tiles i).evalGood m S
  | .asType a _ => a.evalGood m S
  | .maskVal a _ => a.evalGood m S
  | .agg a axis k => S (.agg a axis k)
  | .elem1 a op => (m.op1 op).isSome = true ∧ S a
  | .elem2 a b op => (m.op2 op).isSome = true ∧ S a ∧ S b

def Arr.good [Inhabited α] (m : Mode α V) (limit : Nat) : Nat → Arr α → Prop
  | 0 => Arr.evalGood m (fun _ => False)
  | n + 1 => Arr.evalGood m (Arr.streamGood m limit (Arr.good m limit n))

/-- The stream of a producer. -/
theorem producer_ok [Inhabited α] [Inhabited V] (m : Mode α V) (limit : Nat) (G : Arr α → Prop)
    (evalP : Arr α → Res (NDA V)) (hE : ∀ b : Arr α, b.WF → G b → ∃ r, evalP b = .ok r ∧ r ≈ₐ b.den m) (a : Arr α) (hwf : a.WF)
    (hg : ∀ s, a.shape = .ok s → ∀ ks, List.Forall₂ SliceOk ks s → a.keysOk ks ∧ ∀ b, a.getitem ks = .ok b → G b)
    (order : List Nat) (hp : order.Perm (List.range (a.den m).shape.length)) :
    ∃ cs, (do
      let s ← a.shape
      (chunkIndexGen limit s order).mapM (fun key => do
        let b ← a.getitem key
        let d ← evalP b
        return (key, d))) = .ok cs ∧
      StreamOk (a.den m) ((Skel.prod (okOr a.shape [])).cuts limit) order cs ∧
      CutsOk ((Skel.prod (okOr a.shape [])).cuts limit) (a.den m).shape := by
  have hsh := hwf.shape_eq m
  have hc := allSlices_ok limit (a.den m).shape
  obtain ⟨cs, h1, h2, h3⟩ := mapM_forall (chunkIndexGen limit (a.den m).shape order)
    (fun key => (do
        let b ← a.getitem key
        let d ← evalP b
        return (key, d) : Res (Chunk V)))
    (fun c => ∃ σ, resolve c.1 (a.den m).shape = .ok σ ∧ c.2 ≈ₐ (a.den m).ortho σ) Prod.fst (by
      intro key hkey
      have hso := chunkKeys_ok hc hp hkey
      obtain ⟨hk, hG⟩ := hg _ hsh key hso
      obtain ⟨σ, hσ, _⟩ := sliceOk_resolve hso
      have he := sliceOk_exact hso
      have hexp : expandKeys key (a.den m).shape.length = .ok key :=
        expandKeys_self (fun k hk => (he k hk).2) (by rw [nConsuming_exact he, hso.length_eq])
      obtain ⟨b, hb1, hb2, hb3, _⟩ := getitem_ok m a hwf key key _ hexp hk (npIndex_ok_iff.mpr ⟨_, σ, hexp, hσ, rfl⟩)
      obtain ⟨d, hd1, hd2⟩ := hE b hb2 (hG b hb1)
      refine ⟨(key, d), ?_, rfl, σ, hσ, hd2.trans hb3⟩
      simp only [hb1, hd1, bind, Except.bind, pure, Except.pure])
  refine ⟨cs, ?_, ?_, ?_⟩
  · rw [hsh]; exact h1
  · rw [hsh]; exact ⟨h2, h3⟩
  · rw [hsh]; exact hc

theorem aggOrder_perm' {axis n : Nat} {order : List Nat} (hax : axis < n) (hp : order.Perm (List.range (n - 1))) :
    (aggOrder axis order).Perm (List.range n) := by
  unfold aggOrder
  have h1 : (order.map (fun i => if i < axis then i else i + 1)).Perm
      ((List.range (n - 1)).map (fun i => if i < axis then i else i + 1)) := hp.map _
  refine (h1.append_right [axis]).trans ?_
  have hn : n = axis + 1 + (n - 1 - axis) := by omega
  have h2 : List.range (n - 1) = List.range axis ++ (List.range (n - 1 - axis)).map (axis + ·) := by
    rw [← List.range_add]; congr 1; omega
  have h3 : List.range n = List.range axis ++ (axis :: (List.range (n - 1 - axis)).map (axis + 1 + ·)) := by
    conv_lhs => rw [hn]
    rw [List.range_add, List.range_succ]; simp
  rw [h2, h3, List.map_append, List.append_assoc]
  have e1 : (List.range axis).map (fun i => if i < axis then i else i + 1) = List.range axis := by
    conv_rhs => rw [← List.map_id (List.range axis)]
    apply List.map_congr_left
    intro i hi
    simp at hi
    simp [hi]
  have e2 : ((List.range (n - 1 - axis)).map (axis + ·)).map (fun i => if i < axis then i else i + 1) =
      (List.range (n - 1 - axis)).map (axis + 1 + ·) := by
    rw [List.map_map]
    apply List.map_congr_left
    intro i _
    simp only [Function.comp]
    rw [if_neg (by omega)]; omega
  rw [e1, e2]
  exact List.Perm.append_left _ (List.perm_append_comm.trans (by simp))

/-- The stream of every streamable expression carries the array it stands for. -/
theorem stream_ok [Inhabited α] [Inhabited V] (m : Mode α V) (limit : Nat) (G : Arr α → Prop)
    (evalP : Arr α → Res (NDA V)) (hE : ∀ b : Arr α, b.WF → G b → ∃ r, evalP b = .ok r ∧ r ≈ₐ b.den m) :
    ∀ (a : Arr α), a.WF → a.streamGood m limit G → ∀ order : List Nat, order.Perm (List.range (a.den m).shape.length) →
    ∃ cs, a.stream m limit evalP order = .ok cs ∧ StreamOk (a.den m) (a.skel.cuts limit) order cs ∧
      CutsOk (a.skel.cuts limit) (a.den m).shape
  | .agg a axis k, hwf, hg, order, hp => by
    obtain ⟨hwa, s, hs, hax⟩ := hwf
    obtain ⟨g1, g2, g3⟩ := hg
    have hden := hwa.den_shape m hs
    have hsl : ((Arr.agg a axis k).den m).shape = (a.den m).shape.eraseIdx axis := rfl
    have hax' : axis < (a.den m).shape.length := by rw [hden]; exact hax
    rw [hsl, List.length_eraseIdx, if_pos hax'] at hp
    obtain ⟨cs, h1, h2, h3⟩ := stream_ok m limit G evalP hE a hwa g3 (aggOrder axis order) (aggOrder_perm' hax' hp)
    obtain ⟨out, o1, o2⟩ := aggStream_ok (m.handler k) h3 hax' hp h2 (by rw [hs] at g2; rw [hden]; exact g2) (by
      rw [hden]; rw [hs] at g1; exact g1)
    refine ⟨out, ?_, o2, h3.eraseIdx axis⟩
    unfold Arr.stream
    rw [hs, h1]
    simp only [bind, Except.bind]
    rw [← hden]; exact o1
  | .elem1 a op, hwf, hg, order, hp => by
    obtain ⟨g1, g2⟩ := hg
    obtain ⟨f, hf⟩ := Option.isSome_iff_exists.mp g1
    obtain ⟨cs, h1, h2, h3⟩ := stream_ok m limit G evalP hE a hwf g2 order hp
    refine ⟨cs.map (fun c => (c.1, c.2.map f)), ?_, ?_, h3⟩
    · unfold Arr.stream
      rw [hf, h1]
      rfl
    · have := elem1Stream_ok f h2
      unfold Arr.den
      rw [hf]; exact this
  | .elem2 a b op, hwf, hg, order, hp => by
    obtain ⟨hwa, hwb, hab⟩ := hwf
    obtain ⟨g1, g2, g3, g4⟩ := hg
    obtain ⟨f, hf⟩ := Option.isSome_iff_exists.mp g1
    have hsh : (a.den m).shape = (b.den m).shape := by
      have h1 := hwa.shape_eq m
      rw [hab, hwb.shape_eq m] at h1
      injection h1 with h1
      exact h1.symm
    obtain ⟨ca, h1, h2, h3⟩ := stream_ok m limit G evalP hE a hwa g2 order hp
    obtain ⟨cb, k1, k2, k3⟩ := stream_ok m limit G evalP hE b hwb g3 order (by rw [← hsh]; exact hp)
    obtain ⟨out, o1, o2, o3⟩ := elem2Stream_ok f hsh (chunkKeysOf (a.skel.cuts limit) order) ca cb h2.keys
      (by rw [g4]; exact k2.keys) h2.data k2.data
    refine ⟨out, ?_, ?_, h3⟩
    · unfold Arr.stream
      rw [hf, h1, k1]
      exact o1
    · unfold Arr.den
      rw [hf]
      exact ⟨o2, o3⟩
  | .adapter o c keys, hwf, hg, order, hp => producer_ok m limit G evalP hE _ hwf hg order hp
  | .const s v d, hwf, hg, order, hp => producer_ok m limit G evalP hE _ hwf hg order hp
  | .newAxes a na, hwf, hg, order, hp => producer_ok m limit G evalP hE _ hwf hg order hp
  | .bcast a d l, hwf, hg, order, hp => producer_ok m limit G evalP hE _ hwf hg order hp
  | .transposed a ax, hwf, hg, order, hp => producer_ok m limit G evalP hE _ hwf hg order hp
  | .stack ss it, hwf, hg, order, hp => producer_ok m limit G evalP hE _ hwf hg order hp
  | .mosaic n t ax, hwf, hg, order, hp => producer_ok m limit G evalP hE _ hwf hg order hp
  | .asType a d, hwf, hg, order, hp => producer_ok m limit G evalP hE _ hwf hg order hp
  | .maskVal a v, hwf, hg, order, hp => producer_ok m limit G evalP hE _ hwf hg order hp

theorem engineOne_ok [Inhabited α] [Inhabited V] (m : Mode α V) (limit : Nat) (G : Arr α → Prop)
    (evalP : Arr α → Res (NDA V)) (hE : ∀ b : Arr α, b.WF → G b → ∃ r, evalP b = .ok r ∧ r ≈ₐ b.den m) (a : Arr α)
    (hwf : a.WF) (hg : a.streamGood m limit G) : ∃ r, engineOne m limit evalP a = .ok r ∧ r ≈ₐ a.den m := by
  obtain ⟨cs, h1, h2, h3⟩ := stream_ok m limit G evalP hE a hwf hg (List.range (a.den m).shape.length) (List.Perm.refl _)
  obtain ⟨r, r1, r2⟩ := h2.assemble h3 (List.Perm.refl _)
  refine ⟨r, ?_, r2⟩
  unfold engineOne
  rw [hwf.shape_eq m]
  simp only [bind, Except.bind]
  rw [h1]
  exact r1

/-- A single element is read like the others if the source is safe. -/
theorem leaf0_eqv [Inhabited V] {m : Mode α V} {o : Bool} {c : Concrete α} {keys : List Key} {r r' : NDA (Option α)}
    (hwf : (Arr.adapter o c keys).WF) (hz : m.zeroDimSafe c keys) (hr : npIndex c.data keys = .ok r) (h : r' ≈ₐ r) :
    r'.map (if r'.shape = [] then m.leaf0 c.fill else m.leaf c.fill) ≈ₐ r.map (m.leaf c.fill) := by
  by_cases h0 : r'.shape = []
  · rw [if_pos h0]
    refine ⟨h.1, fun idx hidx => ?_⟩
    have h1 : r.shape = [] := h.1 ▸ h0
    rcases hz with hz | hz
    · exfalso
      apply hz
      have := hwf.shape_eq m
      rw [den_adapter m o c keys r hr] at this
      rw [show ((r.map (m.leaf c.fill)).shape) = [] from h1] at this
      exact this
    · show m.leaf0 c.fill (r'.get idx) = m.leaf c.fill (r.get idx)
      rw [h.2 idx hidx]
      obtain ⟨fk, σ, _, hσ, rfl⟩ := npIndex_ok_iff.mp hr
      exact hz _ (selSrc_inB hσ _ (by have := hidx; rw [show (r'.map (m.leaf0 c.fill)).shape = _ from h.1] at this; exact this))
  · rw [if_neg h0]
    exact h.map _

theorem evalWith_ok [Inhabited α] [Inhabited V] (m : Mode α V) (S : Arr α → Prop)
    (eng : Arr α → Res (NDA V)) (hE : ∀ b : Arr α, b.WF → S b → ∃ r, eng b = .ok r ∧ r ≈ₐ b.den m) :
    ∀ (a : Arr α), a.WF → a.evalGood m S → ∃ r, a.evalWith m eng = .ok r ∧ r ≈ₐ a.den m
  | .adapter o c keys, hwf, hg => by
    obtain ⟨hs, r, hr⟩ := hwf
    obtain ⟨r', h1, h2⟩ := applyKeys_ok o c.data r keys hs hr hg.2
    refine ⟨_, by unfold Arr.evalWith; rw [h1]; rfl, ?_⟩
    rw [den_adapter m o c keys r hr]
    exact leaf0_eqv (show (Arr.adapter o c keys).WF from ⟨hs, r, hr⟩) hg.1 hr h2
  | .const s v d, hwf, hg => ⟨_, rfl, NDA.Eqv.refl _⟩
  | .newAxes a na, hwf, hg => by
    obtain ⟨hwa, s, hs, hl⟩ := hwf
    have hden := hwa.den_shape m hs
    obtain ⟨r, h1, h2⟩ := evalWith_ok m S eng hE a hwa hg
    obtain ⟨r', k1, k2⟩ := newAxes_eval h2 (na := na) (by rw [hden]; exact hl)
    refine ⟨r', ?_, k2⟩
    unfold Arr.evalWith
    rw [hs, h1]
    rw [hden] at k1; exact k1
  | .bcast a d l, hwf, hg => by
    obtain ⟨hwa, _, _, hn, _, s, hs, h1s⟩ := hwf
    have hden := hwa.den_shape m hs
    obtain ⟨r, h1, h2⟩ := evalWith_ok m S eng hE a hwa hg
    obtain ⟨r', k1, k2⟩ := bcast_eval (lead := l) h2 hn (by rw [hden]; exact h1s)
    refine ⟨r', ?_, k2⟩
    unfold Arr.evalWith
    rw [h1]; exact k1
  | .transposed a ax, hwf, hg => by
    obtain ⟨hwa, s, hs, hl⟩ := hwf
    have hden := hwa.den_shape m hs
    obtain ⟨r, h1, h2⟩ := evalWith_ok m S eng hE a hwa hg
    obtain ⟨r', k1, k2⟩ := transposed_eval h2 (axes := ax) (by rw [hden]; exact hl)
    refine ⟨r', ?_, k2⟩
    unfold Arr.evalWith
    rw [h1]; exact k1
  | .stack ss items, hwf, hg => by
    have hsh := hwf.shape_eq m
    obtain ⟨h0, s, hi⟩ := hwf
    have hshape : ((Arr.stack ss items).den m).shape = ss ++ s := by
      unfold Arr.den NDA.stacked
      have := hi _ (inB_zeros ss h0)
      simp only
      rw [this.1.den_shape m this.2]
    obtain ⟨r, k1, k2⟩ := stack_eval (ss := ss) (s := s) (items := fun i => (items i).den m)
      (ev := fun i => (items i).evalWith m eng) h0 (fun i h => (hi i h).1.den_shape m (hi i h).2)
      (fun i h => evalWith_ok m S eng hE (items i) (hi i h).1 (hg i h))
    refine ⟨r, ?_, k2⟩
    unfold Arr.evalWith
    rw [hsh, hshape]
    exact k1
  | .mosaic n tiles axis, hwf, hg => by
    have hsh := hwf.shape_eq m
    obtain ⟨h0, s, hax, ht⟩ := hwf
    obtain ⟨r, off, k1, k2⟩ := mosaic_eval (n := n) (axis := axis) (s := s) (tiles := fun i => (tiles i).den m)
      (ev := fun i => (tiles i).evalWith m eng) (tshape := fun i => (tiles i).shape) h0 hax
      (fun i h => by obtain ⟨h1, k, h2⟩ := ht i h; exact ⟨k, h1.den_shape m h2⟩)
      (fun i h => (ht i h).1.shape_eq m)
      (fun i h => evalWith_ok m S eng hE (tiles i) (ht i h).1 (hg i h))
    refine ⟨r, ?_, k2⟩
    unfold Arr.evalWith
    rw [hsh]
    simp only [bind, Except.bind] at k1 ⊢
    unfold Arr.den
    rw [k1]
    rfl
  | .asType a d, hwf, hg => by
    obtain ⟨r, h1, h2⟩ := evalWith_ok m S eng hE a hwf hg
    exact ⟨_, by unfold Arr.evalWith; rw [h1]; rfl, h2.map _⟩
  | .maskVal a v, hwf, hg => by
    obtain ⟨r, h1, h2⟩ := evalWith_ok m S eng hE a hwf hg
    exact ⟨_, by unfold Arr.evalWith; rw [h1]; rfl, h2.map _⟩
  | .agg a axis k, hwf, hg => hE _ hwf hg
  | .elem1 a op, hwf, hg => by
    obtain ⟨g1, g2⟩ := hg
    obtain ⟨f, hf⟩ := Option.isSome_iff_exists.mp g1
    obtain ⟨r, h1, h2⟩ := hE a hwf g2
    refine ⟨_, by unfold Arr.evalWith; rw [hf, h1]; rfl, ?_⟩
    unfold Arr.den
    rw [hf]; exact h2.map _
  | .elem2 a b op, hwf, hg => by
    obtain ⟨g1, g2, g3⟩ := hg
    obtain ⟨hwa, hwb, hab⟩ := hwf
    have hsh : (a.den m).shape = (b.den m).shape := by
      have h1 := hwa.shape_eq m
      rw [hab, hwb.shape_eq m] at h1
      injection h1 with h1
      exact h1.symm
    obtain ⟨f, hf⟩ := Option.isSome_iff_exists.mp g1
    obtain ⟨ra, h1, h2⟩ := hE a hwa g2
    obtain ⟨rb, k1, k2⟩ := hE b hwb g3
    obtain ⟨r, r1, r2⟩ := npOp2_ok (f := f) h2 k2 hsh
    refine ⟨r, by unfold Arr.evalWith; rw [hf, h1, k1]; exact r1, ?_⟩
    unfold Arr.den
    rw [hf]; exact r2

/-- `.ndarray()` / `.masked_array()` gives the array the expression stands for. -/
theorem eval_good [Inhabited α] [Inhabited V] (m : Mode α V) (limit : Nat) : ∀ (n : Nat) (a : Arr α), a.WF →
    a.good m limit n → ∃ r, a.eval m limit n = .ok r ∧ r ≈ₐ a.den m
  | 0, a, hwf, hg => evalWith_ok m (fun _ => False) _ (fun _ _ h => h.elim) a hwf hg
  | n + 1, a, hwf, hg => evalWith_ok m _ _ (fun b hb hS =>
      engineOne_ok m limit (Arr.good m limit n) _ (fun b hb hG => eval_good m limit n b hb hG) b hb hS) a hwf hg

end Biggus

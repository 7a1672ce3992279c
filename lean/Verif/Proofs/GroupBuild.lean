import Verif.Proofs.GroupStreams
/-
The graph built for a group of array objects: its nodes put the chunks of the streams of the arrays.
-/
namespace Biggus

variable {α V : Type}

/-! ### Adding a node -/

section
variable {C R : Type}

theorem runAll_append : ∀ (gs hs : List (GNode C R)) (acc : List (List (Tok C) × Thread C R)), runAll (gs ++ hs) acc = runAll hs (runAll gs acc)
  | [], _, _ => rfl
  | g :: gs, hs, acc => by rw [List.cons_append, runAll, runAll, runAll_append gs hs]

theorem runAll_length : ∀ (gs : List (GNode C R)) (acc : List (List (Tok C) × Thread C R)), (runAll gs acc).length = acc.length + gs.length
  | [], acc => by simp [runAll]
  | g :: gs, acc => by rw [runAll, runAll_length gs]; simp; omega

theorem tokens_append (G H : Graph C R) {i : Nat} (h : i < G.length) : Graph.tokens (G ++ H) i = G.tokens i ∧ Graph.final (G ++ H) i = G.final i := by
  unfold Graph.tokens Graph.final
  rw [runAll_append, runAll_prefix H _ i (by rw [runAll_length]; simpa using h)]
  exact ⟨rfl, rfl⟩

theorem sources_append {G H : Graph C R} {i : Nat} (h : i < G.length) : Graph.sources (G ++ H) i = G.sources i := by
  unfold Graph.sources
  rw [List.getElem?_append_left h]

theorem sources_last {G : Graph C R} {g : GNode C R} : Graph.sources (G ++ [g]) G.length = g.sources := by
  unfold Graph.sources
  simp

theorem sources_out {G : Graph C R} {i : Nat} (h : G.length ≤ i) : G.sources i = [] := by
  unfold Graph.sources
  rw [List.getElem?_eq_none h]; rfl

theorem Graph.Valid.snoc {G : Graph C R} (h : G.Valid) {g : GNode C R} (hs : ∀ s ∈ g.sources, s < G.length) (hc : ∀ s (o : Obj C R), g = .cons s o → s ≠ []) :
    Graph.Valid (G ++ [g]) := by
  refine ⟨fun i s hi => ?_, fun i s o hi => ?_⟩
  · rcases Nat.lt_trichotomy i G.length with hl | rfl | hl
    · rw [sources_append hl] at hi; exact h.1 i s hi
    · rw [sources_last] at hi; exact hs s hi
    · rw [sources_out (by simp; omega)] at hi; cases hi
  · rcases Nat.lt_trichotomy i G.length with hl | rfl | hl
    · rw [List.getElem?_append_left hl] at hi; exact h.2 i s o hi
    · simp only [List.getElem?_concat_length, Option.some.injEq] at hi; exact hc s o hi
    · rw [List.getElem?_eq_none (by simp; omega)] at hi; cases hi

/-- A clock for one more node. -/
def clockAdd (G : Graph C R) (T : Nat → List Nat) (τ : List Nat) : Nat → List Nat := fun i => if i = G.length then τ else T i

theorem clockAdd_lt {G : Graph C R} {T : Nat → List Nat} {τ : List Nat} {i : Nat} (h : i < G.length) : clockAdd G T τ i = T i := by
  unfold clockAdd; rw [if_neg (by omega)]

theorem clockAdd_last {G : Graph C R} {T : Nat → List Nat} {τ : List Nat} : clockAdd G T τ G.length = τ := by simp [clockAdd]

theorem Graph.Clocked.snoc {G : Graph C R} {T : Nat → List Nat} (h : G.Clocked T) (hv : G.Valid) {g : GNode C R} {τ : List Nat} (hs : ∀ s ∈ g.sources, s < G.length)
    (hc : ∀ s (o : Obj C R), g = .cons s o → s ≠ [])
    (hp : ∀ todo, g = .prod todo → τ.length = (prodTokens todo).length ∧ τ.Pairwise (· < ·))
    (hcons : ∀ s (o : Obj C R), g = .cons s o → (∀ j ∈ s, T j = T (s.headD 0)) ∧ τ = (consTimed o (rounds (s.map G.tokens)) (T (s.headD 0))).map Prod.snd) :
    Graph.Clocked (G ++ [g]) (clockAdd G T τ) := by
  have key : ∀ (i : Nat) (x : GNode C R), (G ++ [g])[i]? = some x → (i < G.length ∧ G[i]? = some x) ∨ (i = G.length ∧ x = g) := by
    intro i x hi
    rcases Nat.lt_trichotomy i G.length with hl | rfl | hl
    · rw [List.getElem?_append_left hl] at hi; exact Or.inl ⟨hl, hi⟩
    · simp only [List.getElem?_concat_length, Option.some.injEq] at hi; exact Or.inr ⟨rfl, hi.symm⟩
    · rw [List.getElem?_eq_none (by simp; omega)] at hi; cases hi
  have hsrc : ∀ i s (o : Obj C R), G[i]? = some (.cons s o) → i < G.length → ∀ j ∈ s, j < G.length := by
    intro i s o hi hl j hj
    have := hv.1 i j (by unfold Graph.sources; rw [hi]; exact hj)
    omega
  have hhead : ∀ s : List Nat, s ≠ [] → s.headD 0 ∈ s := by
    intro s h
    cases s with
    | nil => exact absurd rfl h
    | cons a s => simp
  refine ⟨fun i todo hi => ?_, fun i s o hi j hj => ?_, fun i s o hi => ?_⟩
  · rcases key i _ hi with ⟨hl, hi⟩ | ⟨rfl, rfl⟩
    · rw [clockAdd_lt hl]; exact h.prod i todo hi
    · rw [clockAdd_last]; exact hp todo rfl
  · rcases key i _ hi with ⟨hl, hi⟩ | ⟨rfl, rfl⟩
    · rw [clockAdd_lt (hsrc i s o hi hl j hj), clockAdd_lt (hsrc i s o hi hl _ (hhead s (hv.2 i s o hi)))]
      exact h.same i s o hi j hj
    · rw [clockAdd_lt (hs j hj), clockAdd_lt (hs _ (hhead s (hc s o rfl)))]
      exact (hcons s o rfl).1 j hj
  · rcases key i _ hi with ⟨hl, hi⟩ | ⟨rfl, rfl⟩
    · rw [clockAdd_lt hl, clockAdd_lt (hsrc i s o hi hl _ (hhead s (hv.2 i s o hi))), h.cons i s o hi]
      congr 3
      exact List.map_congr_left (fun j hj => (tokens_append G [g] (hsrc i s o hi hl j hj)).1.symm)
    · rw [clockAdd_last, clockAdd_lt (hs _ (hhead s (hc s o rfl)))]
      rw [show s.map (Graph.tokens (G ++ [GNode.cons s o])) = s.map G.tokens from
        List.map_congr_left (fun j hj => (tokens_append G _ (hs j hj)).1)]
      exact (hcons s o rfl).2

end

/-! ### Orders that make no difference -/

/-- The stream of an array is the same for both orders. -/
def SameStream [Inhabited α] (m : Mode α V) (limit : Nat) (evalP : Arr α → Res (NDA V)) (a : Arr α) (o o' : List Nat) : Prop :=
  a.skel.keys limit o = a.skel.keys limit o' ∧ a.stream m limit evalP o = a.stream m limit evalP o' ∧ a.skel.times limit o = a.skel.times limit o'

/-- Every object is asked for its chunks in the order which `ord` has for it, or one that makes no difference. -/
def AObj.served [Inhabited α] (m : Mode α V) (limit : Nat) (evalP : Arr α → Res (NDA V)) (ord : Nat → List Nat) : AObj α → List Nat → Prop
  | .prod i a, o => SameStream m limit evalP a (ord i) o
  | .agg i x axis k, o => SameStream m limit evalP (.agg x.toArr axis k) (ord i) o ∧ x.served m limit evalP ord (aggOrder axis o)
  | .elem1 i x op, o => SameStream m limit evalP (.elem1 x.toArr op) (ord i) o ∧ x.served m limit evalP ord o
  | .elem2 i x y op, o => SameStream m limit evalP (.elem2 x.toArr y.toArr op) (ord i) o ∧ x.served m limit evalP ord o ∧ y.served m limit evalP ord o

theorem SameStream.of_eq [Inhabited α] {m : Mode α V} {limit : Nat} {evalP : Arr α → Res (NDA V)} {a : Arr α} {o o' : List Nat} (h : o = o') :
    SameStream m limit evalP a o o' := by subst h; exact ⟨rfl, rfl, rfl⟩

theorem served_of_ordered [Inhabited α] {m : Mode α V} {limit : Nat} {evalP : Arr α → Res (NDA V)} {ord : Nat → List Nat} :
    ∀ (x : AObj α) (o : List Nat), x.ordered ord o → x.served m limit evalP ord o
  | .prod _ _, _, h => .of_eq h
  | .agg _ x _ _, _, h => ⟨.of_eq h.1, served_of_ordered x _ h.2⟩
  | .elem1 _ x _, _, h => ⟨.of_eq h.1, served_of_ordered x _ h.2⟩
  | .elem2 _ x y _, _, h => ⟨.of_eq h.1, served_of_ordered x _ h.2.1, served_of_ordered y _ h.2.2⟩

theorem cart_full : ∀ (n : Nat), cart (List.replicate n [Key.full]) = [List.replicate n Key.full]
  | 0 => rfl
  | n + 1 => by rw [List.replicate_succ, List.replicate_succ, cart, cart_full n]; rfl

theorem chunkIndexGen_one {limit : Nat} {s o : List Nat} (hf : ∀ i, (s.drop i).prod ≤ limit) (hp : o.Perm (List.range s.length)) :
    chunkIndexGen limit s o = [List.replicate s.length Key.full] := by
  have hl : o.length = s.length := by simpa using hp.length_eq
  unfold chunkIndexGen
  rw [allSlices_fits hf, chunkKeysOf_eq]
  have e : o.map (fun i => (s.map (fun _ => [Key.full])).getD i []) = List.replicate s.length [Key.full] := by
    rw [List.eq_replicate_iff]
    refine ⟨by simpa using hl, ?_⟩
    intro b hb
    obtain ⟨i, hi, rfl⟩ := List.mem_map.mp hb
    have : i < s.length := by simpa using (hp.mem_iff.mp hi)
    rw [List.getD_eq_getElem?_getD, List.getElem?_map, List.getElem?_eq_getElem this]; rfl
  rw [e, cart_full]
  simp only [List.map_cons, List.map_nil, List.cons.injEq, and_true]
  unfold unperm
  rw [List.eq_replicate_iff]
  refine ⟨by simp [hl], ?_⟩
  intro b hb
  obtain ⟨i, hi, rfl⟩ := List.mem_map.mp hb
  rw [List.getD_eq_getElem?_getD, List.getElem?_replicate]
  split <;> rfl

theorem keys_one {limit : Nat} : ∀ (sk : Skel) (o : List Nat), sk.WF → sk.fits limit → o.Perm (List.range sk.shape.length) →
    sk.keys limit o = [List.replicate sk.shape.length Key.full] ∧ sk.times limit o = sk.times limit (List.range sk.shape.length)
  | .prod s, o, _, hf, hp => by
    have h1 := chunkIndexGen_one hf hp
    refine ⟨h1, ?_⟩
    show List.range ((chunkIndexGen limit s o).length + 1) = List.range ((chunkIndexGen limit s (List.range s.length)).length + 1)
    rw [h1, chunkIndexGen_one hf (List.Perm.refl _)]
  | .agg s axis, o, hw, hf, hp => by
    have hsh : (Skel.agg s axis).shape = s.shape.eraseIdx axis := rfl
    have hl : (s.shape.eraseIdx axis).length = s.shape.length - 1 := by rw [List.length_eraseIdx, if_pos hw.2]
    rw [hsh, hl] at hp ⊢
    obtain ⟨h1, h2⟩ := keys_one s (aggOrder axis o) hw.1 hf (aggOrder_perm' hw.2 hp)
    obtain ⟨h3, h4⟩ := keys_one s (aggOrder axis (List.range (s.shape.length - 1))) hw.1 hf (aggOrder_perm' hw.2 (List.Perm.refl _))
    refine ⟨?_, ?_⟩
    · rw [Skel.keys, h1]
      have hax := hw.2
      simp only [List.map_cons, List.map_nil, dropRepeats, List.cons.injEq, and_true]
      rw [List.eraseIdx_replicate, if_pos hax]
    · rw [Skel.times, Skel.times, h1, h2, h3, h4]

theorem oneChunk_fits {limit : Nat} : ∀ (a : Arr α), a.oneChunk limit → a.skel.fits limit
  | .agg a _ _, h => oneChunk_fits a h
  | .elem1 a _, h => oneChunk_fits a h
  | .elem2 a _ _, h => oneChunk_fits a h.1
  | .adapter .., h | .const .., h | .newAxes .., h | .bcast .., h | .transposed .., h | .stack .., h | .mosaic .., h
  | .asType .., h | .maskVal .., h => h

theorem stream_prod [Inhabited α] {m : Mode α V} {limit : Nat} {evalP : Arr α → Res (NDA V)} {a : Arr α} (h : a.isProd = true) (o : List Nat) : a.stream m limit evalP o = (a.shape >>= fun s =>
    (chunkIndexGen limit s o).mapM (fun key => do
        let b ← a.getitem key
        let d ← evalP b
        return (key, d))) := by
  cases a <;> first | rfl | cases h

/-- An array of one chunk: the order makes no difference. -/
theorem sameStream_one [Inhabited α] [Inhabited V] {m : Mode α V} {limit : Nat} {evalP : Arr α → Res (NDA V)} (a : Arr α) (hw : a.WF) (h1 : a.oneChunk limit)
    {o o' : List Nat} (hp : o.Perm (List.range (a.den m).shape.length)) (hp' : o'.Perm (List.range (a.den m).shape.length)) : SameStream m limit evalP a o o' := by
  obtain ⟨w1, w2⟩ := skel_shape m a hw
  have hf := oneChunk_fits a h1
  obtain ⟨k1, k2⟩ := keys_one a.skel o w1 hf (by rw [w2]; exact hp)
  obtain ⟨k3, k4⟩ := keys_one a.skel o' w1 hf (by rw [w2]; exact hp')
  refine ⟨by rw [k1, k3], ?_, by rw [k2, k4]⟩
  clear k1 k2 k3 k4 w1 w2 hf
  induction a generalizing o o' with
  | agg a axis k ih =>
    obtain ⟨hwa, s, hs, hax⟩ := hw
    have hd : (a.den m).shape = s := hwa.den_shape m hs
    have hsh : ((Arr.agg a axis k).den m).shape = (a.den m).shape.eraseIdx axis := rfl
    rw [hsh, List.length_eraseIdx, if_pos (by rw [hd]; exact hax)] at hp hp'
    rw [Arr.stream, Arr.stream, ih hwa h1 (aggOrder_perm' (by rw [hd]; exact hax) hp) (aggOrder_perm' (by rw [hd]; exact hax) hp')]
  | elem1 a op ih =>
    rw [Arr.stream, Arr.stream, ih hw h1 hp hp']
  | elem2 a b op iha ihb =>
    have hb : (a.den m).shape = (b.den m).shape := by
      have e1 := hw.1.shape_eq m
      have e2 := hw.2.1.shape_eq m
      rw [hw.2.2, e2] at e1
      exact (Except.ok.inj e1).symm
    have hsh : ((Arr.elem2 a b op).den m).shape = (a.den m).shape := Arr.WF.den_shape m hw (by rw [Arr.shape]; exact hw.1.shape_eq m)
    rw [hsh] at hp hp'
    rw [Arr.stream, Arr.stream, iha hw.1 h1.1 hp hp', ihb hw.2.1 h1.2 (hb ▸ hp) (hb ▸ hp')]
  | _ =>
    rw [stream_prod rfl, stream_prod rfl, hw.shape_eq m]
    have hf := h1
    simp only [Arr.oneChunk] at hf
    rw [hw.shape_eq m] at hf
    simp only [okOr] at hf
    show (chunkIndexGen limit _ o).mapM _ = (chunkIndexGen limit _ o').mapM _
    rw [chunkIndexGen_one hf hp, chunkIndexGen_one hf hp']

/-! ### The invariant -/

/-- The graph built so far: cached nodes put the chunks of the streams of their arrays; and, if `P`, nothing fails and there is a
clock, whose times depend only on how an array is streamed; if `Q`, there is only one chunk of everything. -/
structure BInv [Inhabited α] (P Q : Prop) (heap : Nat → AObj α) (ord : Nat → List Nat) (m : Mode α V) (limit : Nat) (evalP : Arr α → Res (NDA V))
    (b : Build V) (T : Nat → List Nat) : Prop where
  valid : b.nodes.Valid
  cached : ∀ id n, b.cache.lookup id = some n → n < b.nodes.length ∧
    Matches ((heap id).toArr.skel.keys limit (ord id)) (b.nodes.tokens n) ((heap id).toArr.stream m limit evalP (ord id)) ∧
    (P → T n = (heap id).toArr.skel.times limit (ord id))
  clock : P → b.nodes.Clocked T ∧ ∀ i, i < b.nodes.length → Tok.abort ∉ b.nodes.tokens i
  small : Q → ∀ i, i < b.nodes.length → (b.nodes.tokens i).length ≤ 2

/-- What `makeNode` is asked for. -/
structure Asked [Inhabited α] (P Q : Prop) (heap : Nat → AObj α) (ord : Nat → List Nat) (m : Mode α V) (limit : Nat) (evalP : Arr α → Res (NDA V))
    (x : AObj α) (o : List Nat) : Prop where
  heap : x.inHeap heap
  proper : x.Proper
  ordered : x.served m limit evalP ord o
  wf : x.toArr.WF
  aligned : x.toArr.aligned limit o
  len : ∃ s, x.toArr.shape = .ok s ∧ o.Perm (List.range s.length)
  sub : Q → x.toArr.oneChunk limit
  fine : P → x.toArr.samePace ∧ ∃ cs, x.toArr.stream m limit evalP o = .ok cs

section
variable [Inhabited α] [Inhabited V] {P Q : Prop} {heap : Nat → AObj α} {ord : Nat → List Nat} {m : Mode α V} {limit : Nat} {evalP : Arr α → Res (NDA V)}

theorem matches_ok_length {K : List (List Key)} {ts : List (Tok (Chunk V))} {cs : List (Chunk V)} (h : Matches K ts (.ok cs)) : ts.length = K.length + 1 := by
  obtain ⟨rfl, rfl⟩ := h; simp

theorem matches_length {K : List (List Key)} {ts : List (Tok (Chunk V))} {r : Res (List (Chunk V))} (h : Matches K ts r) : ts.length ≤ K.length + 1 := by
  match r, h with
  | .ok cs, h => exact (matches_ok_length h).le
  | .error e, ⟨cs, h1, h2⟩ =>
    have := h2.length_le
    subst h1
    simp at this ⊢; omega

theorem matches_ok_abort {K : List (List Key)} {ts : List (Tok (Chunk V))} {cs : List (Chunk V)} (h : Matches K ts (.ok cs)) : Tok.abort ∉ ts := by
  obtain ⟨rfl, rfl⟩ := h; simp

/-- One more node, cached. -/
theorem BInv.add {b : Build V} {T : Nat → List Nat} (h : BInv P Q heap ord m limit evalP b T) {id : Nat} {g : GNode (Chunk V) (NDA V)} {τ : List Nat}
    (hs : ∀ s ∈ g.sources, s < b.nodes.length) (hc : ∀ s (o : Obj (Chunk V) (NDA V)), g = .cons s o → s ≠ [])
    (hm : Matches ((heap id).toArr.skel.keys limit (ord id)) (Graph.tokens (b.nodes ++ [g]) b.nodes.length) ((heap id).toArr.stream m limit evalP (ord id)))
    (hτ : P → τ = (heap id).toArr.skel.times limit (ord id))
    (hok : P → ∃ cs, (heap id).toArr.stream m limit evalP (ord id) = .ok cs)
    (hq : Q → ((heap id).toArr.skel.keys limit (ord id)).length ≤ 1)
    (hp : P → ∀ todo, g = .prod todo → τ.length = (prodTokens todo).length ∧ τ.Pairwise (· < ·))
    (hcons : P → ∀ s (o : Obj (Chunk V) (NDA V)), g = .cons s o → (∀ j ∈ s, T j = T (s.headD 0)) ∧ τ = (consTimed o (rounds (s.map b.nodes.tokens)) (T (s.headD 0))).map Prod.snd) :
    BInv P Q heap ord m limit evalP (b.add id g).2 (clockAdd b.nodes T τ) ∧ (b.add id g).1 < (b.add id g).2.nodes.length ∧
      Matches ((heap id).toArr.skel.keys limit (ord id)) ((b.add id g).2.nodes.tokens (b.add id g).1) ((heap id).toArr.stream m limit evalP (ord id)) ∧
      (P → clockAdd b.nodes T τ (b.add id g).1 = (heap id).toArr.skel.times limit (ord id)) ∧
      b.nodes <+: (b.add id g).2.nodes ∧ ∀ i, i < b.nodes.length → clockAdd b.nodes T τ i = T i := by
  refine ⟨⟨h.valid.snoc hs hc, ?_, ?_, ?_⟩, ?_, hm, ?_, ⟨[g], rfl⟩, fun i hi => clockAdd_lt hi⟩
  · intro id' n hl
    show n < (b.nodes ++ [g]).length ∧ _
    have hl' : List.lookup id' ((id, b.nodes.length) :: b.cache) = some n := hl
    rw [List.lookup_cons] at hl'
    split at hl'
    · rename_i he
      rw [beq_iff_eq] at he
      cases hl'
      subst he
      exact ⟨by simp, hm, fun p => by rw [clockAdd_last]; exact hτ p⟩
    · obtain ⟨h1, h2, h3⟩ := h.cached id' n hl'
      refine ⟨by simp; omega, ?_, fun p => by rw [clockAdd_lt h1]; exact h3 p⟩
      show Matches _ (Graph.tokens (b.nodes ++ [g]) n) _
      rw [(tokens_append b.nodes [g] h1).1]; exact h2
  · intro p
    obtain ⟨h1, h2⟩ := h.clock p
    refine ⟨h1.snoc h.valid hs hc (hp p) (hcons p), ?_⟩
    intro i hi
    have hi' : i < (b.nodes ++ [g]).length := hi
    show Tok.abort ∉ Graph.tokens (b.nodes ++ [g]) i
    by_cases hl : i < b.nodes.length
    · rw [(tokens_append b.nodes [g] hl).1]; exact h2 i hl
    · have : i = b.nodes.length := by simp at hi'; omega
      subst this
      obtain ⟨cs, hcs⟩ := hok p
      rw [hcs] at hm
      exact matches_ok_abort hm
  · intro q i hi
    have hi' : i < (b.nodes ++ [g]).length := hi
    show (Graph.tokens (b.nodes ++ [g]) i).length ≤ 2
    by_cases hl : i < b.nodes.length
    · rw [(tokens_append b.nodes [g] hl).1]; exact h.small q i hl
    · have : i = b.nodes.length := by simp at hi'; omega
      subst this
      have := matches_length hm
      have := hq q
      omega
  · show b.nodes.length < (b.nodes ++ [g]).length
    simp
  · intro p
    show clockAdd b.nodes T τ b.nodes.length = _
    rw [clockAdd_last]; exact hτ p

theorem Asked.one {x : AObj α} {o : List Nat} (ha : Asked P Q heap ord m limit evalP x o) (q : Q) : (x.toArr.skel.keys limit o).length ≤ 1 := by
  obtain ⟨s, hs, hp⟩ := ha.len
  obtain ⟨w1, w2⟩ := skel_shape m x.toArr ha.wf
  rw [(keys_one x.toArr.skel o w1 (oneChunk_fits _ (ha.sub q)) (by rw [w2, ha.wf.den_shape m hs]; exact hp)).1]
  simp

/-- What `makeNode` gives. -/
def Made (P Q : Prop) (heap : Nat → AObj α) (ord : Nat → List Nat) (m : Mode α V) (limit : Nat) (evalP : Arr α → Res (NDA V)) (b : Build V) (T : Nat → List Nat)
    (r : Res (Nat × Build V)) (x : AObj α) (o : List Nat) : Prop :=
  (∃ e e', r = .error e ∧ x.toArr.stream m limit evalP o = .error e') ∨
  ∃ n b' T', r = .ok (n, b') ∧ BInv P Q heap ord m limit evalP b' T' ∧ n < b'.nodes.length ∧
    Matches (x.toArr.skel.keys limit o) (b'.nodes.tokens n) (x.toArr.stream m limit evalP o) ∧
    (P → T' n = x.toArr.skel.times limit o) ∧ b.nodes <+: b'.nodes ∧ ∀ i, i < b.nodes.length → T' i = T i

theorem inHeap_id {x : AObj α} (h : x.inHeap heap) : heap x.id = x := by
  cases x with
  | prod i a => exact h
  | agg i x a k => exact h.1
  | elem1 i x op => exact h.1
  | elem2 i x y op => exact h.1

theorem served_id {x : AObj α} {o : List Nat} (h : x.served m limit evalP ord o) : SameStream m limit evalP x.toArr (ord x.id) o := by
  cases x with
  | prod i a => exact h
  | agg i x a k => exact h.1
  | elem1 i x op => exact h.1
  | elem2 i x y op => exact h.1

/-- A cached node. -/
theorem made_cached {b : Build V} {T : Nat → List Nat} (h : BInv P Q heap ord m limit evalP b T) {x : AObj α} {o : List Nat}
    (ha : Asked P Q heap ord m limit evalP x o) {n : Nat} (hl : b.cache.lookup x.id = some n) : Made P Q heap ord m limit evalP b T (.ok (n, b)) x o := by
  obtain ⟨h1, h2, h3⟩ := h.cached x.id n hl
  obtain ⟨s1, s2, s3⟩ := served_id ha.ordered
  rw [inHeap_id ha.heap, s1, s2] at h2
  rw [inHeap_id ha.heap, s3] at h3
  exact Or.inr ⟨n, b, T, rfl, h, h1, h2, h3, List.prefix_refl _, fun _ _ => rfl⟩

/-- A new node. -/
theorem made_add {b : Build V} {T : Nat → List Nat} (h : BInv P Q heap ord m limit evalP b T) {x : AObj α} {o : List Nat}
    (ha : Asked P Q heap ord m limit evalP x o) {g : GNode (Chunk V) (NDA V)} {τ : List Nat}
    (hs : ∀ s ∈ g.sources, s < b.nodes.length) (hc : ∀ s (o : Obj (Chunk V) (NDA V)), g = .cons s o → s ≠ [])
    (hm : Matches (x.toArr.skel.keys limit o) (Graph.tokens (b.nodes ++ [g]) b.nodes.length) (x.toArr.stream m limit evalP o))
    (hτ : P → τ = x.toArr.skel.times limit o)
    (hp : P → ∀ todo, g = .prod todo → τ.length = (prodTokens todo).length ∧ τ.Pairwise (· < ·))
    (hcons : P → ∀ s (o : Obj (Chunk V) (NDA V)), g = .cons s o → (∀ j ∈ s, T j = T (s.headD 0)) ∧ τ = (consTimed o (rounds (s.map b.nodes.tokens)) (T (s.headD 0))).map Prod.snd)
    {b0 : Build V} {T0 : Nat → List Nat} (hb0 : b0.nodes <+: b.nodes) (hT0 : ∀ i, i < b0.nodes.length → T i = T0 i) :
    Made P Q heap ord m limit evalP b0 T0 (.ok (b.add x.id g)) x o := by
  obtain ⟨s1, s2, s3⟩ := served_id ha.ordered
  have := h.add (id := x.id) (g := g) (τ := τ) hs hc (by rw [inHeap_id ha.heap, s1, s2]; exact hm)
    (by rw [inHeap_id ha.heap, s3]; exact hτ) (by rw [inHeap_id ha.heap, s2]; exact fun p => (ha.fine p).2)
    (by rw [inHeap_id ha.heap, s1]; exact fun q => ha.one q) hp hcons
  rw [inHeap_id ha.heap, s1, s2, s3] at this
  obtain ⟨h1, h2, h3, h4, h5, h6⟩ := this
  refine Or.inr ⟨_, _, _, rfl, h1, h2, h3, h4, hb0.trans h5, fun i hi => ?_⟩
  rw [h6 i (Nat.lt_of_lt_of_le hi hb0.length_le), hT0 i hi]

theorem tokens_last_cons {G : Graph (Chunk V) (NDA V)} (hv : G.Valid) {s : List Nat} {o : Obj (Chunk V) (NDA V)} (hs : ∀ j ∈ s, j < G.length) (hne : s ≠ []) :
    Graph.tokens (G ++ [.cons s o]) G.length = (consRun o (rounds (s.map G.tokens))).1 ∧
    Graph.final (G ++ [.cons s o]) G.length = (consRun o (rounds (s.map G.tokens))).2 := by
  have hv' : Graph.Valid (G ++ [.cons s o]) := hv.snoc hs (fun s' o' e => by cases e; exact hne)
  obtain ⟨h1, h2⟩ := tokens_cons hv' (i := G.length) (s := s) (o := o) (by simp)
  rw [h1, h2, show s.map (Graph.tokens (G ++ [GNode.cons s o])) = s.map G.tokens from
        List.map_congr_left (fun j hj => (tokens_append G _ (hs j hj)).1)]
  exact ⟨rfl, rfl⟩

theorem aggOrder_length (axis : Nat) (o : List Nat) : (aggOrder axis o).length = o.length + 1 := by simp [aggOrder]

theorem prod_matches {a : Arr α} (hp : a.isProd = true) {s : List Nat} (hs : a.shape = .ok s) (o : List Nat) :
    Matches (a.skel.keys limit o) (prodTokens (readChunks limit evalP a s o)) (a.stream m limit evalP o) := by
  have hk : a.skel.keys limit o = chunkIndexGen limit s o := by rw [isProd_skel hp, hs]; rfl
  rw [stream_prod hp, hs, hk]
  have hf : (fun key => (do
        let b ← a.getitem key
        let d ← evalP b
        return (key, d) : Res (Chunk V))) = (fun key => do let d ← (a.getitem key >>= evalP); return (key, d)) := by
    funext key
    cases a.getitem key <;> rfl
  unfold readChunks
  rw [hf]
  show Matches _ _ ((chunkIndexGen limit s o).mapM _)
  rcases prodTokens_matches (fun key => a.getitem key >>= evalP) (chunkIndexGen limit s o) with ⟨cs, h1, h2, h3⟩ | ⟨e, cs, h1, h2, h3⟩
  · rw [h1, h2]; exact ⟨rfl, h3⟩
  · rw [h1, h2]; exact ⟨cs, rfl, h3⟩

theorem Asked.agg_src {id axis : Nat} {x : AObj α} {k : AggKind α} {o : List Nat} (ha : Asked P Q heap ord m limit evalP (.agg id x axis k) o) :
    Asked P Q heap ord m limit evalP x (aggOrder axis o) := by
  obtain ⟨h1, h2, h3, ⟨w1, s, w2, w3⟩, h5, ⟨s', h6, h7⟩, hq, h8⟩ := ha
  refine ⟨h1.2, h2, h3.2, w1, h5, ⟨s, w2, ?_⟩, hq, fun p => ⟨(h8 p).1, ?_⟩⟩
  · have e : (Arr.agg x.toArr axis k).shape = .ok (s.eraseIdx axis) := by rw [Arr.shape, w2]; rfl
    rw [show (AObj.agg id x axis k).toArr = Arr.agg x.toArr axis k from rfl, e] at h6
    cases h6
    rw [List.length_eraseIdx, if_pos w3] at h7
    exact aggOrder_perm' w3 h7
  · obtain ⟨cs, hcs⟩ := (h8 p).2
    rw [show (AObj.agg id x axis k).toArr = Arr.agg x.toArr axis k from rfl, Arr.stream, w2] at hcs
    obtain ⟨_, _, hcs⟩ := bind_ok.mp hcs
    obtain ⟨ds, hds, _⟩ := bind_ok.mp hcs
    exact ⟨ds, hds⟩

theorem stream_elem1 {a : Arr α} {op : Op1 α} {f : V → V} (hf : m.op1 op = some f) (o : List Nat) : (Arr.elem1 a op).stream m limit evalP o =
    (a.stream m limit evalP o >>= fun cs => return cs.map (fun c => (c.1, c.2.map f))) := by
  rw [Arr.stream, hf]

theorem stream_elem2 {a b : Arr α} {op : Op2 α} {f : V → V → V} (hf : m.op2 op = some f) (o : List Nat) : (Arr.elem2 a b op).stream m limit evalP o =
    (do let ca ← a.stream m limit evalP o; let cb ← b.stream m limit evalP o; elem2Stream f ca cb) := by
  rw [Arr.stream, hf]

/-- `makeNode` gives a node that puts the chunks of the stream of the array. -/
theorem makeNode_ok : ∀ (x : AObj α) (o : List Nat) (b : Build V) (T : Nat → List Nat), BInv P Q heap ord m limit evalP b T →
    Asked P Q heap ord m limit evalP x o → Made P Q heap ord m limit evalP b T (makeNode m limit evalP x o b) x o
  | .prod id a, o, b, T, hb, ha => by
    rw [makeNode]
    match hl : b.cache.lookup id with
    | some n => exact made_cached hb ha hl
    | none =>
      obtain ⟨s, hs, hlen⟩ := ha.len
      have hs' : a.shape = .ok s := hs
      have hpr : a.isProd = true := ha.proper
      have hm := prod_matches (m := m) (limit := limit) (evalP := evalP) hpr hs' o
      have hk : a.skel.keys limit o = chunkIndexGen limit s o := by rw [isProd_skel hpr, hs']; rfl
      have ht : a.skel.times limit o = List.range ((chunkIndexGen limit s o).length + 1) := by rw [isProd_skel hpr, hs']; rfl
      have hlen' : s.length = o.length := by simpa using hlen.length_eq.symm
      simp only [hs', andThen, hlen', ne_eq, not_true_eq_false, if_false]
      refine made_add (x := .prod id a) hb ha (τ := a.skel.times limit o) (fun _ h => by cases h) (fun _ _ h => by cases h) ?_ (fun _ => rfl) ?_
        (fun _ _ _ h => by cases h) (List.prefix_refl _) (fun _ _ => rfl)
      · rw [(tokens_prod (i := b.nodes.length) (todo := readChunks limit evalP a s o) (by simp)).1]; exact hm
      · intro p todo he
        cases he
        obtain ⟨cs, hcs⟩ := (ha.fine p).2
        rw [show (AObj.prod id a).toArr = a from rfl] at hcs
        rw [hcs] at hm
        rw [ht, matches_ok_length hm, hk]
        exact ⟨by simp, List.pairwise_lt_range⟩
  | .agg id x axis k, o, b, T, hb, ha => by
    rw [makeNode]
    match hl : b.cache.lookup id with
    | some n => exact made_cached hb ha hl
    | none =>
      obtain ⟨s, hs, hlen⟩ := ha.agg_src.len
      simp only [hs, andThen]
      have hstr : (AObj.agg id x axis k).toArr.stream m limit evalP o =
          (x.toArr.stream m limit evalP (aggOrder axis o) >>= fun cs => aggStream (m.handler k) axis (s.getD axis 0) cs) := by
        rw [show (AObj.agg id x axis k).toArr = Arr.agg x.toArr axis k from rfl, Arr.stream, hs]; rfl
      rcases makeNode_ok x (aggOrder axis o) b T hb ha.agg_src with ⟨e, e', h1, h2⟩ | ⟨n, b', T', h1, h2, h3, h4, h5, h6, h7⟩
      · refine Or.inl ⟨e, e', by rw [h1]; rfl, by rw [hstr, h2]; rfl⟩
      · rw [h1]
        have hsn : ∀ s ∈ [n], s < b'.nodes.length := by simpa using h3
        have hm := matches_agg (m.handler k) axis (s.getD axis 0) h4
        refine made_add (x := .agg id x axis k) (g := .cons [n] (aggObj (m.handler k) axis (s.getD axis 0))) h2 ha (τ := (AObj.agg id x axis k).toArr.skel.times limit o) hsn (fun _ _ h => by cases h; simp) ?_ (fun _ => rfl)
          (fun _ _ h => by cases h) ?_ h6 h7
        · rw [(tokens_last_cons h2.valid hsn (by simp)).1, hstr]; exact hm
        · intro p s' o' he
          cases he
          refine ⟨by simp, ?_⟩
          obtain ⟨out, hout⟩ := (ha.fine p).2
          rw [hstr] at hout
          obtain ⟨cs, hcs, hout⟩ := bind_ok.mp hout
          rw [hcs] at h4
          obtain ⟨c1, c2⟩ := h2.clock p
          have hT : (T' n).length = (b'.nodes.tokens n).length := clocked_length h2.valid c1 n h3
          rw [List.map_cons, List.map_nil, List.headD_cons, times_agg (m.handler k) axis (s.getD axis 0) hT h4 hout, h5 p]
          rfl
  | .elem1 id x op, o, b, T, hb, ha => by
    rw [makeNode]
    match hl : b.cache.lookup id with
    | some n => exact made_cached hb ha hl
    | none =>
      simp only []
      match hop : m.op1 op with
      | none =>
        refine Or.inl ⟨.type, .type, rfl, ?_⟩
        rw [show (AObj.elem1 id x op).toArr = Arr.elem1 x.toArr op from rfl, Arr.stream, hop]
      | some f =>
        have hstr : (AObj.elem1 id x op).toArr.stream m limit evalP o = _ := stream_elem1 (a := x.toArr) hop o
        have hx : Asked P Q heap ord m limit evalP x o := by
          obtain ⟨h1, h2, h3, h4, h5, h6, hq, h7⟩ := ha
          refine ⟨h1.2, h2, h3.2, h4, h5, h6, hq, fun p => ⟨(h7 p).1, ?_⟩⟩
          obtain ⟨out, hout⟩ := (h7 p).2
          rw [hstr] at hout
          obtain ⟨cs, hcs, _⟩ := bind_ok.mp hout
          exact ⟨cs, hcs⟩
        simp only []
        rcases makeNode_ok x o b T hb hx with ⟨e, e', h1, h2⟩ | ⟨n, b', T', h1, h2, h3, h4, h5, h6, h7⟩
        · refine Or.inl ⟨e, e', by rw [h1]; rfl, by rw [hstr, h2]; rfl⟩
        · rw [h1]
          have hsn : ∀ s ∈ [n], s < b'.nodes.length := by simpa using h3
          have hm := matches_elem1 f h4
          refine made_add (x := .elem1 id x op) (g := .cons [n] (elem1Obj f)) h2 ha (τ := (AObj.elem1 id x op).toArr.skel.times limit o) hsn (fun _ _ h => by cases h; simp) ?_ (fun _ => rfl)
            (fun _ _ h => by cases h) ?_ h6 h7
          · rw [(tokens_last_cons h2.valid hsn (by simp)).1, hstr]; exact hm
          · intro p s' o' he
            cases he
            refine ⟨by simp, ?_⟩
            obtain ⟨cs, hcs⟩ := (hx.fine p).2
            rw [hcs] at h4
            obtain ⟨c1, c2⟩ := h2.clock p
            have hT : (T' n).length = (b'.nodes.tokens n).length := clocked_length h2.valid c1 n h3
            obtain ⟨e1, _⟩ := h4
            rw [List.map_cons, List.map_nil, List.headD_cons, rounds_one, e1]
            rw [e1] at hT
            have e : (cs.map Tok.chunk ++ [.finished] : List (Tok (Chunk V))).map (fun t => [t]) = cs.map (fun c => [Tok.chunk c]) ++ [[.finished]] := by simp
            rw [e, times_elem1 f cs (T' n) (by simpa using hT), h5 p]
            rfl
  | .elem2 id x y op, o, b, T, hb, ha => by
    rw [makeNode]
    match hl : b.cache.lookup id with
    | some n => exact made_cached hb ha hl
    | none =>
      simp only []
      match hop : m.op2 op with
      | none =>
        refine Or.inl ⟨.type, .type, rfl, ?_⟩
        rw [show (AObj.elem2 id x y op).toArr = Arr.elem2 x.toArr y.toArr op from rfl, Arr.stream, hop]
      | some f =>
        have hstr : (AObj.elem2 id x y op).toArr.stream m limit evalP o = _ := stream_elem2 (a := x.toArr) (b := y.toArr) hop o
        have hxy : Asked P Q heap ord m limit evalP x o ∧ Asked P Q heap ord m limit evalP y o := by
          obtain ⟨h1, h2, h3, h4, h5, ⟨s, h6, h6'⟩, hq, h7⟩ := ha
          refine ⟨⟨h1.2.1, h2.1, h3.2.1, h4.1, h5.1, ⟨s, h6, h6'⟩, fun q => (hq q).1, fun p => ⟨(h7 p).1.1, ?_⟩⟩,
            ⟨h1.2.2, h2.2, h3.2.2, h4.2.1, h5.2.1, ⟨s, h4.2.2.symm.trans h6, h6'⟩, fun q => (hq q).2, fun p => ⟨(h7 p).1.2.1, ?_⟩⟩⟩
          · obtain ⟨out, hout⟩ := (h7 p).2
            rw [hstr] at hout
            obtain ⟨cs, hcs, _⟩ := bind_ok.mp hout
            exact ⟨cs, hcs⟩
          · obtain ⟨out, hout⟩ := (h7 p).2
            rw [hstr] at hout
            obtain ⟨cs, hcs, hout⟩ := bind_ok.mp hout
            obtain ⟨ds, hds, _⟩ := bind_ok.mp hout
            exact ⟨ds, hds⟩
        obtain ⟨hx, hy⟩ := hxy
        simp only []
        rcases makeNode_ok x o b T hb hx with ⟨e, e', h1, h2⟩ | ⟨n, b', T', h1, h2, h3, h4, h5, h6, h7⟩
        · refine Or.inl ⟨e, e', by rw [h1]; rfl, by rw [hstr, h2]; rfl⟩
        rw [h1]
        show Made _ _ _ _ _ _ _ _ _ (makeNode m limit evalP y o b' >>= fun p => return p.2.add id (.cons [n, p.1] (elem2Obj f))) _ _
        rcases makeNode_ok y o b' T' h2 hy with ⟨e, e', g1, g2⟩ | ⟨n', b'', T'', g1, g2, g3, g4, g5, g6, g7⟩
        · refine Or.inl ⟨e, ?_⟩
          rw [hstr, g1, g2]
          match x.toArr.stream m limit evalP o with
          | .ok cs => exact ⟨e', rfl, rfl⟩
          | .error e'' => exact ⟨e'', rfl, rfl⟩
        · rw [g1]
          have hn : n < b''.nodes.length := Nat.lt_of_lt_of_le h3 g6.length_le
          have hsn : ∀ s ∈ [n, n'], s < b''.nodes.length := by
            intro s hs
            simp only [List.mem_cons, List.not_mem_nil, or_false] at hs
            rcases hs with rfl | rfl
            · exact hn
            · exact g3
          have htn : b''.nodes.tokens n = b'.nodes.tokens n := by
            obtain ⟨new, hnew⟩ := g6
            rw [← hnew]; exact (tokens_append _ _ h3).1
          rw [← htn] at h4
          have hm := matches_elem2 f ha.aligned.2.2 h4 g4
          refine made_add (x := .elem2 id x y op) (g := .cons [n, n'] (elem2Obj f)) g2 ha (τ := (AObj.elem2 id x y op).toArr.skel.times limit o) hsn (fun _ _ h => by cases h; simp) ?_ (fun _ => rfl)
            (fun _ _ h => by cases h) ?_ (h6.trans g6) (fun i hi => by rw [g7 i (Nat.lt_of_lt_of_le hi h6.length_le), h7 i hi])
          · rw [(tokens_last_cons g2.valid hsn (by simp)).1, hstr]; exact hm
          · intro p s' o' he
            cases he
            have hskel : x.toArr.skel = y.toArr.skel := (ha.fine p).1.2.2
            have hTn : T'' n = x.toArr.skel.times limit o := by rw [g7 n h3, h5 p]
            refine ⟨?_, ?_⟩
            · intro j hj
              simp only [List.mem_cons, List.not_mem_nil, or_false] at hj
              rcases hj with rfl | rfl
              · rfl
              · rw [List.headD_cons, g5 p, hTn, hskel]
            · obtain ⟨out, hout⟩ := (ha.fine p).2
              rw [hstr] at hout
              obtain ⟨cs, hcs, hout⟩ := bind_ok.mp hout
              obtain ⟨ds, hds, hout⟩ := bind_ok.mp hout
              rw [hcs] at h4
              rw [hds] at g4
              obtain ⟨c1, c2⟩ := g2.clock p
              have hT : (T'' n).length = (b''.nodes.tokens n).length := clocked_length g2.valid c1 n hn
              obtain ⟨e1, e2⟩ := h4
              obtain ⟨e3, e4⟩ := g4
              have hal := ha.aligned.2.2
              rw [List.map_cons, List.map_cons, List.map_nil, List.headD_cons, rounds_two, e1, e3]
              rw [e1] at hT
              have hlen : cs.length = ds.length := by
                rw [show cs.length = (cs.map Prod.fst).length by simp, show ds.length = (ds.map Prod.fst).length by simp, e2, e4]; exact hal
              rw [times_elem2 f cs ds out (T'' n) hlen (by simpa using hT) hout, hTn]
              rfl

end

end Biggus

import Verif.Proofs.GroupBuild
import Verif.Props.Engine
/-
Groups of array objects: the graph of the whole group, and its outcome.
-/
namespace Biggus

variable {α V : Type}

section
variable [Inhabited α] {P Q : Prop} {heap : Nat → AObj α} {ord : Nat → List Nat} {m : Mode α V} {limit : Nat} {evalP : Arr α → Res (NDA V)}

theorem consRun_result_tokens [Inhabited V] : ∀ (cs : List (Chunk V)) (r x : NDA V), cs.foldlM storeChunk r = .ok x →
    (consRun (resultObjAt r) (cs.map (fun c => [Tok.chunk c]) ++ [[.finished]])).1 = [.finished]
  | [], r, x, _ => by simp [consRun, Tok.isAbort, Tok.isFinished, resultObjAt, resultObj, outTok]
  | c :: cs, r, x, h => by
    rw [List.foldlM_cons] at h
    obtain ⟨r', h1, h2⟩ := bind_ok.mp h
    have ih := consRun_result_tokens cs r' x h2
    rw [List.map_cons, List.cons_append, consRun, if_neg (by simp [Tok.isAbort]), if_neg (by simp [Tok.isFinished])]
    have hproc : (resultObjAt r).process (resultObjAt r).st (([Tok.chunk c] : List (Tok (Chunk V))).filterMap Tok.chunk?) = .ok (r', none) := by
      simp only [List.filterMap_cons, Tok.chunk?, List.filterMap_nil, resultObjAt, resultObj]
      rw [h1]; rfl
    rw [hproc]
    exact ih

theorem consRun_result_le [Inhabited V] : ∀ (rs : List (List (Tok (Chunk V)))) (r : NDA V),
    (consRun (resultObjAt r) rs).1.length ≤ 1
  | [], r => by simp [consRun]
  | t :: rs, r => by
    rw [consRun]
    split
    · simp
    · split
      · simp [resultObjAt, resultObj, outTok]
      · split
        · simp
        · rename_i st' c hp
          have hc : c = none := by
            simp only [resultObjAt, resultObj] at hp
            split at hp
            · obtain ⟨r', _, hp⟩ := bind_ok.mp hp
              cases hp; rfl
            · cases hp
          subst hc
          exact consRun_result_le rs st'

/-- The result node of one array. -/
theorem BInv.result [Inhabited V] {b : Build V} {T : Nat → List Nat} (h : BInv P Q heap ord m limit evalP b T) {x : Arr α} {s : List Nat} (hs : x.shape = .ok s) {n : Nat}
    (hn : n < b.nodes.length) (hm : Matches (x.skel.keys limit (List.range s.length)) (b.nodes.tokens n) (x.stream m limit evalP (List.range s.length)))
    (hok : P → ∃ r, engineOne m limit evalP x = .ok r) :
    ∃ T', BInv P Q heap ord m limit evalP ⟨b.nodes ++ [.cons [n] (resultObj s)], b.cache⟩ T' ∧
      (Graph.final (b.nodes ++ [.cons [n] (resultObj s)]) b.nodes.length).result = some (engineOne m limit evalP x).toOption := by
  have hsn : ∀ j ∈ [n], j < b.nodes.length := by simpa using hn
  have hne : ∀ s' (o : Obj (Chunk V) (NDA V)), GNode.cons [n] (resultObj s) = .cons s' o → s' ≠ [] := fun _ _ e => by cases e; simp
  obtain ⟨t1, t2⟩ := tokens_last_cons h.valid (o := resultObj (V := V) s) hsn (by simp)
  have he : engineOne m limit evalP x = (x.stream m limit evalP (List.range s.length) >>= fun cs => assemble s cs) := by
    unfold engineOne; rw [hs]; rfl
  refine ⟨clockAdd b.nodes T ((consTimed (resultObj s) (rounds ([n].map b.nodes.tokens)) (T n)).map Prod.snd), ⟨h.valid.snoc hsn hne, ?_, ?_, ?_⟩, ?_⟩
  · intro id' n' hl
    obtain ⟨h1, h2, h3⟩ := h.cached id' n' hl
    refine ⟨by simp; omega, ?_, fun p => by rw [clockAdd_lt h1]; exact h3 p⟩
    show Matches _ (Graph.tokens (b.nodes ++ [.cons [n] (resultObj s)]) n') _
    rw [(tokens_append b.nodes _ h1).1]; exact h2
  · intro p
    obtain ⟨h1, h2⟩ := h.clock p
    refine ⟨h1.snoc h.valid hsn hne (fun _ e => by cases e) (fun s' o e => by cases e; exact ⟨by simp, rfl⟩), ?_⟩
    intro i hi
    have hi' : i < (b.nodes ++ [GNode.cons [n] (resultObj (V := V) s)]).length := hi
    show Tok.abort ∉ Graph.tokens (b.nodes ++ [.cons [n] (resultObj s)]) i
    by_cases hl : i < b.nodes.length
    · rw [(tokens_append b.nodes _ hl).1]; exact h2 i hl
    · have : i = b.nodes.length := by simp at hi'; omega
      subst this
      obtain ⟨r, hr⟩ := hok p
      rw [he] at hr
      obtain ⟨cs, hcs, hr⟩ := bind_ok.mp hr
      rw [hcs] at hm
      obtain ⟨e1, _⟩ := hm
      rw [t1, List.map_cons, List.map_nil, rounds_one, e1]
      have e : (cs.map Tok.chunk ++ [.finished] : List (Tok (Chunk V))).map (fun t => [t]) = cs.map (fun c => [Tok.chunk c]) ++ [[.finished]] := by simp
      rw [e, show resultObj (V := V) s = resultObjAt ⟨s, fun _ => default⟩ from rfl, consRun_result_tokens cs _ r hr]
      simp
  · intro q i hi
    have hi' : i < (b.nodes ++ [GNode.cons [n] (resultObj (V := V) s)]).length := hi
    show (Graph.tokens (b.nodes ++ [.cons [n] (resultObj s)]) i).length ≤ 2
    by_cases hl : i < b.nodes.length
    · rw [(tokens_append b.nodes _ hl).1]; exact h.small q i hl
    · have : i = b.nodes.length := by simp at hi'; omega
      subst this
      rw [t1]
      exact (consRun_result_le _ _).trans (by decide)
  · rw [t2, he]
    exact matches_result s hm

theorem buildGroup_ok [Inhabited V] : ∀ (xs : List (AObj α)) (b : Build V) (T : Nat → List Nat), BInv P Q heap ord m limit evalP b T →
    (∀ x ∈ xs, Asked P Q heap ord m limit evalP x (List.range (okOr x.toArr.shape []).length) ∧ (P → ∃ r, engineOne m limit evalP x.toArr = .ok r)) →
    (∃ e, buildGroup m limit evalP xs b = .error e ∧ ∃ x ∈ xs, ∃ e', engineOne m limit evalP x.toArr = .error e') ∨
    ∃ rs b' T', buildGroup m limit evalP xs b = .ok (rs, b') ∧ BInv P Q heap ord m limit evalP b' T' ∧ b.nodes <+: b'.nodes ∧
      List.Forall₂ (fun r x => r < b'.nodes.length ∧ (b'.nodes.final r).result = some (engineOne m limit evalP (AObj.toArr x)).toOption) rs xs
  | [], b, T, hb, _ => Or.inr ⟨[], b, T, rfl, hb, List.prefix_refl _, .nil⟩
  | x :: xs, b, T, hb, ha => by
    obtain ⟨hx, hxe⟩ := ha x (by simp)
    obtain ⟨s, hs, _⟩ := hx.len
    rw [hs] at hx
    have he : engineOne m limit evalP x.toArr = (x.toArr.stream m limit evalP (List.range s.length) >>= fun cs => assemble s cs) := by
      unfold engineOne; rw [hs]; rfl
    rw [buildGroup]
    simp only [hs, andThen]
    rcases makeNode_ok x (List.range s.length) b T hb hx with ⟨e, e', h1, h2⟩ | ⟨n, b', T', h1, h2, h3, h4, h5, h6, h7⟩
    · refine Or.inl ⟨e, by rw [h1]; rfl, x, by simp, e', by rw [he, h2]; rfl⟩
    · rw [h1]
      obtain ⟨T'', g1, g2⟩ := h2.result hs h3 h4 hxe
      show (∃ e, (buildGroup m limit evalP xs ⟨b'.nodes ++ [.cons [n] (resultObj s)], b'.cache⟩ >>= fun p => return (b'.nodes.length :: p.1, p.2)) = .error e ∧ _) ∨ _
      rcases buildGroup_ok xs _ T'' g1 (fun y hy => ha y (List.mem_cons_of_mem _ hy)) with ⟨e, k1, y, k2, k3⟩ | ⟨rs, b'', T3, k1, k2, k3, k4⟩
      · exact Or.inl ⟨e, by rw [k1]; rfl, y, List.mem_cons_of_mem _ k2, k3⟩
      · have hlt : b'.nodes.length < (b'.nodes ++ [GNode.cons [n] (resultObj (V := V) s)]).length := by simp
        obtain ⟨new, hnew⟩ := k3
        refine Or.inr ⟨b'.nodes.length :: rs, b'', T3, ?_, k2, ?_, .cons ⟨?_, ?_⟩ k4⟩
        · show (buildGroup m limit evalP xs ⟨b'.nodes ++ [.cons [n] (resultObj s)], b'.cache⟩ >>= fun p => return (b'.nodes.length :: p.1, p.2)) = _
          rw [k1]; rfl
        · exact (h6.trans (List.prefix_append _ _)).trans ⟨new, hnew⟩
        · rw [← hnew]
          have : b'.nodes.length < (b'.nodes ++ [GNode.cons [n] (resultObj (V := V) s)] ++ new).length := by simp
          exact this
        · rw [← hnew, (tokens_append _ new hlt).2]
          exact g2

theorem BInv.empty {T : Nat → List Nat} : BInv (V := V) P Q heap ord m limit evalP ⟨[], []⟩ T := by
  refine ⟨⟨fun i s h => ?_, fun i s o h => ?_⟩, fun id n h => ?_, fun _ => ⟨⟨fun i t h => ?_, fun i s o h => ?_, fun i s o h => ?_⟩, fun i h => ?_⟩, fun _ i h => ?_⟩
  · simp [Graph.sources] at h
  · simp at h
  · simp at h
  · simp at h
  · simp at h
  · simp at h
  · simp at h
  · simp at h

end

/-! ### Outcomes -/

theorem mapM_some_iff {β γ : Type} {f : β → Option γ} : ∀ {l : List β} {r : List γ}, l.mapM f = some r ↔ List.Forall₂ (fun a b => f a = some b) l r
  | [], r => by
    rw [List.mapM_nil]
    constructor
    · intro h; cases h; exact .nil
    · intro h; cases h; rfl
  | a :: l, r => by
    rw [List.mapM_cons]
    constructor
    · intro h
      obtain ⟨b, h1, h⟩ := Option.bind_eq_some_iff.mp h
      obtain ⟨r', h2, h⟩ := Option.bind_eq_some_iff.mp h
      cases h
      exact .cons h1 (mapM_some_iff.mp h2)
    · intro h
      cases h with
      | cons h1 h2 =>
        rw [h1, mapM_some_iff.mpr h2]; rfl

theorem mapM_ok_iff {β γ : Type} {f : β → Res γ} : ∀ {l : List β} {r : List γ}, l.mapM f = .ok r ↔ List.Forall₂ (fun a b => f a = .ok b) l r
  | [], r => by
    rw [List.mapM_nil]
    constructor
    · intro h; cases h; exact .nil
    · intro h; cases h; rfl
  | a :: l, r => by
    rw [List.mapM_cons]
    constructor
    · intro h
      obtain ⟨b, h1, h⟩ := bind_ok.mp h
      obtain ⟨r', h2, h⟩ := bind_ok.mp h
      cases h
      exact .cons h1 (mapM_ok_iff.mp h2)
    · intro h
      cases h with
      | cons h1 h2 =>
        rw [h1, mapM_ok_iff.mpr h2]; rfl

theorem toOption_some {β : Type} {r : Res β} {x : β} : r.toOption = some x ↔ r = .ok x := by
  cases r with
  | ok y => simp [Except.toOption]
  | error e => simp [Except.toOption]

/-- The outcome, if the results of the threads are known. -/
theorem outcome_eq {rs : List Nat} {c : Conf (Chunk V) (NDA V)} {qs : List (Res (NDA V))}
    (h : List.Forall₂ (fun r q => (c.loc r).result = some (Except.toOption q)) rs qs) : ∀ (l : List (NDA V)),
    groupOutcome rs c = some (.ok l) ↔ qs.mapM id = .ok l := by
  intro l
  have h1 : rs.mapM (fun r => (c.loc r).result) = some (qs.map Except.toOption) := by
    rw [mapM_some_iff, List.forall₂_map_right_iff]; exact h
  have h2 : ∀ l', (qs.map Except.toOption).mapM id = some l' ↔ qs.mapM id = .ok l' := by
    intro l'
    rw [mapM_some_iff, mapM_ok_iff, List.forall₂_map_left_iff]
    simp only [id_eq, toOption_some]
  unfold groupOutcome
  rw [h1]
  simp only [Option.map_some, Option.some.injEq]
  match hm : (qs.map Except.toOption).mapM id with
  | some l' =>
    simp only [Except.ok.injEq]
    rw [← h2, hm]; simp
  | none =>
    rw [← h2, hm]; simp

/-! ### Groups in which no object is used twice -/

theorem tree_of_nodup {C R : Type} {G : Graph C R} (h : (G.flatMap GNode.sources).Nodup) : G.Tree := by
  rw [List.nodup_flatMap] at h
  obtain ⟨h1, h2⟩ := h
  rw [List.pairwise_iff_getElem] at h2
  have src : ∀ q : QId, q.2 < (G.sources q.1).length → ∃ hl : q.1 < G.length, G.sources q.1 = G[q.1].sources := by
    intro q hq
    by_cases hl : q.1 < G.length
    · exact ⟨hl, by unfold Graph.sources; rw [List.getElem?_eq_getElem hl]; rfl⟩
    · rw [sources_out (by omega)] at hq; simp at hq
  have mem : ∀ q : QId, q.2 < (G.sources q.1).length → G.writer q ∈ G.sources q.1 := by
    intro q hq
    unfold Graph.writer
    rw [List.getD_eq_getElem?_getD, List.getElem?_eq_getElem hq]
    exact List.getElem_mem hq
  intro q q' hq hq' he
  obtain ⟨hl, e1⟩ := src q hq
  obtain ⟨hl', e1'⟩ := src q' hq'
  have m1 := mem q hq
  have m2 := mem q' hq'
  rcases Nat.lt_trichotomy q.1 q'.1 with hlt | heq | hlt
  · have hd := h2 q.1 q'.1 hl hl' hlt
    rw [e1] at m1; rw [e1', ← he] at m2
    exact absurd m2 (hd m1)
  · have hn := h1 _ (List.getElem_mem hl)
    rw [← e1] at hn
    have h5 : (G.sources q.1)[q.2] = (G.sources q.1)[q'.2]'(by rw [heq]; exact hq') := by
      unfold Graph.writer at he
      rw [← heq] at he
      rw [List.getD_eq_getElem?_getD, List.getD_eq_getElem?_getD, List.getElem?_eq_getElem hq, List.getElem?_eq_getElem (by rw [heq]; exact hq')] at he
      exact he
    have := (List.Nodup.getElem_inj_iff hn).mp h5
    exact Prod.ext heq this
  · have hd := h2 q'.1 q.1 hl' hl hlt
    rw [e1, he] at m1; rw [e1'] at m2
    exact absurd m1 (hd m2)

/-- What is added to the graph for an object, if no part of it is there already. -/
def Fresh (b b' : Build V) (ids : List Nat) (new : List (GNode (Chunk V) (NDA V))) (top : Nat) : Prop :=
  b'.nodes = b.nodes ++ new ∧ (new.flatMap GNode.sources).Nodup ∧ (∀ s ∈ new.flatMap GNode.sources, b.nodes.length ≤ s ∧ s < top) ∧
  ∀ i, b'.cache.lookup i ≠ none → i ∈ ids ∨ b.cache.lookup i ≠ none

theorem lookup_add {b : Build V} {id : Nat} {g : GNode (Chunk V) (NDA V)} {i : Nat} (h : (b.add id g).2.cache.lookup i ≠ none) :
    i = id ∨ b.cache.lookup i ≠ none := by
  have h' : List.lookup i ((id, b.nodes.length) :: b.cache) ≠ none := h
  rw [List.lookup_cons] at h'
  split at h'
  · rename_i he; exact Or.inl (by simpa using he)
  · exact Or.inr h'

theorem AObj.id_mem (x : AObj α) : x.id ∈ x.ids := by cases x <;> simp [AObj.id, AObj.ids]

theorem makeNode_fresh [Inhabited α] {m : Mode α V} {limit : Nat} {evalP : Arr α → Res (NDA V)} : ∀ (x : AObj α) (o : List Nat) (b b' : Build V) (n : Nat),
    makeNode m limit evalP x o b = .ok (n, b') → x.ids.Nodup → (∀ i ∈ x.ids, b.cache.lookup i = none) →
    n + 1 = b'.nodes.length ∧ b.nodes.length ≤ n ∧ ∃ new, Fresh b b' x.ids new n
  | .prod id a, o, b, b', n, h, _, hf => by
    rw [makeNode, hf id (by simp [AObj.ids])] at h
    simp only at h
    match hs : a.shape with
    | .error e => rw [hs] at h; cases h
    | .ok s =>
      rw [hs] at h
      simp only [andThen] at h
      split at h
      · cases h
      · cases h
        refine ⟨by simp [Build.add], by simp [Build.add], _, rfl, by simp [GNode.sources], by simp [GNode.sources], ?_⟩
        intro i hi
        rcases lookup_add hi with rfl | h
        · exact Or.inl (by simp [AObj.ids])
        · exact Or.inr h
  | .agg id x axis k, o, b, b', n, h, hn, hf => by
    rw [makeNode, hf id (by simp [AObj.ids])] at h
    simp only at h
    match hs : x.toArr.shape with
    | .error e => rw [hs] at h; cases h
    | .ok s =>
      rw [hs] at h
      simp only [andThen] at h
      match hm : makeNode m limit evalP x (aggOrder axis o) b with
      | .error e => rw [hm] at h; cases h
      | .ok (n1, b1) =>
        rw [hm] at h
        cases h
        have hn' : x.ids.Nodup := (List.nodup_append.mp (show (x.ids ++ [id]).Nodup from hn)).1
        obtain ⟨h1, h2, new, h3, h4, h5, h6⟩ := makeNode_fresh x _ b b1 n1 hm hn' (fun i hi => hf i (by simp [AObj.ids, hi]))
        refine ⟨by simp [Build.add], ?_, new ++ [.cons [n1] (aggObj (m.handler k) axis (s.getD axis 0))], ?_, ?_, ?_, ?_⟩
        · simp only [Build.add]; omega
        · simp only [Build.add, h3, List.append_assoc]
        · rw [List.flatMap_append, List.nodup_append]
          refine ⟨h4, by simp [GNode.sources], ?_⟩
          intro a ha c hc
          simp only [List.flatMap_cons, GNode.sources, List.flatMap_nil, List.append_nil, List.mem_singleton] at hc
          have := h5 a ha
          omega
        · intro s' hs'
          rw [List.flatMap_append, List.mem_append] at hs'
          simp only [Build.add]
          rcases hs' with hs' | hs'
          · have := h5 s' hs'; omega
          · simp only [List.flatMap_cons, GNode.sources, List.flatMap_nil, List.append_nil, List.mem_singleton] at hs'
            omega
        · intro i hi
          rcases lookup_add hi with rfl | h
          · exact Or.inl (by simp [AObj.ids])
          · rcases h6 i h with h | h
            · exact Or.inl (by simp [AObj.ids, h])
            · exact Or.inr h
  | .elem1 id x op, o, b, b', n, h, hn, hf => by
    rw [makeNode, hf id (by simp [AObj.ids])] at h
    simp only at h
    match hs : m.op1 op with
    | none => rw [hs] at h; cases h
    | some f =>
      rw [hs] at h
      simp only at h
      match hm : makeNode m limit evalP x o b with
      | .error e => rw [hm] at h; cases h
      | .ok (n1, b1) =>
        rw [hm] at h
        cases h
        have hn' : x.ids.Nodup := (List.nodup_append.mp (show (x.ids ++ [id]).Nodup from hn)).1
        obtain ⟨h1, h2, new, h3, h4, h5, h6⟩ := makeNode_fresh x _ b b1 n1 hm hn' (fun i hi => hf i (by simp [AObj.ids, hi]))
        refine ⟨by simp [Build.add], ?_, new ++ [.cons [n1] (elem1Obj f)], ?_, ?_, ?_, ?_⟩
        · simp only [Build.add]; omega
        · simp only [Build.add, h3, List.append_assoc]
        · rw [List.flatMap_append, List.nodup_append]
          refine ⟨h4, by simp [GNode.sources], ?_⟩
          intro a ha c hc
          simp only [List.flatMap_cons, GNode.sources, List.flatMap_nil, List.append_nil, List.mem_singleton] at hc
          have := h5 a ha
          omega
        · intro s' hs'
          rw [List.flatMap_append, List.mem_append] at hs'
          simp only [Build.add]
          rcases hs' with hs' | hs'
          · have := h5 s' hs'; omega
          · simp only [List.flatMap_cons, GNode.sources, List.flatMap_nil, List.append_nil, List.mem_singleton] at hs'
            omega
        · intro i hi
          rcases lookup_add hi with rfl | h
          · exact Or.inl (by simp [AObj.ids])
          · rcases h6 i h with h | h
            · exact Or.inl (by simp [AObj.ids, h])
            · exact Or.inr h
  | .elem2 id x y op, o, b, b', n, h, hn, hf => by
    rw [makeNode, hf id (by simp [AObj.ids])] at h
    simp only at h
    match hs : m.op2 op with
    | none => rw [hs] at h; cases h
    | some f =>
      rw [hs] at h
      simp only at h
      match hm : makeNode m limit evalP x o b with
      | .error e => rw [hm] at h; cases h
      | .ok (n1, b1) =>
        rw [hm] at h
        have h' : (makeNode m limit evalP y o b1 >>= fun p => return p.2.add id (.cons [n1, p.1] (elem2Obj f))) = .ok (n, b') := h
        match hm2 : makeNode m limit evalP y o b1 with
        | .error e => rw [hm2] at h'; cases h'
        | .ok (n2, b2) =>
        rw [hm2] at h'
        cases h'
        have hn' : (x.ids ++ y.ids).Nodup := (List.nodup_append.mp (show (x.ids ++ y.ids ++ [id]).Nodup from hn)).1
        obtain ⟨hx, hy, hxy⟩ := List.nodup_append.mp hn'
        obtain ⟨h1, h2, new, h3, h4, h5, h6⟩ := makeNode_fresh x _ b b1 n1 hm hx (fun i hi => hf i (by simp [AObj.ids, hi]))
        obtain ⟨g1, g2, new', g3, g4, g5, g6⟩ := makeNode_fresh y _ b1 b2 n2 hm2 hy (fun i hi => by
          by_contra hc
          rcases h6 i hc with h | h
          · exact hxy i h i hi rfl
          · exact h (hf i (by simp [AObj.ids, hi])))
        refine ⟨by simp [Build.add], ?_, new ++ new' ++ [.cons [n1, n2] (elem2Obj f)], ?_, ?_, ?_, ?_⟩
        · simp only [Build.add]; omega
        · simp only [Build.add, g3, h3, List.append_assoc]
        · rw [List.flatMap_append, List.flatMap_append, List.nodup_append, List.nodup_append]
          refine ⟨⟨h4, g4, ?_⟩, ?_, ?_⟩
          · intro a ha c hc
            have := h5 a ha
            have := g5 c hc
            omega
          · simp only [List.flatMap_cons, GNode.sources, List.flatMap_nil, List.append_nil, List.nodup_cons, List.mem_singleton, List.not_mem_nil,
              not_false_eq_true, List.nodup_nil, and_true]
            omega
          · intro a ha c hc
            simp only [List.flatMap_cons, GNode.sources, List.flatMap_nil, List.append_nil, List.mem_cons, List.not_mem_nil, or_false] at hc
            rcases List.mem_append.mp ha with ha | ha
            · have := h5 a ha; omega
            · have := g5 a ha; omega
        · intro s' hs'
          rw [List.flatMap_append, List.flatMap_append, List.mem_append, List.mem_append] at hs'
          simp only [Build.add]
          rcases hs' with (hs' | hs') | hs'
          · have := h5 s' hs'; omega
          · have := g5 s' hs'; omega
          · simp only [List.flatMap_cons, GNode.sources, List.flatMap_nil, List.append_nil, List.mem_cons, List.not_mem_nil, or_false] at hs'
            omega
        · intro i hi
          rcases lookup_add hi with rfl | h
          · exact Or.inl (by simp [AObj.ids])
          · rcases g6 i h with h | h
            · exact Or.inl (by simp [AObj.ids, h])
            · rcases h6 i h with h | h
              · exact Or.inl (by simp [AObj.ids, h])
              · exact Or.inr h

theorem buildGroup_fresh [Inhabited α] [Inhabited V] {m : Mode α V} {limit : Nat} {evalP : Arr α → Res (NDA V)} : ∀ (xs : List (AObj α)) (b b' : Build V) (rs : List Nat),
    buildGroup m limit evalP xs b = .ok (rs, b') → (xs.flatMap AObj.ids).Nodup → (∀ i ∈ xs.flatMap AObj.ids, b.cache.lookup i = none) →
    ∃ new, Fresh b b' (xs.flatMap AObj.ids) new b'.nodes.length ∧ ∀ r ∈ rs, b.nodes.length ≤ r ∧ r ∉ new.flatMap GNode.sources
  | [], b, b', rs, h, _, _ => by
    cases h
    exact ⟨[], ⟨by simp, by simp, by simp, fun i hi => Or.inr hi⟩, by simp⟩
  | x :: xs, b, b', rs, h, hn, hf => by
    rw [buildGroup] at h
    match hs : x.toArr.shape with
    | .error e => rw [hs] at h; cases h
    | .ok s =>
      rw [hs] at h
      simp only [andThen] at h
      match hm : makeNode m limit evalP x (List.range s.length) b with
      | .error e => rw [hm] at h; cases h
      | .ok (n1, b1) =>
        rw [hm] at h
        have h' : (buildGroup m limit evalP xs ⟨b1.nodes ++ [.cons [n1] (resultObj s)], b1.cache⟩ >>= fun p => return (b1.nodes.length :: p.1, p.2)) = .ok (rs, b') := h
        match hm2 : buildGroup m limit evalP xs ⟨b1.nodes ++ [.cons [n1] (resultObj s)], b1.cache⟩ with
        | .error e => rw [hm2] at h'; cases h'
        | .ok (rs2, b2) =>
          rw [hm2] at h'
          cases h'
          rw [List.flatMap_cons] at hn hf
          obtain ⟨hx, hy, hxy⟩ := List.nodup_append.mp hn
          obtain ⟨h1, h2, new, h3, h4, h5, h6⟩ := makeNode_fresh x _ b b1 n1 hm hx (fun i hi => hf i (by simp only [List.mem_append]; exact Or.inl hi))
          obtain ⟨new', ⟨g3, g4, g5, g6⟩, g7⟩ := buildGroup_fresh xs _ b2 rs2 hm2 hy (fun i hi => by
            by_contra hc
            rcases h6 i hc with h | h
            · exact hxy i h i hi rfl
            · exact h (hf i (by simp only [List.mem_append]; exact Or.inr hi)))
          have g3' : b2.nodes = b1.nodes ++ [.cons [n1] (resultObj s)] ++ new' := g3
          have g5' : ∀ s' ∈ new'.flatMap GNode.sources, b1.nodes.length + 1 ≤ s' ∧ s' < b2.nodes.length := by
            intro s' hs'
            have := g5 s' hs'
            simpa using this
          have g7' : ∀ r ∈ rs2, b1.nodes.length + 1 ≤ r ∧ r ∉ new'.flatMap GNode.sources := by
            intro r hr
            have := g7 r hr
            simpa using this
          have hlen : b1.nodes.length + 1 ≤ b2.nodes.length := by rw [g3']; simp
          have hb : b.nodes.length ≤ b1.nodes.length := by omega
          have hlast : ∀ a, a ∈ ([GNode.cons [n1] (resultObj s)] : List (GNode (Chunk V) (NDA V))).flatMap GNode.sources ↔ a = n1 := by
            intro a; simp [GNode.sources]
          refine ⟨new ++ [.cons [n1] (resultObj s)] ++ new', ⟨by rw [g3', h3]; simp only [List.append_assoc], ?_, ?_, ?_⟩, ?_⟩
          · rw [List.flatMap_append, List.flatMap_append, List.nodup_append, List.nodup_append]
            refine ⟨⟨h4, by simp [GNode.sources], ?_⟩, g4, ?_⟩
            · intro a ha c hc
              rw [hlast] at hc
              have := h5 a ha
              omega
            · intro a ha c hc
              have := g5' c hc
              rw [List.mem_append, hlast] at ha
              rcases ha with ha | ha
              · have := h5 a ha; omega
              · omega
          · intro s' hs'
            rw [List.flatMap_append, List.flatMap_append, List.mem_append, List.mem_append, hlast] at hs'
            show _ ∧ s' < b2.nodes.length
            rcases hs' with (hs' | hs') | hs'
            · have := h5 s' hs'; omega
            · omega
            · have := g5' s' hs'; omega
          · intro i hi
            rcases g6 i hi with h | h
            · exact Or.inl (by rw [List.flatMap_cons, List.mem_append]; exact Or.inr h)
            · rcases h6 i h with h | h
              · exact Or.inl (by rw [List.flatMap_cons, List.mem_append]; exact Or.inl h)
              · exact Or.inr h
          · intro r hr
            rw [List.flatMap_append, List.flatMap_append, List.mem_append, List.mem_append, hlast]
            rcases List.mem_cons.mp hr with rfl | hr
            · refine ⟨hb, ?_⟩
              rintro ((h | h) | h)
              · have := h5 _ h; omega
              · omega
              · have := g5' _ h; omega
            · obtain ⟨k1, k2⟩ := g7' r hr
              refine ⟨by omega, ?_⟩
              rintro ((h | h) | h)
              · have := h5 _ h; omega
              · omega
              · exact k2 h

theorem outs_nil {C R : Type} {G : Graph C R} (hv : G.Valid) {r : Nat} (h : r ∉ G.flatMap GNode.sources) : G.outs r = [] := by
  rw [List.eq_nil_iff_forall_not_mem]
  intro q hq
  obtain ⟨h1, h2⟩ := ((outs_wired hv r).2 q).mp hq
  apply h
  rw [List.mem_flatMap]
  have hl : q.1 < G.length := by
    by_contra hc
    rw [sources_out (by omega)] at h1; simp at h1
  refine ⟨G[q.1], List.getElem_mem hl, ?_⟩
  have e : G.sources q.1 = G[q.1].sources := by unfold Graph.sources; rw [List.getElem?_eq_getElem hl]; rfl
  rw [← e, ← h2]
  unfold Graph.writer
  rw [List.getD_eq_getElem?_getD, List.getElem?_eq_getElem h1]
  exact List.getElem_mem h1

/-! ### Objects used once are compatible -/

theorem inHeap_congr {h h' : Nat → AObj α} : ∀ (x : AObj α), (∀ i ∈ x.ids, h i = h' i) → x.inHeap h → x.inHeap h'
  | .prod i a, e, hx => by
    have : h i = _ := hx
    exact (e i (by simp [AObj.ids])).symm.trans this
  | .agg i x _ _, e, hx => ⟨(e i (by simp [AObj.ids])).symm.trans hx.1, inHeap_congr x (fun j hj => e j (by simp [AObj.ids, hj])) hx.2⟩
  | .elem1 i x _, e, hx => ⟨(e i (by simp [AObj.ids])).symm.trans hx.1, inHeap_congr x (fun j hj => e j (by simp [AObj.ids, hj])) hx.2⟩
  | .elem2 i x y _, e, hx => ⟨(e i (by simp [AObj.ids])).symm.trans hx.1, inHeap_congr x (fun j hj => e j (by simp [AObj.ids, hj])) hx.2.1,
      inHeap_congr y (fun j hj => e j (by simp [AObj.ids, hj])) hx.2.2⟩

theorem ordered_congr {h h' : Nat → List Nat} : ∀ (x : AObj α) (o : List Nat), (∀ i ∈ x.ids, h i = h' i) → x.ordered h o → x.ordered h' o
  | .prod i a, o, e, hx => by
    have : h i = _ := hx
    exact (e i (by simp [AObj.ids])).symm.trans this
  | .agg i x _ _, o, e, hx => ⟨(e i (by simp [AObj.ids])).symm.trans hx.1, ordered_congr x _ (fun j hj => e j (by simp [AObj.ids, hj])) hx.2⟩
  | .elem1 i x _, o, e, hx => ⟨(e i (by simp [AObj.ids])).symm.trans hx.1, ordered_congr x _ (fun j hj => e j (by simp [AObj.ids, hj])) hx.2⟩
  | .elem2 i x y _, o, e, hx => ⟨(e i (by simp [AObj.ids])).symm.trans hx.1, ordered_congr x _ (fun j hj => e j (by simp [AObj.ids, hj])) hx.2.1,
      ordered_congr y _ (fun j hj => e j (by simp [AObj.ids, hj])) hx.2.2⟩

theorem exists_heap : ∀ (x : AObj α), x.ids.Nodup → ∃ heap, x.inHeap heap
  | .prod i a, _ => ⟨fun _ => .prod i a, rfl⟩
  | .agg i x a k, h => by
    obtain ⟨h1, _, h2⟩ := List.nodup_append.mp (show (x.ids ++ [i]).Nodup from h)
    obtain ⟨hp, hx⟩ := exists_heap x h1
    refine ⟨Function.update hp i (.agg i x a k), by simp [AObj.inHeap], inHeap_congr x (fun j hj => ?_) hx⟩
    rw [Function.update_of_ne (h2 j hj i (by simp))]
  | .elem1 i x op, h => by
    obtain ⟨h1, _, h2⟩ := List.nodup_append.mp (show (x.ids ++ [i]).Nodup from h)
    obtain ⟨hp, hx⟩ := exists_heap x h1
    refine ⟨Function.update hp i (.elem1 i x op), by simp [AObj.inHeap], inHeap_congr x (fun j hj => ?_) hx⟩
    rw [Function.update_of_ne (h2 j hj i (by simp))]
  | .elem2 i x y op, h => by
    obtain ⟨h1, _, h2⟩ := List.nodup_append.mp (show (x.ids ++ y.ids ++ [i]).Nodup from h)
    obtain ⟨h3, h4, h5⟩ := List.nodup_append.mp h1
    obtain ⟨hp, hx⟩ := exists_heap x h3
    obtain ⟨hq, hy⟩ := exists_heap y h4
    refine ⟨Function.update (fun j => if j ∈ x.ids then hp j else hq j) i (.elem2 i x y op), by simp, inHeap_congr x (fun j hj => ?_) hx, inHeap_congr y (fun j hj => ?_) hy⟩
    · rw [Function.update_of_ne (h2 j (by simp [hj]) i (by simp)), if_pos hj]
    · rw [Function.update_of_ne (h2 j (by simp [hj]) i (by simp)), if_neg (fun hc => h5 j hc j hj rfl)]

theorem exists_order : ∀ (x : AObj α) (o : List Nat), x.ids.Nodup → ∃ ord, x.ordered ord o
  | .prod i a, o, _ => ⟨fun _ => o, rfl⟩
  | .agg i x a k, o, h => by
    obtain ⟨h1, _, h2⟩ := List.nodup_append.mp (show (x.ids ++ [i]).Nodup from h)
    obtain ⟨hp, hx⟩ := exists_order x (aggOrder a o) h1
    refine ⟨Function.update hp i o, by simp, ordered_congr x _ (fun j hj => ?_) hx⟩
    rw [Function.update_of_ne (h2 j hj i (by simp))]
  | .elem1 i x op, o, h => by
    obtain ⟨h1, _, h2⟩ := List.nodup_append.mp (show (x.ids ++ [i]).Nodup from h)
    obtain ⟨hp, hx⟩ := exists_order x o h1
    refine ⟨Function.update hp i o, by simp, ordered_congr x _ (fun j hj => ?_) hx⟩
    rw [Function.update_of_ne (h2 j hj i (by simp))]
  | .elem2 i x y op, o, h => by
    obtain ⟨h1, _, h2⟩ := List.nodup_append.mp (show (x.ids ++ y.ids ++ [i]).Nodup from h)
    obtain ⟨h3, h4, h5⟩ := List.nodup_append.mp h1
    obtain ⟨hp, hx⟩ := exists_order x o h3
    obtain ⟨hq, hy⟩ := exists_order y o h4
    refine ⟨Function.update (fun j => if j ∈ x.ids then hp j else hq j) i o, by simp, ordered_congr x _ (fun j hj => ?_) hx, ordered_congr y _ (fun j hj => ?_) hy⟩
    · rw [Function.update_of_ne (h2 j (by simp [hj]) i (by simp)), if_pos hj]
    · rw [Function.update_of_ne (h2 j (by simp [hj]) i (by simp)), if_neg (fun hc => h5 j hc j hj rfl)]

theorem compatible_of_nodup [Inhabited α] : ∀ (xs : List (AObj α)), (∀ x ∈ xs, x.Proper) → (xs.flatMap AObj.ids).Nodup → Compatible xs
  | [], _, _ => ⟨by simp, ⟨fun i => .prod i (.const [] default 0), by simp⟩, ⟨fun _ => [], by simp⟩⟩
  | x :: xs, hp, hn => by
    rw [List.flatMap_cons] at hn
    obtain ⟨h1, h2, h3⟩ := List.nodup_append.mp hn
    obtain ⟨_, ⟨hq, hy⟩, ⟨oq, oy⟩⟩ := compatible_of_nodup xs (fun y hy => hp y (by simp [hy])) h2
    obtain ⟨hx, hhx⟩ := exists_heap x h1
    obtain ⟨ox, hox⟩ := exists_order x (List.range (okOr x.toArr.shape []).length) h1
    refine ⟨hp, ⟨fun j => if j ∈ x.ids then hx j else hq j, ?_⟩, ⟨fun j => if j ∈ x.ids then ox j else oq j, ?_⟩⟩
    · intro y hmy
      rcases List.mem_cons.mp hmy with rfl | hmy
      · exact inHeap_congr _ (fun j hj => by rw [if_pos hj]) hhx
      · refine inHeap_congr _ (fun j hj => ?_) (hy y hmy)
        rw [if_neg (fun hc => h3 j hc j (List.mem_flatMap.mpr ⟨y, hmy, hj⟩) rfl)]
    · intro y hmy
      rcases List.mem_cons.mp hmy with rfl | hmy
      · exact ordered_congr _ _ (fun j hj => by rw [if_pos hj]) hox
      · refine ordered_congr _ _ (fun j hj => ?_) (oy y hmy)
        rw [if_neg (fun hc => h3 j hc j (List.mem_flatMap.mpr ⟨y, hmy, hj⟩) rfl)]

end Biggus

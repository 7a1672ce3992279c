import Verif.Spec.Groups
import Verif.Proofs.EngineInit
import Verif.Proofs.EvalClosed
/-
The tokens of a node of the graph are the chunks of the stream of its array.
-/
namespace Biggus

variable {α V : Type}

/-- The tokens `ts` of a node match the stream `r` of its array, whose chunks have the given keys: all chunks and `QUEUE_FINISHED`; or,
if the stream fails, some first chunks and `QUEUE_ABORT`. -/
def Matches (keys : List (List Key)) (ts : List (Tok (Chunk V))) : Res (List (Chunk V)) → Prop
  | .ok cs => ts = cs.map Tok.chunk ++ [.finished] ∧ cs.map Prod.fst = keys
  | .error _ => ∃ cs : List (Chunk V), ts = cs.map Tok.chunk ++ [.abort] ∧ cs.map Prod.fst <+: keys

theorem prodTokens_matches {β : Type} (f : List Key → Res β) : ∀ (l : List (List Key)),
    (∃ cs : List (List Key × β), l.mapM (fun k => do let d ← f k; return (k, d)) = .ok cs ∧
      prodTokens (l.map (fun k => (do let d ← f k; return (k, d) : Res (List Key × β)))) = cs.map Tok.chunk ++ [.finished] ∧ cs.map Prod.fst = l) ∨
    (∃ (e : PyErr) (cs : List (List Key × β)), l.mapM (fun k => do let d ← f k; return (k, d)) = .error e ∧
      prodTokens (l.map (fun k => (do let d ← f k; return (k, d) : Res (List Key × β)))) = cs.map Tok.chunk ++ [.abort] ∧ cs.map Prod.fst <+: l)
  | [] => Or.inl ⟨[], rfl, rfl, rfl⟩
  | k :: l => by
    match hf : f k with
    | .error e =>
      refine Or.inr ⟨e, [], ?_, ?_, by simp⟩
      · simp [List.mapM_cons, hf, bind, Except.bind]
      · simp [hf, bind, Except.bind, prodTokens]
    | .ok d =>
      rcases prodTokens_matches f l with ⟨cs, h1, h2, h3⟩ | ⟨e, cs, h1, h2, h3⟩
      · refine Or.inl ⟨(k, d) :: cs, ?_, ?_, by simp [h3]⟩
        · rw [List.mapM_cons, hf, h1]; rfl
        · rw [List.map_cons, hf]
          show Tok.chunk (k, d) :: prodTokens _ = _
          rw [h2]; rfl
      · refine Or.inr ⟨e, (k, d) :: cs, ?_, ?_, ?_⟩
        · rw [List.mapM_cons, hf, h1]; rfl
        · rw [List.map_cons, hf]
          show Tok.chunk (k, d) :: prodTokens _ = _
          rw [h2]; rfl
        · simpa using h3

theorem rounds_one {β : Type} (l : List β) : rounds [l] = l.map (fun t => [t]) := by simp [rounds]

/-! ### Aggregations -/

/-- The keys of the chunk that is being computed. -/
def pendKeys {h : Handler V} : AggState V h → List (List Key)
  | none => []
  | some (cur, _) => [cur]

/-- The node with another state. -/
def aggObjAt (h : Handler V) (axis n : Nat) (st : AggState V h) : Obj (Chunk V) (NDA V) := { aggObj h axis n with st := st }

theorem aggProcess_keys (h : Handler V) (axis n : Nat) (st st' : AggState V h) (c : Chunk V) (out : List (Chunk V)) (rest : List (List Key))
    (hp : aggProcessChunk h axis n st c = .ok (st', out)) :
    (out = [] ∨ ∃ d, out = [d]) ∧ dropRepeats (pendKeys st ++ c.1.eraseIdx axis :: rest) = out.map Prod.fst ++ dropRepeats (pendKeys st' ++ rest) ∧
      pendKeys st' = [c.1.eraseIdx axis] := by
  unfold aggProcessChunk at hp
  match st with
  | none =>
    obtain ⟨s', _, hp⟩ := bind_ok.mp hp
    cases hp
    exact ⟨Or.inl rfl, rfl, rfl⟩
  | some (cur, s) =>
    simp only at hp
    split at hp
    · rename_i hk
      obtain ⟨s', _, hp⟩ := bind_ok.mp hp
      cases hp
      refine ⟨Or.inr ⟨_, rfl⟩, ?_, rfl⟩
      show dropRepeats (cur :: c.1.eraseIdx axis :: rest) = cur :: dropRepeats (c.1.eraseIdx axis :: rest)
      rw [dropRepeats, if_neg (fun e => hk e.symm)]
    · rename_i hk
      push Not at hk
      obtain ⟨s', _, hp⟩ := bind_ok.mp hp
      cases hp
      refine ⟨Or.inl rfl, ?_, by rw [hk]; rfl⟩
      show dropRepeats (cur :: c.1.eraseIdx axis :: rest) = dropRepeats (cur :: rest)
      rw [dropRepeats, if_pos hk.symm, hk]

theorem consRun_agg_step (h : Handler V) (axis n : Nat) (st : AggState V h) (c : Chunk V) (rs : List (List (Tok (Chunk V)))) :
    consRun (aggObjAt h axis n st) ([.chunk c] :: rs) = match aggProcessChunk h axis n st c with
      | .error _ => ([.abort], .aborted)
      | .ok (st', out) => (outTok out.head? ++ (consRun (aggObjAt h axis n st') rs).1, (consRun (aggObjAt h axis n st') rs).2) := by
  rw [consRun, if_neg (by simp [Tok.isAbort]), if_neg (by simp [Tok.isFinished])]
  simp only [List.filterMap_cons, Tok.chunk?, List.filterMap_nil, aggObjAt, aggObj]
  match aggProcessChunk h axis n st c with
  | .error e => rfl
  | .ok (st', out) => rfl

theorem outTok_head {d : List (Chunk V)} (h : d = [] ∨ ∃ x, d = [x]) : outTok d.head? = d.map Tok.chunk := by
  rcases h with rfl | ⟨x, rfl⟩ <;> rfl

theorem consRun_agg (h : Handler V) (axis n : Nat) : ∀ (cs : List (Chunk V)) (st : AggState V h),
    (∃ (out : List (Chunk V)) (f : Thread (Chunk V) (NDA V)), aggLoop h axis n st cs = .ok out ∧
      consRun (aggObjAt h axis n st) (cs.map (fun c => [Tok.chunk c]) ++ [[.finished]]) = (out.map Tok.chunk ++ [.finished], f) ∧
      out.map Prod.fst = dropRepeats (pendKeys st ++ cs.map (fun c => c.1.eraseIdx axis))) ∨
    (∃ (e : PyErr) (out : List (Chunk V)), aggLoop h axis n st cs = .error e ∧
      consRun (aggObjAt h axis n st) (cs.map (fun c => [Tok.chunk c]) ++ [[.finished]]) = (out.map Tok.chunk ++ [.abort], .aborted) ∧
      out.map Prod.fst <+: dropRepeats (pendKeys st ++ cs.map (fun c => c.1.eraseIdx axis)))
  | [], st => by
    match st with
    | none =>
      refine Or.inr ⟨.attribute, [], rfl, ?_, by simp⟩
      simp [consRun, Tok.isAbort, Tok.isFinished, aggObjAt, aggObj]
    | some (cur, s) =>
      refine Or.inl ⟨[aggFinalise h n cur s], .finished (some (aggObjAt h axis n (some (cur, s)))), rfl, ?_, by simp [pendKeys, dropRepeats, aggFinalise]⟩
      simp [consRun, Tok.isAbort, Tok.isFinished, aggObjAt, aggObj, outTok]
  | c :: cs, st => by
    rw [List.map_cons, List.cons_append, consRun_agg_step, List.map_cons, aggLoop]
    match hp : aggProcessChunk h axis n st c with
    | .error e => exact Or.inr ⟨e, [], rfl, rfl, by simp⟩
    | .ok (st', o) =>
      obtain ⟨k1, k2, _⟩ := aggProcess_keys h axis n st st' c o (cs.map (fun c => c.1.eraseIdx axis)) hp
      rw [k2]
      rcases consRun_agg h axis n cs st' with ⟨out, f, h1, h2, h3⟩ | ⟨e, out, h1, h2, h3⟩
      · refine Or.inl ⟨o ++ out, f, ?_, ?_, by simp [h3]⟩
        · show (aggLoop h axis n st' cs >>= fun rest => pure (o ++ rest)) = _
          rw [h1]; rfl
        · simp only [h2, outTok_head k1]; simp
      · refine Or.inr ⟨e, o ++ out, ?_, ?_, ?_⟩
        · show (aggLoop h axis n st' cs >>= fun rest => pure (o ++ rest)) = _
          rw [h1]; rfl
        · simp only [h2, outTok_head k1]; simp
        · simpa using h3

theorem dropRepeats_prefix_cons {k : List Key} {l : List (List Key)} : [k] <+: dropRepeats (k :: l) := by
  induction l generalizing k with
  | nil => simp [dropRepeats]
  | cons k' l ih =>
    rw [dropRepeats]
    split
    · rename_i h; subst h; exact ih
    · simp

theorem consRun_agg_abort (h : Handler V) (axis n : Nat) : ∀ (cs : List (Chunk V)) (st : AggState V h) (K : List (List Key)),
    cs.map Prod.fst <+: K → ∃ out : List (Chunk V),
      consRun (aggObjAt h axis n st) (cs.map (fun c => [Tok.chunk c]) ++ [[.abort]]) = (out.map Tok.chunk ++ [.abort], .aborted) ∧
      out.map Prod.fst <+: dropRepeats (pendKeys st ++ K.map (fun k => k.eraseIdx axis))
  | [], st, K, _ => ⟨[], by simp [consRun, Tok.isAbort], by simp⟩
  | c :: cs, st, [], hK => by simp at hK
  | c :: cs, st, k :: K, hK => by
    obtain ⟨rfl, hK'⟩ := List.cons_prefix_cons.mp (by simpa using hK : c.1 :: cs.map Prod.fst <+: k :: K)
    rw [List.map_cons, List.cons_append, consRun_agg_step, List.map_cons]
    match hp : aggProcessChunk h axis n st c with
    | .error e => exact ⟨[], rfl, by simp⟩
    | .ok (st', o) =>
      obtain ⟨k1, k2, _⟩ := aggProcess_keys h axis n st st' c o (K.map (fun k => k.eraseIdx axis)) hp
      rw [k2]
      obtain ⟨out, h2, h3⟩ := consRun_agg_abort h axis n cs st' K hK'
      exact ⟨o ++ out, by simp only [h2, outTok_head k1]; simp, by simpa using h3⟩

theorem matches_agg (h : Handler V) (axis n : Nat) {K : List (List Key)} {ts : List (Tok (Chunk V))} {r : Res (List (Chunk V))}
    (hm : Matches K ts r) : Matches (dropRepeats (K.map (fun k => k.eraseIdx axis))) (consRun (aggObj h axis n) (rounds [ts])).1
      (r >>= fun cs => aggStream h axis n cs) := by
  rw [rounds_one]
  have ho : aggObj h axis n = aggObjAt h axis n none := rfl
  match r with
  | .ok cs =>
    obtain ⟨rfl, rfl⟩ := hm
    have e : (cs.map Tok.chunk ++ [.finished] : List (Tok (Chunk V))).map (fun t => [t]) = cs.map (fun c => [Tok.chunk c]) ++ [[.finished]] := by simp
    rw [ho, e]
    have e2 : (cs.map Prod.fst).map (fun k => k.eraseIdx axis) = cs.map (fun c => c.1.eraseIdx axis) := by simp
    rw [e2]
    rcases consRun_agg h axis n cs none with ⟨out, f, h1, h2, h3⟩ | ⟨e, out, h1, h2, h3⟩
    · rw [h2]
      show Matches _ _ (aggLoop h axis n none cs)
      rw [h1]
      exact ⟨rfl, h3⟩
    · rw [h2]
      show Matches _ _ (aggLoop h axis n none cs)
      rw [h1]
      exact ⟨out, rfl, h3⟩
  | .error e =>
    obtain ⟨cs, rfl, hK⟩ := hm
    have e : (cs.map Tok.chunk ++ [.abort] : List (Tok (Chunk V))).map (fun t => [t]) = cs.map (fun c => [Tok.chunk c]) ++ [[.abort]] := by simp
    rw [ho, e]
    obtain ⟨out, h2, h3⟩ := consRun_agg_abort h axis n cs none K hK
    rw [h2]
    exact ⟨out, rfl, h3⟩

/-! ### Element-wise operations -/

theorem consRun_elem1 (f : V → V) (t : Tok (Chunk V)) (ht : t = .finished ∨ t = .abort) : ∀ (cs : List (Chunk V)),
    (consRun (elem1Obj f) (cs.map (fun c => [Tok.chunk c]) ++ [[t]])).1 = (cs.map (fun c => (c.1, c.2.map f))).map Tok.chunk ++ [t]
  | [] => by rcases ht with rfl | rfl <;> simp [consRun, Tok.isAbort, Tok.isFinished, elem1Obj, outTok]
  | c :: cs => by
    have ih := consRun_elem1 f t ht cs
    rw [List.map_cons, List.cons_append, consRun, if_neg (by simp [Tok.isAbort]), if_neg (by simp [Tok.isFinished])]
    simp only [List.filterMap_cons, Tok.chunk?, List.filterMap_nil, elem1Obj, outTok] at ih ⊢
    rw [ih]; rfl

theorem matches_elem1 (f : V → V) {K : List (List Key)} {ts : List (Tok (Chunk V))} {r : Res (List (Chunk V))}
    (hm : Matches K ts r) : Matches K (consRun (elem1Obj f) (rounds [ts])).1 (r >>= fun cs => return cs.map (fun c => (c.1, c.2.map f))) := by
  rw [rounds_one]
  match r with
  | .ok cs =>
    obtain ⟨rfl, rfl⟩ := hm
    have e : (cs.map Tok.chunk ++ [.finished] : List (Tok (Chunk V))).map (fun t => [t]) = cs.map (fun c => [Tok.chunk c]) ++ [[.finished]] := by simp
    rw [e, consRun_elem1 f _ (Or.inl rfl)]
    exact ⟨rfl, by simp⟩
  | .error e =>
    obtain ⟨cs, rfl, hK⟩ := hm
    have e : (cs.map Tok.chunk ++ [.abort] : List (Tok (Chunk V))).map (fun t => [t]) = cs.map (fun c => [Tok.chunk c]) ++ [[.abort]] := by simp
    rw [e, consRun_elem1 f _ (Or.inr rfl)]
    exact ⟨_, rfl, by simpa [Function.comp_def] using hK⟩

theorem rounds_two {β : Type} (l l' : List β) : rounds [l, l'] = List.zipWith (fun a b => [a, b]) l l' := by
  rw [rounds]
  · rw [rounds_one, List.zipWith_map_right]
  · simp

theorem consRun_elem2_step (f : V → V → V) (c1 c2 : Chunk V) (rs : List (List (Tok (Chunk V)))) :
    consRun (elem2Obj f) ([.chunk c1, .chunk c2] :: rs) = match npOp2 f c1.2 c2.2 with
      | .error _ => ([.abort], .aborted)
      | .ok d => (.chunk (c1.1, d) :: (consRun (elem2Obj f) rs).1, (consRun (elem2Obj f) rs).2) := by
  rw [consRun, if_neg (by simp [Tok.isAbort]), if_neg (by simp [Tok.isFinished])]
  simp only [List.filterMap_cons, Tok.chunk?, List.filterMap_nil, elem2Obj]
  match npOp2 f c1.2 c2.2 with
  | .error e => rfl
  | .ok d => rfl

/-- Both streams complete. -/
theorem consRun_elem2_ok (f : V → V → V) : ∀ (cs ds : List (Chunk V)), cs.length = ds.length →
    Matches (cs.map Prod.fst) (consRun (elem2Obj f) (List.zipWith (fun a b => [a, b]) (cs.map Tok.chunk ++ [.finished]) (ds.map Tok.chunk ++ [.finished]))).1
      (elem2Stream f cs ds)
  | [], [], _ => by
    refine ⟨?_, rfl⟩
    simp [consRun, Tok.isAbort, Tok.isFinished, elem2Obj, outTok]
  | c :: cs, d :: ds, h => by
    have ih := consRun_elem2_ok f cs ds (by simpa using h)
    rw [List.map_cons, List.map_cons, List.map_cons, List.cons_append, List.cons_append, List.zipWith_cons_cons, consRun_elem2_step, elem2Stream]
    match npOp2 f c.2 d.2 with
    | .error e => exact ⟨[], rfl, by simp⟩
    | .ok x =>
      show Matches _ (_ :: _) (elem2Stream f cs ds >>= fun rest => return (c.1, x) :: rest)
      match hs : elem2Stream f cs ds with
      | .ok out =>
        rw [hs] at ih
        obtain ⟨i1, i2⟩ := ih
        exact ⟨by rw [i1]; rfl, by simp [← i2]⟩
      | .error e =>
        rw [hs] at ih
        obtain ⟨out, i1, i2⟩ := ih
        exact ⟨(c.1, x) :: out, by rw [i1]; rfl, by simpa using i2⟩
  | [], _ :: _, h => by simp at h
  | _ :: _, [], h => by simp at h

/-- One stream fails, the other does not end before. -/
theorem consRun_elem2_abort (f : V → V → V) (t1 t2 : Tok (Chunk V)) : ∀ (cs ds : List (Chunk V)), (cs.length ≤ ds.length ∧ t1 = .abort) ∨ (ds.length ≤ cs.length ∧ t2 = .abort) →
    ∃ out : List (Chunk V), (consRun (elem2Obj f) (List.zipWith (fun a b => [a, b]) (cs.map Tok.chunk ++ [t1]) (ds.map Tok.chunk ++ [t2]))).1 = out.map Tok.chunk ++ [.abort] ∧
      out.map Prod.fst <+: cs.map Prod.fst
  | [], [], h => by
    refine ⟨[], ?_, by simp⟩
    rcases h with ⟨_, rfl⟩ | ⟨_, rfl⟩ <;> simp [consRun, Tok.isAbort]
  | [], d :: ds, h => by
    refine ⟨[], ?_, by simp⟩
    rcases h with ⟨_, rfl⟩ | ⟨h, rfl⟩
    · simp [consRun, Tok.isAbort]
    · simp at h
  | c :: cs, [], h => by
    refine ⟨[], ?_, by simp⟩
    rcases h with ⟨h, rfl⟩ | ⟨h, rfl⟩
    · simp at h
    · simp [consRun, Tok.isAbort]
  | c :: cs, d :: ds, h => by
    obtain ⟨out, i1, i2⟩ := consRun_elem2_abort f t1 t2 cs ds (by simpa using h)
    rw [List.map_cons, List.map_cons, List.map_cons, List.cons_append, List.cons_append, List.zipWith_cons_cons, consRun_elem2_step]
    match npOp2 f c.2 d.2 with
    | .error e => exact ⟨[], rfl, by simp⟩
    | .ok x => exact ⟨(c.1, x) :: out, by simp only [i1]; rfl, by simpa using i2⟩

theorem matches_elem2 (f : V → V → V) {K L : List (List Key)} (hl : K.length = L.length) {ts us : List (Tok (Chunk V))}
    {r s : Res (List (Chunk V))} (hm : Matches K ts r) (hn : Matches L us s) :
    Matches K (consRun (elem2Obj f) (rounds [ts, us])).1 (do let ca ← r; let cb ← s; elem2Stream f ca cb) := by
  rw [rounds_two]
  match r, s with
  | .ok cs, .ok ds =>
    obtain ⟨rfl, rfl⟩ := hm
    obtain ⟨rfl, rfl⟩ := hn
    exact consRun_elem2_ok f cs ds (by simpa using hl)
  | .error e, .ok ds =>
    obtain ⟨cs, rfl, hK⟩ := hm
    obtain ⟨rfl, rfl⟩ := hn
    have := hK.length_le
    obtain ⟨out, i1, i2⟩ := consRun_elem2_abort f .abort .finished cs ds (Or.inl ⟨by simp at this hl; omega, rfl⟩)
    exact ⟨out, i1, i2.trans hK⟩
  | .ok cs, .error e =>
    obtain ⟨rfl, rfl⟩ := hm
    obtain ⟨ds, rfl, hL⟩ := hn
    have := hL.length_le
    obtain ⟨out, i1, i2⟩ := consRun_elem2_abort f .finished .abort cs ds (Or.inr ⟨by simp at this hl; omega, rfl⟩)
    exact ⟨out, i1, i2⟩
  | .error e, .error e' =>
    obtain ⟨cs, rfl, hK⟩ := hm
    obtain ⟨ds, rfl, hL⟩ := hn
    rcases Nat.le_total cs.length ds.length with hle | hle
    · obtain ⟨out, i1, i2⟩ := consRun_elem2_abort f .abort .abort cs ds (Or.inl ⟨hle, rfl⟩)
      exact ⟨out, i1, i2.trans hK⟩
    · obtain ⟨out, i1, i2⟩ := consRun_elem2_abort f .abort .abort cs ds (Or.inr ⟨hle, rfl⟩)
      exact ⟨out, i1, i2.trans hK⟩

/-! ### Results -/

/-- The result node with another state. -/
def resultObjAt [Inhabited V] (r : NDA V) : Obj (Chunk V) (NDA V) := { resultObj (V := V) [] with st := r }

theorem consRun_result_step [Inhabited V] (r : NDA V) (c : Chunk V) (rs : List (List (Tok (Chunk V)))) :
    (consRun (resultObjAt r) ([.chunk c] :: rs)).2 = match storeChunk r c with
      | .error _ => .aborted
      | .ok r' => (consRun (resultObjAt r') rs).2 := by
  rw [consRun, if_neg (by simp [Tok.isAbort]), if_neg (by simp [Tok.isFinished])]
  simp only [List.filterMap_cons, Tok.chunk?, List.filterMap_nil, resultObjAt, resultObj]
  match storeChunk r c with
  | .error e => rfl
  | .ok r' => rfl

theorem consRun_result_ok [Inhabited V] : ∀ (cs : List (Chunk V)) (r : NDA V),
    ((consRun (resultObjAt r) (cs.map (fun c => [Tok.chunk c]) ++ [[.finished]])).2).result = some (cs.foldlM storeChunk r).toOption
  | [], r => by simp [consRun, Tok.isAbort, Tok.isFinished, resultObjAt, resultObj, Thread.result, pure, Except.pure, Except.toOption]
  | c :: cs, r => by
    rw [List.map_cons, List.cons_append, consRun_result_step, List.foldlM_cons]
    match storeChunk r c with
    | .error e => rfl
    | .ok r' => exact consRun_result_ok cs r'

theorem consRun_result_abort [Inhabited V] : ∀ (cs : List (Chunk V)) (r : NDA V),
    ((consRun (resultObjAt r) (cs.map (fun c => [Tok.chunk c]) ++ [[.abort]])).2).result = some none
  | [], r => by simp [consRun, Tok.isAbort, Thread.result]
  | c :: cs, r => by
    rw [List.map_cons, List.cons_append, consRun_result_step]
    match storeChunk r c with
    | .error e => rfl
    | .ok r' => exact consRun_result_abort cs r'

theorem matches_result [Inhabited V] (s : List Nat) {K : List (List Key)} {ts : List (Tok (Chunk V))} {r : Res (List (Chunk V))}
    (hm : Matches K ts r) : ((consRun (resultObj s) (rounds [ts])).2).result = some (r >>= fun cs => assemble s cs).toOption := by
  rw [rounds_one]
  have ho : resultObj (V := V) s = resultObjAt ⟨s, fun _ => default⟩ := rfl
  match r with
  | .ok cs =>
    obtain ⟨rfl, rfl⟩ := hm
    have e : (cs.map Tok.chunk ++ [.finished] : List (Tok (Chunk V))).map (fun t => [t]) = cs.map (fun c => [Tok.chunk c]) ++ [[.finished]] := by simp
    rw [ho, e, consRun_result_ok]; rfl
  | .error e =>
    obtain ⟨cs, rfl, hK⟩ := hm
    have e : (cs.map Tok.chunk ++ [.abort] : List (Tok (Chunk V))).map (fun t => [t]) = cs.map (fun c => [Tok.chunk c]) ++ [[.abort]] := by simp
    rw [ho, e, consRun_result_abort]; rfl

/-! ### Times -/

/-- Times of the output of an aggregation whose input has the given (reduced) keys and times: a chunk is put when the first chunk
with other keys, or the end, has arrived. -/
def aggTimes : List (List Key) → List Nat → List Nat
  | k :: k' :: r, _ :: ts => if k = k' then aggTimes (k' :: r) ts else ts.headD 0 :: aggTimes (k' :: r) ts
  | _, _ :: ts => [ts.headD 0, ts.headD 0 + 1]
  | _, [] => []

/-- Times of the tokens of a stream. -/
def Skel.times (limit : Nat) : Skel → List Nat → List Nat
  | .prod s, o => List.range ((chunkIndexGen limit s o).length + 1)
  | .agg s axis, o => aggTimes ((s.keys limit (aggOrder axis o)).map (fun k => k.eraseIdx axis)) (s.times limit (aggOrder axis o))

theorem consTimed_agg (h : Handler V) (axis n : Nat) : ∀ (cs : List (Chunk V)) (cur : List Key) (s : NDA h.σ) (t0 : Nat) (ts : List Nat) (out : List (Chunk V)),
    ts.length = cs.length + 1 → aggLoop h axis n (some (cur, s)) cs = .ok out →
    (consTimed (aggObjAt h axis n (some (cur, s))) (cs.map (fun c => [Tok.chunk c]) ++ [[.finished]]) ts).map Prod.snd =
      aggTimes (cur :: cs.map (fun c => c.1.eraseIdx axis)) (t0 :: ts)
  | [], cur, s, t0, [], out, hl, _ => by simp at hl
  | [], cur, s, t0, τ :: ts, out, hl, _ => by
    have : ts = [] := by simpa using hl
    subst this
    simp [consTimed, Tok.isAbort, Tok.isFinished, aggObjAt, aggObj, outTok, aggTimes]
  | c :: cs, cur, s, t0, [], out, hl, _ => by simp at hl
  | c :: cs, cur, s, t0, τ :: ts, out, hl, hr => by
    rw [aggLoop] at hr
    obtain ⟨⟨st', o⟩, hp, hr⟩ := bind_ok.mp hr
    obtain ⟨rest, hrr, hr'⟩ := bind_ok.mp hr
    rw [List.map_cons, List.cons_append, consTimed, if_neg (by simp [Tok.isAbort]), if_neg (by simp [Tok.isFinished]), List.map_cons, aggTimes]
    have hproc : (aggObjAt h axis n (some (cur, s))).process (aggObjAt h axis n (some (cur, s))).st
        (([Tok.chunk c] : List (Tok (Chunk V))).filterMap Tok.chunk?) = .ok (st', o.head?) := by
      simp only [List.filterMap_cons, Tok.chunk?, List.filterMap_nil, aggObjAt, aggObj]
      rw [hp]; rfl
    rw [hproc]
    have hobj : ({ aggObjAt h axis n (some (cur, s)) with st := st' } : Obj (Chunk V) (NDA V)) = aggObjAt h axis n st' := rfl
    simp only [hobj]
    have hl' : ts.length = cs.length + 1 := by simpa using hl
    unfold aggProcessChunk at hp
    simp only at hp
    split at hp
    · rename_i hk
      obtain ⟨s', _, hp⟩ := bind_ok.mp hp
      cases hp
      rw [if_neg (fun e => hk e.symm), List.map_append, consTimed_agg h axis n cs _ s' τ ts rest hl' hrr]
      simp [outTok]
    · rename_i hk
      push Not at hk
      obtain ⟨s', _, hp⟩ := bind_ok.mp hp
      cases hp
      rw [if_pos hk.symm, List.map_append, consTimed_agg h axis n cs _ s' τ ts rest hl' hrr, hk]
      simp [outTok]

theorem times_agg (h : Handler V) (axis n : Nat) {K : List (List Key)} {ts : List (Tok (Chunk V))} {cs out : List (Chunk V)} {T : List Nat}
    (hT : T.length = ts.length) (hm : Matches K ts (.ok cs)) (hr : aggStream h axis n cs = .ok out) :
    (consTimed (aggObj h axis n) (rounds [ts]) T).map Prod.snd = aggTimes (K.map (fun k => k.eraseIdx axis)) T := by
  obtain ⟨rfl, rfl⟩ := hm
  rw [rounds_one]
  have e : (cs.map Tok.chunk ++ [.finished] : List (Tok (Chunk V))).map (fun t => [t]) = cs.map (fun c => [Tok.chunk c]) ++ [[.finished]] := by simp
  rw [e]
  have ho : aggObj h axis n = aggObjAt h axis n none := rfl
  match cs, T, hT with
  | [], _, _ => cases hr
  | c :: cs, [], hT => simp at hT
  | c :: cs, τ :: T, hT =>
    unfold aggStream at hr
    rw [aggLoop] at hr
    obtain ⟨⟨st', o⟩, hp, hr⟩ := bind_ok.mp hr
    obtain ⟨rest, hrr, hr'⟩ := bind_ok.mp hr
    rw [List.map_cons, List.cons_append, consTimed, if_neg (by simp [Tok.isAbort]), if_neg (by simp [Tok.isFinished])]
    have hproc : (aggObj h axis n).process (aggObj h axis n).st (([Tok.chunk c] : List (Tok (Chunk V))).filterMap Tok.chunk?) = .ok (st', o.head?) := by
      simp only [List.filterMap_cons, Tok.chunk?, List.filterMap_nil, aggObj]
      rw [hp]; rfl
    rw [hproc]
    have hobj : ({ aggObj h axis n with st := st' } : Obj (Chunk V) (NDA V)) = aggObjAt h axis n st' := rfl
    simp only [hobj]
    unfold aggProcessChunk at hp
    obtain ⟨s', _, hp⟩ := bind_ok.mp hp
    cases hp
    rw [List.map_append, consTimed_agg h axis n cs _ s' τ T rest (by simpa using hT) hrr]
    simp [outTok, Function.comp_def]

/-- A node that puts one token for every round. -/
theorem times_elem1 (f : V → V) : ∀ (cs : List (Chunk V)) (T : List Nat), T.length = cs.length + 1 →
    (consTimed (elem1Obj f) (cs.map (fun c => [Tok.chunk c]) ++ [[.finished]]) T).map Prod.snd = T
  | [], [], h => by simp at h
  | [], τ :: T, h => by
    have : T = [] := by simpa using h
    subst this
    simp [consTimed, Tok.isAbort, Tok.isFinished, elem1Obj, outTok]
  | c :: cs, [], h => by simp at h
  | c :: cs, τ :: T, h => by
    have ih := times_elem1 f cs T (by simpa using h)
    rw [List.map_cons, List.cons_append, consTimed, if_neg (by simp [Tok.isAbort]), if_neg (by simp [Tok.isFinished])]
    simp only [List.filterMap_cons, Tok.chunk?, List.filterMap_nil, elem1Obj, outTok] at ih ⊢
    simp only [List.map_append, ih]; rfl

theorem times_elem2 (f : V → V → V) : ∀ (cs ds out : List (Chunk V)) (T : List Nat), cs.length = ds.length → T.length = cs.length + 1 →
    elem2Stream f cs ds = .ok out →
    (consTimed (elem2Obj f) (List.zipWith (fun a b => [a, b]) (cs.map Tok.chunk ++ [.finished]) (ds.map Tok.chunk ++ [.finished])) T).map Prod.snd = T
  | [], [], _, [], _, h, _ => by simp at h
  | [], [], _, τ :: T, _, h, _ => by
    have : T = [] := by simpa using h
    subst this
    simp [consTimed, Tok.isAbort, Tok.isFinished, elem2Obj, outTok]
  | c :: cs, d :: ds, _, [], _, h, _ => by simp at h
  | c :: cs, d :: ds, out, τ :: T, hl, h, hr => by
    rw [elem2Stream] at hr
    obtain ⟨x, hx, hr⟩ := bind_ok.mp hr
    obtain ⟨rest, hr, _⟩ := bind_ok.mp hr
    have ih := times_elem2 f cs ds rest T (by simpa using hl) (by simpa using h) hr
    rw [List.map_cons, List.map_cons, List.cons_append, List.cons_append, List.zipWith_cons_cons, consTimed, if_neg (by simp [Tok.isAbort]),
      if_neg (by simp [Tok.isFinished])]
    have hproc : (elem2Obj f).process (elem2Obj f).st (([Tok.chunk c, Tok.chunk d] : List (Tok (Chunk V))).filterMap Tok.chunk?) = .ok ((), some (c.1, x)) := by
      simp only [List.filterMap_cons, Tok.chunk?, List.filterMap_nil, elem2Obj]
      rw [hx]; rfl
    rw [hproc]
    simp only [List.map_append]
    have hobj : ({ elem2Obj f with st := () } : Obj (Chunk V) (NDA V)) = elem2Obj f := rfl
    rw [show (consTimed { elem2Obj f with st := () } (List.zipWith (fun a b => [a, b]) (cs.map Tok.chunk ++ [.finished]) (ds.map Tok.chunk ++ [.finished])) T).map Prod.snd = T from ih]
    rfl
  | [], _ :: _, _, _, h, _, _ => by simp at h
  | _ :: _, [], _, _, h, _, _ => by simp at h

end Biggus

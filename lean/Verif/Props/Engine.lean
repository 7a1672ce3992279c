import Verif.Proofs.EngineInit
/-
C25-C27 for arbitrary graphs of nodes: schedules, the sequential meaning, failures, termination.
-/
namespace Biggus

variable {C R : Type} {G : Graph C R} {outs : Nat → List QId} {cap : Nat}

/-- The invariant that holds for every valid graph. -/
theorem plain_inv (hv : G.Valid) (hw : G.Wired outs) : ∃ B N, EInv False B G outs G.final N G.init ∧ ∀ i, G.length ≤ i → N i = 0 := by
  obtain ⟨B, hB⟩ := tokens_bounded G
  obtain ⟨N, h⟩ := init_inv (P := False) hv hw (fun i => List.replicate (G.tokens i).length 0) (fun i _ => by simp) hB False.elim
  exact ⟨B, N, h⟩

theorem exists_final {n B : Nat} (hw : G.Wired outs) {f : Nat → Thread C R} : ∀ (k : Nat) {c : Conf C R} {N : Nat → Nat}, EInv False B G outs f N c →
    (∀ i, n ≤ i → N i = 0) → (∑ x ∈ Finset.range n, N x) = k → ∃ m d, G.Steps outs cap m c d ∧ G.Stuck outs cap d := by
  intro k
  induction k using Nat.strong_induction_on with
  | _ k ih =>
    intro c N h h0 hk
    by_cases hs : G.Stuck outs cap c
    · exact ⟨0, c, .refl c, hs⟩
    · simp only [Graph.Stuck, not_forall] at hs
      obtain ⟨i, hi⟩ := hs
      match hd : G.step outs cap i c with
      | none => exact absurd hd hi
      | some d =>
        obtain ⟨N', a1, a2, a3⟩ := EInv.steps hw (Graph.Steps.step i hd (.refl d)) h h0
        obtain ⟨m, e, h1, h2⟩ := ih _ (by omega) a1 a2 rfl
        exact ⟨m + 1, e, .step i hd h1, h2⟩

/-- C25: for every graph of nodes there is one outcome (final states of all threads and all queues, whether everything has
terminated or something hangs) such that every execution, under every schedule, however it begins, ends in it, after the same
number of steps.  `outs` and `cap`: for any order in which the output queues were connected and any queue size. -/
theorem C25_schedule_independent (hv : G.Valid) (hw : G.Wired outs) : ∃ (K : Nat) (e : Conf C R), G.Stuck outs cap e ∧
    ∀ n c, G.Steps outs cap n G.init c → ∃ m, n + m = K ∧ G.Steps outs cap m c e := by
  obtain ⟨_, N, h, h0⟩ := plain_inv hv hw
  obtain ⟨K, e, h1, h2⟩ := exists_final (cap := cap) hw _ h h0 rfl
  refine ⟨K, e, h2, fun n c hc => ?_⟩
  obtain ⟨m, h3, h4⟩ := steps_towards hw hc h1 h2
  exact ⟨m, h3.symm, h4⟩

/-- C25: two complete executions end in the same state. -/
theorem C25_same_outcome (hw : G.Wired outs) {n m : Nat} {d e : Conf C R} (h1 : G.Steps outs cap n G.init d) (s1 : G.Stuck outs cap d)
    (h2 : G.Steps outs cap m G.init e) (s2 : G.Stuck outs cap e) : d = e ∧ n = m := by
  obtain ⟨k, a, b⟩ := steps_towards hw h1 h2 s2
  cases b with
  | refl => exact ⟨rfl, by omega⟩
  | step i hi _ => rw [s1 i] at hi; cases hi

/-- C26: whenever a thread has terminated, in whatever execution, it is in the state in which it ends when the nodes are
evaluated one after the other; in particular its result is the sequential one. -/
theorem C26_terminated_is_sequential (hv : G.Valid) (hw : G.Wired outs) {n : Nat} {c : Conf C R} (h : G.Steps outs cap n G.init c)
    {i : Nat} (hi : c.halted i) : c.loc i = G.final i := by
  obtain ⟨_, N, h0, h1⟩ := plain_inv hv hw
  obtain ⟨N', h2, _, _⟩ := EInv.steps hw h h0 h1
  exact (h2.halted hi).1

/-- C26: a result is never observed before the thread has terminated, and then it is the sequential one. -/
theorem C26_result_is_sequential (hv : G.Valid) (hw : G.Wired outs) {n : Nat} {c : Conf C R} (h : G.Steps outs cap n G.init c)
    {i : Nat} {r : Option R} (hr : (c.loc i).result = some r) : (G.final i).result = some r := by
  rw [← C26_terminated_is_sequential hv hw h ?_]
  · exact hr
  · unfold Thread.result at hr
    split at hr <;> try (cases hr; done)
    · rename_i hc; exact Or.inr ⟨_, hc⟩
    · rename_i hc; exact Or.inr ⟨_, hc⟩
    · rename_i hc; exact Or.inl hc

theorem consRun_abort (m : Nat) : ∀ (L : List (List (Tok C))) (o : Obj C R) (l : List (Tok C)), (∀ l ∈ L, Terminated l) → l.length = m → l ∈ L →
    (∀ l' ∈ L, l.length ≤ l'.length) → Tok.abort ∈ l → (consRun o (rounds L)).2 = .aborted ∧ Tok.abort ∈ (consRun o (rounds L)).1 := by
  induction m with
  | zero =>
    intro L o l h hl h1 _ _
    exact absurd (List.length_eq_zero_iff.mp hl) (h l h1).ne
  | succ m ih =>
    intro L o l h hl h1 hmin h2
    obtain ⟨M, rfl⟩ := split_heads L (fun l hl => (h l hl).ne)
    have hM : M ≠ [] := by rintro rfl; simp at h1
    rw [rounds_cons M hM, consRun]
    split
    · exact ⟨rfl, by simp⟩
    · rename_i ha
      obtain ⟨p, hp, rfl⟩ := List.mem_map.mp h1
      have hT := h _ h1
      split
      · rename_i hf
        exfalso
        obtain ⟨t, ht, hfin⟩ := List.any_eq_true.mp hf
        obtain ⟨x, hx, rfl⟩ := List.mem_map.mp ht
        have hx1 := h _ (List.mem_map.mpr ⟨x, hx, rfl⟩)
        have hx2 := hmin _ (List.mem_map.mpr ⟨x, hx, rfl⟩)
        have hx3 : x.2 = [] := by
          match hxt : x.1, hx1 with
          | .chunk _, _ => rw [hxt] at hfin; simp [Tok.isFinished] at hfin
          | .finished, h => exact h
          | .abort, h => exact h
        have hp2 : p.2 = [] := by rw [hx3] at hx2; simpa using hx2
        rw [hp2] at h2
        simp only [List.mem_singleton] at h2
        refine ha (List.any_eq_true.mpr ⟨p.1, List.mem_map.mpr ⟨p, hp, rfl⟩, ?_⟩)
        rw [← h2]; rfl
      · rename_i hf
        split
        · exact ⟨rfl, by simp⟩
        · rename_i st' c _
          have ht := tails_terminated (M := M) (fun p hp => h _ (List.mem_map.mpr ⟨p, hp, rfl⟩)) (by simpa using ha) (by simpa using hf)
          obtain ⟨a1, a2⟩ := ih (M.map Prod.snd) { o with st := st' } p.2 (by
              intro l hl
              obtain ⟨x, hx, rfl⟩ := List.mem_map.mp hl
              exact ht x hx) (by simpa using hl) (List.mem_map.mpr ⟨p, hp, rfl⟩) (by
              intro l hl'
              obtain ⟨x, hx, rfl⟩ := List.mem_map.mp hl'
              simpa using hmin _ (List.mem_map.mpr ⟨x, hx, rfl⟩)) (by
              rcases List.mem_cons.mp h2 with h2 | h2
              · exfalso
                refine ha (List.any_eq_true.mpr ⟨p.1, List.mem_map.mpr ⟨p, hp, rfl⟩, ?_⟩)
                rw [← h2]; rfl
              · exact h2)
          exact ⟨a1, List.mem_append.mpr (Or.inr a2)⟩

theorem consRun_aborted (m : Nat) : ∀ (L : List (List (Tok C))) (o : Obj C R), (∀ l ∈ L, Terminated l) → (∃ l ∈ L, l.length = m) →
    (∀ st cs, ∃ r, o.process st cs = .ok r) → (∀ st, ∃ r, o.finalise st = .ok r) → (consRun o (rounds L)).2 = .aborted →
    ∃ l ∈ L, Tok.abort ∈ l ∧ ∀ l' ∈ L, l.length ≤ l'.length := by
  induction m with
  | zero =>
    rintro L o h ⟨l, h1, hl⟩ _ _ _
    exact absurd (List.length_eq_zero_iff.mp hl) (h l h1).ne
  | succ m ih =>
    rintro L o h ⟨l, h1, hl⟩ hp hf hr
    obtain ⟨M, rfl⟩ := split_heads L (fun l hl => (h l hl).ne)
    have hM : M ≠ [] := by rintro rfl; simp at h1
    rw [rounds_cons M hM, consRun] at hr
    split at hr
    · rename_i ha
      obtain ⟨t, ht, hab⟩ := List.any_eq_true.mp ha
      obtain ⟨x, hx, rfl⟩ := List.mem_map.mp ht
      have hx1 := h _ (List.mem_map.mpr ⟨x, hx, rfl⟩)
      match hxt : x.1, hx1, hab with
      | .abort, hx2, _ =>
        refine ⟨_, List.mem_map.mpr ⟨x, hx, rfl⟩, by simp [hxt], fun l' hl' => ?_⟩
        have : x.2 = [] := hx2
        rw [this]
        exact List.length_pos_of_ne_nil (h l' hl').ne
    · rename_i ha
      split at hr
      · rename_i hfin
        obtain ⟨r, hr'⟩ := hf o.st
        rw [hr'] at hr
        cases hr
      · rename_i hfin
        obtain ⟨r, hr'⟩ := hp o.st ((M.map Prod.fst).filterMap Tok.chunk?)
        rw [hr'] at hr
        have ht := tails_terminated (M := M) (fun p hp => h _ (List.mem_map.mpr ⟨p, hp, rfl⟩)) (by simpa using ha) (by simpa using hfin)
        obtain ⟨x, hx, rfl⟩ := List.mem_map.mp h1
        obtain ⟨l', k1, k2, k3⟩ := ih (M.map Prod.snd) { o with st := r.1 } (by
            intro l hl
            obtain ⟨x, hx, rfl⟩ := List.mem_map.mp hl
            exact ht x hx) ⟨x.2, List.mem_map.mpr ⟨x, hx, rfl⟩, by simpa using hl⟩ hp hf hr
        obtain ⟨y, hy, rfl⟩ := List.mem_map.mp k1
        refine ⟨_, List.mem_map.mpr ⟨y, hy, rfl⟩, List.mem_cons_of_mem _ k2, fun l' hl' => ?_⟩
        obtain ⟨z, hz, rfl⟩ := List.mem_map.mp hl'
        simpa using k3 _ (List.mem_map.mpr ⟨z, hz, rfl⟩)

/-- C26: a failure of a source `j` makes a node abort (its result is `None`), if no other source of the node ends earlier; in particular
for every node with one source, and if all sources send equally many chunks.  Partial data are not returned. -/
theorem C26_failure_propagates (hv : G.Valid) {i : Nat} {s : List Nat} {o : Obj C R} (hi : G[i]? = some (.cons s o))
    {j : Nat} (hj : j ∈ s) (ha : Tok.abort ∈ G.tokens j) (hs : ∀ k ∈ s, (G.tokens j).length ≤ (G.tokens k).length) :
    G.final i = .aborted ∧ (G.final i).result = some none ∧ Tok.abort ∈ G.tokens i := by
  obtain ⟨ht, hf⟩ := tokens_cons hv hi
  have hsi : G.sources i = s := by simp [Graph.sources, hi, GNode.sources]
  have hlen : i < G.length := (List.getElem?_eq_some_iff.mp hi).1
  obtain ⟨h1, h2⟩ := consRun_abort (G.tokens j).length (s.map G.tokens) o (G.tokens j) (by
      intro l hl
      obtain ⟨k, hk, rfl⟩ := List.mem_map.mp hl
      have := hv.1 i k (by rw [hsi]; exact hk)
      exact tokens_terminated hv k (by omega)) rfl (List.mem_map.mpr ⟨j, hj, rfl⟩) (by
      intro l hl
      obtain ⟨k, hk, rfl⟩ := List.mem_map.mp hl
      exact hs k hk) ha
  refine ⟨by rw [hf, h1], by rw [hf, h1]; rfl, by rw [ht]; exact h2⟩

/-- C26, exactly: a node whose own computation does not raise aborts if and only if one of its sources fails and none of them ends earlier.  (So a
failure is overlooked exactly if another source of every such node has sent fewer chunks: `C26_failure_overlooked`.) -/
theorem C26_aborts_iff (hv : G.Valid) {i : Nat} {s : List Nat} {o : Obj C R} (hi : G[i]? = some (.cons s o))
    (hp : ∀ st cs, ∃ r, o.process st cs = .ok r) (hfin : ∀ st, ∃ r, o.finalise st = .ok r) :
    G.final i = .aborted ↔ ∃ j ∈ s, Tok.abort ∈ G.tokens j ∧ ∀ k ∈ s, (G.tokens j).length ≤ (G.tokens k).length := by
  refine ⟨fun h => ?_, fun ⟨j, hj, ha, hs⟩ => (C26_failure_propagates hv hi hj ha hs).1⟩
  obtain ⟨ht, hf⟩ := tokens_cons hv hi
  have hsi : G.sources i = s := by simp [Graph.sources, hi, GNode.sources]
  have hlen : i < G.length := (List.getElem?_eq_some_iff.mp hi).1
  have hne := hv.2 i s o hi
  obtain ⟨k, hk⟩ := List.exists_mem_of_ne_nil s hne
  obtain ⟨l, h1, h2, h3⟩ := consRun_aborted (G.tokens k).length (s.map G.tokens) o (by
      intro l hl
      obtain ⟨k, hk, rfl⟩ := List.mem_map.mp hl
      have := hv.1 i k (by rw [hsi]; exact hk)
      exact tokens_terminated hv k (by omega)) ⟨_, List.mem_map.mpr ⟨k, hk, rfl⟩, rfl⟩ hp hfin (by rw [← hf, h])
  obtain ⟨j, hj, rfl⟩ := List.mem_map.mp h1
  exact ⟨j, hj, h2, fun k hk => h3 _ (List.mem_map.mpr ⟨k, hk, rfl⟩)⟩

/-- C27: if no node is used twice, every execution ends with the threads of all results terminated - also when nodes fail. -/
theorem C27_tree_terminates (hv : G.Valid) (hw : G.Wired outs) (ht : G.Tree) (hcap : 1 ≤ cap) {n : Nat} {c : Conf C R}
    (h : G.Steps outs cap n G.init c) (hs : G.Stuck outs cap c) {i : Nat} (hi : outs i = []) : c.halted i := by
  obtain ⟨_, N, h0, h1⟩ := plain_inv hv hw
  obtain ⟨N', h2, _, _⟩ := EInv.steps hw h h0 h1
  rcases enabled_or_blocked (G := G) (outs := outs) (cap := cap) i c with h' | ⟨d, hd⟩ | hg | ⟨q, t, s, hput, _⟩
  · exact h'
  · rw [hs i] at hd; cases hd
  · obtain ⟨j, d, hd⟩ := tree_descend hv hw ht hcap h2 i hg
    rw [hs j] at hd; cases hd
  · have := act_put hput
    rw [hi] at this; cases this

/-- C27: if no node fails, and the nodes can proceed at the same pace, every execution ends with all threads terminated, however
often nodes are used. -/
theorem C27_clocked_terminates (hv : G.Valid) (hw : G.Wired outs) {T : Nat → List Nat} (hc : G.Clocked T) (hf : G.NoFailure) (hcap : 1 ≤ cap)
    {n : Nat} {c : Conf C R} (h : G.Steps outs cap n G.init c) (hs : G.Stuck outs cap c) (i : Nat) : c.halted i := by
  obtain ⟨B, hB⟩ := tokens_bounded G
  obtain ⟨N, h0, h1⟩ := init_inv (P := True) hv hw T (clocked_length hv hc) hB (fun _ => ⟨hc, hf⟩)
  obtain ⟨N', h2, _, _⟩ := EInv.steps hw h h0 h1
  exact timed_progress trivial hv hw hcap h2 hs i

/-- C27: if no node sends more tokens than a queue can hold (at most two chunks and `QUEUE_FINISHED`), every execution ends with all
threads terminated - however often nodes are used, and also when nodes fail. -/
theorem C27_small_terminates (hv : G.Valid) (hw : G.Wired outs) (hsmall : ∀ i, (G.tokens i).length ≤ cap)
    {n : Nat} {c : Conf C R} (h : G.Steps outs cap n G.init c) (hs : G.Stuck outs cap c) (i : Nat) : c.halted i := by
  obtain ⟨N, h0, h1⟩ := init_inv (P := False) (B := cap) hv hw (fun i => List.replicate (G.tokens i).length 0) (fun i _ => by simp)
    (fun i _ => hsmall i) False.elim
  obtain ⟨N', h2, _, _⟩ := EInv.steps hw h h0 h1
  by_contra hc
  obtain ⟨j, d, hd⟩ := small_descend hv hw (le_refl _) h2 i hc
  rw [hs j] at hd; cases hd

/-- C26 and C27 together: without sharing, every complete execution has the sequential result in every result node. -/
theorem C26_C27_tree_results (hv : G.Valid) (hw : G.Wired outs) (ht : G.Tree) (hcap : 1 ≤ cap) {n : Nat} {c : Conf C R}
    (h : G.Steps outs cap n G.init c) (hs : G.Stuck outs cap c) {i : Nat} (hi : outs i = []) : (c.loc i).result = (G.final i).result ∧
      (c.loc i).result ≠ none := by
  have hh := C27_tree_terminates hv hw ht hcap h hs hi
  refine ⟨by rw [C26_terminated_is_sequential hv hw h hh], ?_⟩
  rcases hh with e | ⟨o, e⟩
  · rw [e]; simp [Thread.result]
  · rw [e]; cases o <;> simp [Thread.result]

end Biggus

import Verif.Spec.Memory
import Verif.Props.Engine
/-
What threads hold: chunks of their sources or one chunk of their own.
-/
namespace Biggus

variable {C R : Type} {G : Graph C R} {outs : Nat → List QId} {cap L : Nat}

/-- The state of thread `i` outside `output`. -/
def AtLoop (G : Graph C R) (L : Nat) (i : Nat) : Thread C R → Prop
  | .producer todo => ∃ t, G[i]? = some (.prod t)
  | .consumer o got => (∃ s o0, G[i]? = some (.cons s o0) ∧ ∃ st, o = { o0 with st := st } ∧ o0.stored st ≤ L) ∧ got.length ≤ (G.sources i).length ∧
      ∀ t ∈ got, ∃ j ∈ G.sources i, t ∈ G.tokens j
  | .sending .. => False
  | .finished (some o) => o.stored o.st ≤ L
  | _ => True

/-- What may be held by thread `i`. -/
def Holds (G : Graph C R) (L : Nat) (i : Nat) : Thread C R → Prop
  | .sending toks _ next => AtLoop G L i next ∧ next.toks = [] ∧ (toks.map (Tok.weight (fun _ => 1))).sum ≤ 1 ∧ ∀ c, Tok.chunk c ∈ toks → Tok.chunk c ∈ G.tokens i
  | s => AtLoop G L i s

/-- A thread that is about to send something whose first token is a chunk, sends one of its tokens. -/
theorem sends_own {B : Nat} {f : Nat → Thread C R} {N : Nat → Nat} {c : Conf C R} (hw : G.Wired outs) (h : EInv False B G outs f N c) {i : Nat} {t : Tok C} {ts : List (Tok C)} {next : Thread C R}
    (he : c.loc i = .sending (t :: ts) 0 next) (ho : outs i ≠ []) : t ∈ G.tokens i := by
  obtain ⟨U, F, hU, hB, _, hr⟩ := h
  obtain ⟨now, O, hri, hO⟩ := hr i
  rw [he] at hri
  match hq : outs i with
  | [] => exact absurd hq ho
  | q :: qs =>
    have ha : threadAct (G.ins i) (outs i) (.sending (t :: ts) 0 next) = .put q t (.sending (t :: ts) (0 + 1) next) := by
      rw [threadAct, hq]; rfl
    have hqi : q ∈ outs i := by rw [hq]; simp
    generalize hff : f i = ff at hri
    generalize hnn : N i = nn at hri
    cases hri with
    | halt h _ => rw [ha] at h; cases h
    | tau h _ => rw [ha] at h; cases h
    | get h _ _ _ => rw [ha] at h; cases h
    | @put _ _ q' t' τ1 s' _ O' n _ h ht hr2 =>
      rw [ha] at h; cases h
      have hF := hO q hqi
      simp only [Function.update_self] at hF
      have := (hB q).2 (t, τ1) (by rw [← hF]; simp)
      obtain ⟨w1, w2⟩ := ((hw i).2 q).mp hqi
      rw [Graph.traffic, if_pos w1, w2] at this
      exact this

theorem outTok_weight (c : Option C) : ((outTok c).map (Tok.weight (fun _ => 1))).sum ≤ 1 := by
  cases c <;> simp [outTok, Tok.weight]

/-- One step. -/
theorem Holds.step (hw : G.Wired outs) (hsil : ∀ i, outs i = [] → G.Silent i ∧ ∀ t, G[i]? ≠ some (.prod t)) (hst : ∀ i, G.Stores L i) {B : Nat} {f : Nat → Thread C R} {N N' : Nat → Nat} {c d : Conf C R}
    {i : Nat} (h0 : EInv False B G outs f N c) (h1 : EInv False B G outs f N' d) (hh : ∀ j, Holds G L j (c.loc j))
    (hs : G.step outs cap i c = some d) : ∀ j, Holds G L j (d.loc j) := by
  rw [step_iff] at hs
  have hi := hh i
  intro j
  by_cases hj : j = i
  swap
  · cases hs <;> (simp only [update_ne hj]; exact hh j)
  subst hj
  have hown : ∀ t ts next, d.loc j = .sending (t :: ts) 0 next → outs j ≠ [] → t ∈ G.tokens j := fun t ts next he ho => sends_own hw h1 he ho
  cases hs with
  | @tau s a =>
    simp only [Function.update_self] at hown ⊢
    match hl : c.loc j, a, hi with
    | .producer [], a, hi =>
      cases a
      exact ⟨trivial, rfl, by simp [Tok.weight], by simp⟩
    | .producer (.ok x :: r), a, hi =>
      cases a
      refine ⟨hi, rfl, by simp [Tok.weight], fun c hc => ?_⟩
      simp only [List.mem_singleton] at hc
      rw [hc]
      refine hown _ _ _ rfl (fun ho => ?_)
      obtain ⟨t, ht⟩ := hi
      exact (hsil j ho).2 t ht
    | .producer (.error _ :: _), a, hi =>
      cases a
      exact ⟨trivial, rfl, by simp [Tok.weight], by simp⟩
    | .consumer o got, a, hi =>
      rw [threadAct] at a
      split at a
      · cases a
      · cases a
        obtain ⟨⟨s, o0, hg, st, rfl, hso⟩, _, hgot⟩ := hi
        have hsj : outs j = [] → _ := fun ho => (hsil j ho).1 s o0 hg
        unfold react at hown ⊢
        split
        · exact ⟨trivial, rfl, by simp [Tok.weight], by simp⟩
        · rename_i na
          rw [if_neg na] at hown
          split
          · rename_i nf
            rw [if_pos nf] at hown
            simp only at hown ⊢
            match hf : o0.finalise st with
            | .error _ => exact ⟨trivial, rfl, by simp [Tok.weight], by simp⟩
            | .ok x =>
              rw [hf] at hown
              refine ⟨hso, rfl, by simpa [Tok.weight] using outTok_weight x, fun c hc => ?_⟩
              match x, hf with
              | none, _ => simp [outTok] at hc
              | some x, hf =>
                simp only [outTok, List.cons_append, List.nil_append, List.mem_cons, List.not_mem_nil, or_false, reduceCtorEq] at hc
                rw [hc]
                refine hown _ _ _ rfl (fun ho => ?_)
                have := (hsj ho).2 st _ hf
                cases this
          · rename_i nf
            rw [if_neg nf] at hown
            simp only at hown ⊢
            match hf : o0.process st (got.filterMap Tok.chunk?) with
            | .error _ => exact ⟨trivial, rfl, by simp [Tok.weight], by simp⟩
            | .ok (st', x) =>
              rw [hf] at hown
              refine ⟨⟨⟨s, o0, hg, st', rfl, (hst j s o0 hg).2 st _ _ hso (by
                intro c hc
                obtain ⟨t, ht, htc⟩ := List.mem_filterMap.mp hc
                obtain ⟨i, hi, hti⟩ := hgot t ht
                have hsrc : G.sources j = s := by unfold Graph.sources; rw [hg]; rfl
                refine ⟨i, hsrc ▸ hi, ?_⟩
                match t, htc with
                | .chunk _, htc => cases htc; exact hti) hf⟩, by simp, by simp⟩, rfl, outTok_weight x, fun c hc => ?_⟩
              match x, hf with
              | none, _ => simp [outTok] at hc
              | some x, hf =>
                simp only [outTok, List.mem_singleton] at hc
                rw [hc]
                refine hown _ _ _ rfl (fun ho => ?_)
                have := (hsj ho).1 st _ _ hf
                cases this
    | .sending [] k next, a, hi =>
      cases a
      match s, hi.1 with
      | .producer _, h => exact h
      | .consumer _ _, h => exact h
      | .finished _, h => exact h
      | .aborted, h => exact h
    | .sending (t :: ts) k next, a, hi =>
      rw [threadAct] at a
      split at a
      · cases a
      · cases a
        obtain ⟨k1, k2, k3, k4⟩ := hi
        refine ⟨k1, k2, ?_, fun c hc => k4 c (List.mem_cons_of_mem _ hc)⟩
        simp only [List.map_cons, List.sum_cons] at k3
        omega
    | .finished _, a, _ => cases a
    | .aborted, a, _ => cases a
  | @get q k t r a hq =>
    simp only [Function.update_self]
    match hl : c.loc j, a, hi with
    | .consumer o got, a, hi =>
      rw [threadAct] at a
      split at a
      · rename_i q' hq'
        cases a
        obtain ⟨k1, k2, k3⟩ := hi
        have hm : q ∈ G.ins j := List.mem_of_getElem? hq'
        obtain ⟨m1, m2⟩ := mem_ins.mp hm
        have hlen : got.length < (G.sources j).length := by
          have := (List.getElem?_eq_some_iff.mp hq').1
          simpa [Graph.ins] using this
        refine ⟨k1, by simp; omega, fun t' ht' => ?_⟩
        rcases List.mem_append.mp ht' with h | h
        · exact k3 t' h
        · simp only [List.mem_singleton] at h
          subst h
          obtain ⟨U, F, hU, hB, _, _⟩ := h0
          have h3 := hU q
          rw [hq] at h3
          have hmem : t' ∈ (U q).map Prod.fst := by rw [h3]; simp
          obtain ⟨x, hx, rfl⟩ := List.mem_map.mp hmem
          have := (hB q).2 x (List.mem_append.mpr (Or.inl hx))
          have m2' : q.2 < (G.sources q.1).length := by rw [m1]; exact m2
          rw [Graph.traffic, if_pos m2'] at this
          refine ⟨_, ?_, this⟩
          unfold Graph.writer
          rw [m1, List.getD_eq_getElem?_getD, List.getElem?_eq_getElem m2]
          exact List.getElem_mem m2
      · cases a
    | .producer [], a, _ => cases a
    | .producer (.ok _ :: _), a, _ => cases a
    | .producer (.error _ :: _), a, _ => cases a
    | .sending [] _ _, a, _ => cases a
    | .sending (_ :: _) _ _, a, _ => rw [threadAct] at a; split at a <;> cases a
    | .finished _, a, _ => cases a
    | .aborted, a, _ => cases a
  | @put q t s a hq =>
    simp only [Function.update_self]
    match hl : c.loc j, a, hi with
    | .sending [] _ _, a, _ => cases a
    | .sending (_ :: _) _ _, a, hi =>
      rw [threadAct] at a
      split at a
      · cases a; exact hi
      · cases a
    | .consumer o got, a, hi => rw [threadAct] at a; split at a <;> cases a
    | .producer [], a, _ => cases a
    | .producer (.ok _ :: _), a, _ => cases a
    | .producer (.error _ :: _), a, _ => cases a
    | .finished _, a, _ => cases a
    | .aborted, a, _ => cases a

theorem Holds.steps (hw : G.Wired outs) (hsil : ∀ i, outs i = [] → G.Silent i ∧ ∀ t, G[i]? ≠ some (.prod t)) (hst : ∀ i, G.Stores L i) {B n k : Nat} {f : Nat → Thread C R} {c d : Conf C R}
    (hs : G.Steps outs cap k c d) : ∀ {N : Nat → Nat}, EInv False B G outs f N c → (∀ i, n ≤ i → N i = 0) → (∀ j, Holds G L j (c.loc j)) → ∀ j, Holds G L j (d.loc j) := by
  induction hs with
  | refl => intro N _ _ h; exact h
  | step i hd hs ih =>
    intro N h h0 hh
    obtain ⟨N', a1, a2, a3⟩ := EInv.steps hw (Graph.Steps.step i hd (.refl _)) h h0
    exact ih a1 a2 (Holds.step hw hsil hst h a1 hh hd)

theorem Holds.init (hst : ∀ i, G.Stores L i) : ∀ j, Holds G L j ((Graph.init G).loc j) := by
  intro j
  show Holds G L j ((G[j]?.map GNode.start).getD .aborted)
  match h : G[j]? with
  | none => exact trivial
  | some (.prod t) => exact ⟨t, h⟩
  | some (.cons s o) => exact ⟨⟨s, o, h, o.st, rfl, (hst j s o h).1⟩, by simp, by simp⟩

theorem steps_cap {k : Nat} {c d : Conf C R} (hs : G.Steps outs cap k c d) : (∀ q, (c.que q).length ≤ cap) → ∀ q, (d.que q).length ≤ cap := by
  induction hs with
  | refl => exact id
  | step i hd hs ih =>
    intro h
    refine ih (fun q => ?_)
    rw [step_iff] at hd
    cases hd with
    | tau a => exact h q
    | @get q' k t r a hq =>
      by_cases hqq : q = q'
      · subst hqq
        simp only [Function.update_self]
        have := h q; rw [hq] at this; simp at this; omega
      · simp only [updq_ne hqq]; exact h q
    | @put q' t s a hq =>
      by_cases hqq : q = q'
      · subst hqq
        simp only [Function.update_self]
        simp; omega
      · simp only [updq_ne hqq]; exact h q

theorem weight_sum_le {w : C → Nat} {L : Nat} {l : List (Tok C)} (h : ∀ c, Tok.chunk c ∈ l → w c ≤ L) :
    (l.map (Tok.weight w)).sum ≤ L * (l.map (Tok.weight (fun _ => 1))).sum := by
  induction l with
  | nil => simp
  | cons t l ih =>
    have h1 := ih (fun c hc => h c (List.mem_cons_of_mem _ hc))
    simp only [List.map_cons, List.sum_cons, Nat.mul_add]
    refine Nat.add_le_add ?_ h1
    match t, h with
    | .chunk c, h => simpa [Tok.weight] using h c (by simp)
    | .finished, _ => simp [Tok.weight]
    | .abort, _ => simp [Tok.weight]

theorem weight_one_le (l : List (Tok C)) : (l.map (Tok.weight (fun _ => 1))).sum ≤ l.length := by
  induction l with
  | nil => simp
  | cons t l ih =>
    simp only [List.map_cons, List.sum_cons, List.length_cons]
    have : Tok.weight (fun _ => 1) t ≤ 1 := by cases t <;> simp [Tok.weight]
    omega

theorem sum_map_le {β : Type} {l : List β} {f g : β → Nat} (h : ∀ x ∈ l, f x ≤ g x) : (l.map f).sum ≤ (l.map g).sum := by
  induction l with
  | nil => simp
  | cons x l ih =>
    simp only [List.map_cons, List.sum_cons]
    exact Nat.add_le_add (h x (by simp)) (ih (fun y hy => h y (List.mem_cons_of_mem _ hy)))

/-- Reachable states: the queues hold at most `cap` tokens, tokens of their writers; threads hold what they may hold. -/
theorem reach_holds (hv : G.Valid) (hw : G.Wired outs) (hsil : ∀ i, outs i = [] → G.Silent i ∧ ∀ t, G[i]? ≠ some (.prod t)) (hst : ∀ i, G.Stores L i)
    {n : Nat} {c : Conf C R} (hs : G.Steps outs cap n G.init c) :
    (∀ q, (c.que q).length ≤ cap) ∧ (∀ i q, q ∈ G.ins i → ∀ t ∈ c.que q, t ∈ G.tokens (G.writer q)) ∧ ∀ j, Holds G L j (c.loc j) := by
  obtain ⟨B, N, h0, h1⟩ := plain_inv hv hw
  refine ⟨steps_cap hs (fun q => by simp [Graph.init]), fun i q hq t ht => ?_, Holds.steps hw hsil hst hs h0 h1 (Holds.init hst)⟩
  obtain ⟨N', ⟨U, F, hU, hB, _, _⟩, _, _⟩ := EInv.steps hw hs h0 h1
  rw [← hU q] at ht
  obtain ⟨x, hx, rfl⟩ := List.mem_map.mp ht
  have := (hB q).2 x (List.mem_append.mpr (Or.inl hx))
  obtain ⟨m1, m2⟩ := mem_ins.mp hq
  have m2' : q.2 < (G.sources q.1).length := by rw [m1]; exact m2
  rw [Graph.traffic, if_pos m2'] at this
  exact this

/-- What one thread holds. -/
theorem Holds.le {w : C → Nat} (hL : ∀ i c, Tok.chunk c ∈ G.tokens i → w c ≤ L) {i : Nat} {s : Thread C R} (h : Holds G L i s) :
    s.held w ≤ L * (1 + max 1 (G.sources i).length) := by
  have hc : ∀ o got, AtLoop G L i (.consumer o got) → (got.map (Tok.weight w)).sum ≤ L * (G.sources i).length := by
    intro o got h
    obtain ⟨_, h2, h3⟩ := h
    refine le_trans (weight_sum_le (fun c hc => ?_)) (Nat.mul_le_mul_left L (le_trans (weight_one_le got) h2))
    obtain ⟨j, _, ht⟩ := h3 _ hc
    exact hL j c ht
  have hst : ∀ s, AtLoop G L i s → s.stored ≤ L := by
    intro s h
    match s, h with
    | .producer _, _ => exact Nat.zero_le _
    | .finished none, _ => exact Nat.zero_le _
    | .finished (some o), h => exact h
    | .aborted, _ => exact Nat.zero_le _
    | .consumer o got, ⟨⟨_, _, _, st, e, h⟩, _⟩ => subst e; exact h
  rw [Nat.mul_add, Nat.mul_one, Nat.add_comm]
  unfold Thread.held
  have hz : ∀ x, x ≤ L → 0 + x ≤ L * max 1 (G.sources i).length + L := fun x hx => by omega
  match s, h with
  | .producer t, h => exact hz _ (hst _ h)
  | .finished o, h => exact hz _ (hst _ h)
  | .aborted, h => exact hz _ (hst _ h)
  | .consumer o got, h => exact Nat.add_le_add (le_trans (hc o got h) (Nat.mul_le_mul_left _ (le_max_right _ _))) (hst _ h)
  | .sending toks k next, ⟨h1, h2, h3, h4⟩ =>
    refine Nat.add_le_add ?_ (hst next h1)
    show ((toks ++ next.toks).map (Tok.weight w)).sum ≤ _
    rw [h2, List.append_nil]
    exact le_trans (weight_sum_le (fun c hc => hL i c (h4 c hc))) (Nat.mul_le_mul_left _ (le_trans h3 (le_max_left _ _)))

end Biggus

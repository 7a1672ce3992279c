import Verif.Proofs.Network
/-
The invariant of the threaded engine: every thread is on its way through its sequential execution, and what has been put on
the queues is what it puts there in the sequential execution.  Tokens carry (ghost) times, used only to exclude deadlocks.
-/
namespace Biggus

variable {C R : Type}

/-- Thread state `s` with the inputs `I` to come runs to the end `f` in `n` steps, putting `O` on its queues.  With `P`, the times
of its actions do not decrease (from `now` on), and it reads everything. -/
inductive Run (P : Prop) (ins outs : List QId) : Nat → Thread C R → (QId → List (Tok C × Nat)) → (QId → List (Tok C × Nat)) →
    Nat → Thread C R → Prop
  | halt {now s I} : threadAct ins outs s = .halt → (P → ∀ q ∈ ins, I q = []) → Run P ins outs now s I (fun _ => []) 0 s
  | tau {now s s' I O n f} : threadAct ins outs s = .tau s' → Run P ins outs now s' I O n f → Run P ins outs now s I O (n + 1) f
  | get {now s q k t τ r I O n f} : threadAct ins outs s = .get q k → I q = (t, τ) :: r → (P → now ≤ τ) →
      Run P ins outs τ (k t) (Function.update I q r) O n f → Run P ins outs now s I O (n + 1) f
  | put {now s q t τ s' I O n f} : threadAct ins outs s = .put q t s' → (P → now ≤ τ) → Run P ins outs τ s' I O n f →
      Run P ins outs now s I (Function.update O q ((t, τ) :: O q)) (n + 1) f

variable {P : Prop} {ins outsq : List QId}

theorem Run.congr {now n : Nat} {s f : Thread C R} {I O : QId → List (Tok C × Nat)} (h : Run P ins outsq now s I O n f) :
    ∀ {I' : QId → List (Tok C × Nat)}, (∀ q ∈ ins, I q = I' q) → Run P ins outsq now s I' O n f := by
  induction h with
  | halt h hp => intro I' e; exact .halt h (fun p q hq => by rw [← e q hq]; exact hp p q hq)
  | tau h _ ih => intro I' e; exact .tau h (ih e)
  | @get now s q k t τ r I O n f h hq ht _ ih =>
    intro I' e
    refine .get h (by rw [← e q (act_get h)]; exact hq) ht (ih ?_)
    intro q' hq'
    by_cases hqq : q' = q
    · subst hqq; simp
    · rw [updq_ne hqq, updq_ne hqq, e q' hq']
  | put h ht _ ih => intro I' e; exact .put h ht (ih e)

theorem Run.now_le {now now' n : Nat} {s f : Thread C R} {I O : QId → List (Tok C × Nat)} (h : Run P ins outsq now s I O n f)
    (hn : P → now' ≤ now) : Run P ins outsq now' s I O n f := by
  induction h with
  | halt h hp => exact .halt h hp
  | tau h _ ih => exact .tau h (ih hn)
  | get h hq ht h' ih => exact .get h hq (fun p => le_trans (hn p) (ht p)) h'
  | put h ht h' ih => exact .put h (fun p => le_trans (hn p) (ht p)) h'

section
variable {G : Graph C R} {outs : Nat → List QId} {cap B : Nat}

/-- All tokens that pass through a queue, if the nodes are evaluated one after the other. -/
def Graph.traffic (G : Graph C R) (q : QId) : List (Tok C) := if q.2 < (G.sources q.1).length then G.tokens (G.writer q) else []

/-- The invariant: `N i` steps are left to thread `i`, which ends in `f i`; at most `B` tokens pass through each queue, which are those of
the sequential evaluation. -/
def EInv (P : Prop) (B : Nat) (G : Graph C R) (outs : Nat → List QId) (f : Nat → Thread C R) (N : Nat → Nat) (c : Conf C R) : Prop :=
  ∃ U F : QId → List (Tok C × Nat), (∀ q, (U q).map Prod.fst = c.que q) ∧ (∀ q, (U q ++ F q).length ≤ B ∧ ∀ x ∈ U q ++ F q, x.1 ∈ G.traffic q) ∧
    (P → ∀ q, ((U q ++ F q).map Prod.snd).Pairwise (· < ·)) ∧
    ∀ i, ∃ now O, Run P (G.ins i) (outs i) now (c.loc i) (fun q => U q ++ F q) O (N i) (f i) ∧ ∀ q ∈ outs i, O q = F q

theorem run_halt_zero {now n : Nat} {s f : Thread C R} {I O : QId → List (Tok C × Nat)} (h : Run P ins outsq now s I O n f)
    (ha : threadAct ins outsq s = .halt) : n = 0 ∧ s = f ∧ (∀ q, O q = []) ∧ (P → ∀ q ∈ ins, I q = []) := by
  cases h with
  | halt _ hp => exact ⟨rfl, rfl, fun _ => rfl, hp⟩
  | tau h _ => rw [ha] at h; cases h
  | get h _ _ _ => rw [ha] at h; cases h
  | put h _ _ => rw [ha] at h; cases h

theorem EInv.step (hw : G.Wired outs) {f : Nat → Thread C R} {N : Nat → Nat} {c d : Conf C R} {i : Nat} (h : EInv P B G outs f N c)
    (hs : G.step outs cap i c = some d) : ∃ k, N i = k + 1 ∧ EInv P B G outs f (Function.update N i k) d := by
  obtain ⟨U, F, hU, hB, hinc, hrun⟩ := h
  rw [step_iff] at hs
  obtain ⟨now, O, hr, hO⟩ := hrun i
  have others : ∀ (d' : Conf C R) (k : Nat) (U' F' : QId → List (Tok C × Nat)) (s' : Thread C R), d'.loc = Function.update c.loc i s' →
      (∀ j, j ≠ i → ∀ q ∈ G.ins j, U q ++ F q = U' q ++ F' q) → (∀ j, j ≠ i → ∀ q ∈ outs j, F q = F' q) →
      ∀ j, j ≠ i → ∃ now O, Run P (G.ins j) (outs j) now (d'.loc j) (fun q => U' q ++ F' q) O (Function.update N i k j) (f j) ∧
        ∀ q ∈ outs j, O q = F' q := by
    intro d' k U' F' s' hl h1 h2 j hj
    obtain ⟨now, O, hr, hO⟩ := hrun j
    refine ⟨now, O, ?_, fun q hq => by rw [hO q hq, h2 j hj q hq]⟩
    rw [hl, update_ne hj]
    simp only [Function.update, hj, dite_false]
    exact hr.congr (h1 j hj)
  obtain ⟨nn, hN⟩ : ∃ nn, N i = nn := ⟨_, rfl⟩
  obtain ⟨ff, hf⟩ : ∃ ff, f i = ff := ⟨_, rfl⟩
  rw [hN, hf] at hr
  cases hs with
  | @tau s a =>
    cases hr with
    | halt h _ => rw [a] at h; cases h
    | get h _ _ _ => rw [a] at h; cases h
    | put h _ _ => rw [a] at h; cases h
    | @tau _ _ _ _ _ n _ h hr =>
      rw [a] at h; cases h
      refine ⟨n, by assumption, U, F, hU, hB, hinc, fun j => ?_⟩
      by_cases hj : j = i
      · subst hj
        exact ⟨now, O, by simpa [hf] using hr, hO⟩
      · exact others ⟨_, c.que⟩ n U F s rfl (fun _ _ _ _ => rfl) (fun _ _ _ _ => rfl) j hj
  | @get q k t r a hq =>
    cases hr with
    | halt h _ => rw [a] at h; cases h
    | tau h _ => rw [a] at h; cases h
    | put h _ _ => rw [a] at h; cases h
    | @get _ _ q' k' t' τ r' _ _ n _ h hI ht hr =>
      rw [a] at h; cases h
      have hUq := hU q
      rw [hq] at hUq
      match hu : U q with
      | [] => rw [hu] at hUq; cases hUq
      | x :: u =>
        simp only at hI
        rw [hu] at hUq hI
        simp only [List.map_cons, List.cons.injEq] at hUq
        simp only [List.cons_append, List.cons.injEq] at hI
        obtain ⟨rfl, rfl⟩ := hI
        obtain ⟨e1, e2⟩ := hUq
        simp only at e1
        subst e1
        refine ⟨n, by assumption, Function.update U q u, F, ?_, ?_, ?_, fun j => ?_⟩
        · intro q'
          by_cases h' : q' = q
          · subst h'; simpa using e2
          · simp only [updq_ne h']; exact hU q'
        · intro q'
          by_cases h' : q' = q
          · subst h'
            have := hB q'
            rw [hu] at this
            simp only [Function.update_self]
            simp only [List.cons_append, List.length_cons] at this
            exact ⟨by omega, fun x hx => this.2 x (List.mem_cons_of_mem _ hx)⟩
          · simp only [updq_ne h']; exact hB q'
        · intro p q'
          by_cases h' : q' = q
          · subst h'
            have := hinc p q'
            rw [hu] at this
            simp only [Function.update_self]
            simp only [List.cons_append, List.map_cons, List.pairwise_cons] at this
            exact this.2
          · simp only [updq_ne h']; exact hinc p q'
        · by_cases hj : j = i
          · subst hj
            refine ⟨τ, O, ?_, hO⟩
            simp only [Function.update_self, hf]
            refine hr.congr (fun q' _ => ?_)
            by_cases h' : q' = q
            · subst h'; simp
            · rw [updq_ne h', updq_ne h']
          · refine others ⟨_, Function.update c.que q r⟩ n (Function.update U q u) F (k t') rfl ?_ (fun _ _ _ _ => rfl) j hj
            intro j' hj' q' hq'
            have : q' ≠ q := by
              rintro rfl
              exact hj' ((mem_ins.mp hq').1.symm.trans (mem_ins.mp (act_get a)).1)
            rw [updq_ne this]
  | @put q t s a hq =>
    cases hr with
    | halt h _ => rw [a] at h; cases h
    | tau h _ => rw [a] at h; cases h
    | get h _ _ _ => rw [a] at h; cases h
    | @put _ _ q' t' τ s' _ O' n _ h ht hr =>
      rw [a] at h; cases h
      have hqo := act_put a
      have hF := hO q hqo
      simp only [Function.update_self] at hF
      refine ⟨n, by assumption, Function.update U q (U q ++ [(t, τ)]), Function.update F q (O' q), ?_, ?_, ?_, fun j => ?_⟩
      · intro q'
        by_cases h' : q' = q
        · subst h'; simp [hU]
        · simp only [updq_ne h']; exact hU q'
      · intro q'
        by_cases h' : q' = q
        · subst h'
          have := hB q'
          rw [← hF] at this
          simpa using this
        · simp only [updq_ne h']; exact hB q'
      · intro p q'
        by_cases h' : q' = q
        · subst h'
          have := hinc p q'
          rw [← hF] at this
          simpa using this
        · simp only [updq_ne h']; exact hinc p q'
      · by_cases hj : j = i
        · subst hj
          refine ⟨τ, O', ?_, ?_⟩
          · simp only [Function.update_self, hf]
            refine hr.congr (fun q' _ => ?_)
            by_cases h' : q' = q
            · subst h'; simp [← hF]
            · rw [updq_ne h', updq_ne h']
          · intro q' hq'
            by_cases h' : q' = q
            · subst h'; simp
            · rw [updq_ne h', ← hO q' hq', updq_ne h']
        · refine others ⟨_, Function.update c.que q (c.que q ++ [t])⟩ n _ _ s rfl ?_ ?_ j hj
          · intro j' hj' q' hq'
            by_cases h' : q' = q
            · subst h'; simp [← hF]
            · rw [updq_ne h', updq_ne h']
          · intro j' hj' q' hq'
            have : q' ≠ q := by
              rintro rfl
              exact hj' (((hw j').2 _).mp hq' |>.2.symm.trans (((hw i).2 _).mp hqo).2)
            rw [updq_ne this]

omit G outs cap B in
theorem sum_update_pred {N : Nat → Nat} {i m : Nat} (n : Nat) (hin : i < n) (hm : N i = m + 1) :
    ∑ x ∈ Finset.range n, N x = (∑ x ∈ Finset.range n, Function.update N i m x) + 1 := by
  induction n with
  | zero => omega
  | succ n ih =>
    rw [Finset.sum_range_succ, Finset.sum_range_succ]
    by_cases h : i = n
    · subst h
      rw [hm]
      simp only [Function.update_self]
      have : ∑ x ∈ Finset.range i, Function.update N i m x = ∑ x ∈ Finset.range i, N x := by
        refine Finset.sum_congr rfl (fun j hj => ?_)
        rw [Function.update_of_ne (by have := Finset.mem_range.mp hj; omega)]
      omega
    · rw [ih (by omega), Function.update_of_ne (fun h' => h h'.symm)]
      omega

theorem EInv.steps (hw : G.Wired outs) {f : Nat → Thread C R} {n : Nat} {k : Nat} {c d : Conf C R} (hs : G.Steps outs cap k c d) :
    ∀ {N : Nat → Nat}, EInv P B G outs f N c → (∀ i, n ≤ i → N i = 0) →
    ∃ N', EInv P B G outs f N' d ∧ (∀ i, n ≤ i → N' i = 0) ∧ ∑ x ∈ Finset.range n, N x = k + ∑ x ∈ Finset.range n, N' x := by
  induction hs with
  | refl c => intro N h h0; exact ⟨N, h, h0, by simp⟩
  | @step k c c1 d i hi _ ih =>
    intro N h h0
    obtain ⟨m, hm, h1⟩ := h.step hw hi
    have hin : i < n := by
      by_contra hc
      rw [h0 i (by omega)] at hm; omega
    obtain ⟨N', a1, a2, a3⟩ := ih h1 (by
      intro j hj
      rw [update_ne (by omega)]; exact h0 j hj)
    refine ⟨N', a1, a2, ?_⟩
    have := sum_update_pred n hin hm
    omega

theorem EInv.halted {f : Nat → Thread C R} {N : Nat → Nat} {c : Conf C R} (h : EInv P B G outs f N c) {i : Nat} (hh : c.halted i) :
    c.loc i = f i ∧ N i = 0 := by
  obtain ⟨U, F, _, _, _, hr⟩ := h
  obtain ⟨now, O, hr, _⟩ := hr i
  have ha : threadAct (G.ins i) (outs i) (c.loc i) = .halt := by
    rcases hh with h | ⟨o, h⟩ <;> rw [h] <;> rfl
  obtain ⟨h1, h2, _⟩ := run_halt_zero hr ha
  exact ⟨h2, h1⟩

theorem act_halt {s : Thread C R} (h : threadAct ins outsq s = .halt) : s = .aborted ∨ ∃ o, s = .finished o := by
  unfold threadAct at h
  split at h <;> try (cases h; done)
  · split at h <;> cases h
  · split at h <;> cases h
  · exact Or.inr ⟨_, rfl⟩
  · exact Or.inl rfl

theorem enabled_or_blocked (i : Nat) (c : Conf C R) :
    c.halted i ∨ (∃ d, G.step outs cap i c = some d) ∨
    (∃ q k, threadAct (G.ins i) (outs i) (c.loc i) = .get q k ∧ c.que q = []) ∨
    (∃ q t s, threadAct (G.ins i) (outs i) (c.loc i) = .put q t s ∧ cap ≤ (c.que q).length) := by
  match ha : threadAct (G.ins i) (outs i) (c.loc i) with
  | .halt => exact Or.inl (act_halt ha)
  | .tau s => exact Or.inr (Or.inl ⟨_, step_tau ha⟩)
  | .get q k =>
    match hq : c.que q with
    | [] => exact Or.inr (Or.inr (Or.inl ⟨q, k, rfl, hq⟩))
    | t :: r => exact Or.inr (Or.inl ⟨_, by rw [step_get ha, hq]⟩)
  | .put q t s =>
    by_cases hq : (c.que q).length < cap
    · exact Or.inr (Or.inl ⟨_, by rw [step_put ha, if_pos hq]⟩)
    · exact Or.inr (Or.inr (Or.inr ⟨q, t, s, rfl, by omega⟩))

theorem writer_lt (hv : G.Valid) {i : Nat} {q : QId} (hq : q ∈ G.ins i) : G.writer q < i := by
  obtain ⟨rfl, h⟩ := mem_ins.mp hq
  refine hv.1 _ _ ?_
  unfold Graph.writer
  rw [List.getD_eq_getElem?_getD, List.getElem?_eq_getElem h]
  exact List.getElem_mem h

theorem writer_outs (hw : G.Wired outs) {i : Nat} {q : QId} (hq : q ∈ G.ins i) : q ∈ outs (G.writer q) := by
  obtain ⟨rfl, h⟩ := mem_ins.mp hq
  exact ((hw _).2 q).mpr ⟨h, rfl⟩

/-- A thread waiting on an empty queue: its writer still has something to put there. -/
theorem waiting_writer {f : Nat → Thread C R} {U F : QId → List (Tok C × Nat)} {c : Conf C R} {i n now : Nat}
    {O : QId → List (Tok C × Nat)} {ff : Thread C R} (hU : ∀ q, (U q).map Prod.fst = c.que q)
    (hr : Run P (G.ins i) (outs i) now (c.loc i) (fun q => U q ++ F q) O n ff) {q k}
    (ha : threadAct (G.ins i) (outs i) (c.loc i) = .get q k) (hq : c.que q = []) :
    U q = [] ∧ ∃ t τ r, F q = (t, τ) :: r ∧ (P → now ≤ τ) := by
  have hu : U q = [] := by
    have := hU q
    rw [hq] at this
    simpa using this
  refine ⟨hu, ?_⟩
  cases hr with
  | halt h _ => rw [ha] at h; cases h
  | tau h _ => rw [ha] at h; cases h
  | put h _ _ => rw [ha] at h; cases h
  | @get _ _ q' k' t' τ r' _ _ n _ h hI ht hr =>
    rw [ha] at h; cases h
    simp only [hu, List.nil_append] at hI
    exact ⟨t', τ, r', hI, ht⟩

/-- In a graph without sharing some thread can move as long as a thread is waiting for input. -/
theorem tree_descend (hv : G.Valid) (hw : G.Wired outs) (htree : G.Tree) (hcap : 1 ≤ cap) {f : Nat → Thread C R} {N : Nat → Nat}
    {c : Conf C R} (h : EInv P B G outs f N c) : ∀ i, (∃ q k, threadAct (G.ins i) (outs i) (c.loc i) = .get q k ∧ c.que q = []) →
    ∃ j d, G.step outs cap j c = some d := by
  intro i
  induction i using Nat.strong_induction_on with
  | _ i ih =>
    rintro ⟨q, k, ha, hq⟩
    obtain ⟨U, F, hU, _, _, hr⟩ := h
    obtain ⟨now, O, hri, _⟩ := hr i
    obtain ⟨hu, t, τ, r, hF, _⟩ := waiting_writer (f := f) hU hri ha hq
    have hqi := act_get ha
    obtain ⟨now', O', hrw, hO'⟩ := hr (G.writer q)
    have hqo := writer_outs hw hqi
    rcases enabled_or_blocked (G := G) (outs := outs) (cap := cap) (G.writer q) c with hh | ⟨d, hd⟩ | hg | ⟨q', t', s', hp, hl⟩
    · exfalso
      have ha' : threadAct (G.ins (G.writer q)) (outs (G.writer q)) (c.loc (G.writer q)) = .halt := by
        rcases hh with h | ⟨o, h⟩ <;> rw [h] <;> rfl
      have := (run_halt_zero hrw ha').2.2.1 q
      rw [hO' q hqo, hF] at this
      cases this
    · exact ⟨_, d, hd⟩
    · exact ih _ (writer_lt hv hqi) hg
    · exfalso
      have hq' := ((hw _).2 q').mp (act_put hp)
      have hqq := ((hw _).2 q).mp hqo
      have := htree q' q hq'.1 hqq.1 hq'.2
      subst this
      rw [hq] at hl
      simp at hl
      omega

/-- If no queue can ever be full, some thread can move as long as a thread is waiting for input. -/
theorem small_descend (hv : G.Valid) (hw : G.Wired outs) (hcap : B ≤ cap) {f : Nat → Thread C R} {N : Nat → Nat}
    {c : Conf C R} (h : EInv P B G outs f N c) : ∀ i, ¬ c.halted i → ∃ j d, G.step outs cap j c = some d := by
  intro i
  induction i using Nat.strong_induction_on with
  | _ i ih =>
    intro hh
    obtain ⟨U, F, hU, hB, _, hr⟩ := h
    obtain ⟨now, O, hri, hO⟩ := hr i
    rcases enabled_or_blocked (G := G) (outs := outs) (cap := cap) i c with h' | ⟨d, hd⟩ | ⟨q, k, ha, hq⟩ | ⟨q, t, s, hp, hl⟩
    · exact absurd h' hh
    · exact ⟨_, d, hd⟩
    · obtain ⟨hu, t, τ, r, hF, _⟩ := waiting_writer (f := f) hU hri ha hq
      have hqi := act_get ha
      obtain ⟨now', O', hrw, hO'⟩ := hr (G.writer q)
      have hqo := writer_outs hw hqi
      refine ih _ (writer_lt hv hqi) (fun hh => ?_)
      have ha' : threadAct (G.ins (G.writer q)) (outs (G.writer q)) (c.loc (G.writer q)) = .halt := by
        rcases hh with h | ⟨o, h⟩ <;> rw [h] <;> rfl
      have := (run_halt_zero hrw ha').2.2.1 q
      rw [hO' q hqo, hF] at this
      cases this
    · exfalso
      obtain ⟨ni, hni⟩ : ∃ m, N i = m := ⟨_, rfl⟩
      obtain ⟨ff, hff⟩ : ∃ m, f i = m := ⟨_, rfl⟩
      rw [hni, hff] at hri
      cases hri with
      | halt h _ => rw [hp] at h; cases h
      | tau h _ => rw [hp] at h; cases h
      | get h _ _ _ => rw [hp] at h; cases h
      | @put _ _ q' t' τ1 s' _ O' n _ h ht hr2 =>
        rw [hp] at h; cases h
        have hF := hO q (act_put hp)
        simp only [Function.update_self] at hF
        have h1 := (hB q).1
        have h2 := congrArg List.length (hU q)
        rw [← hF] at h1
        simp only [List.length_append, List.length_cons, List.length_map] at h1 h2
        omega

theorem Run.later (hp : P) {now n : Nat} {s f : Thread C R} {I O : QId → List (Tok C × Nat)} (h : Run P ins outsq now s I O n f) :
    (∀ q ∈ ins, ∀ x ∈ I q, now ≤ x.2) ∧ ∀ q, ∀ x ∈ O q, now ≤ x.2 := by
  induction h with
  | halt h hI => exact ⟨(fun q hq x hx => by rw [hI hp q hq] at hx; cases hx), (fun q x hx => by cases hx)⟩
  | tau h _ ih => exact ih
  | @get now s q k t τ r I O n f h hI ht _ ih =>
    refine ⟨fun q' hq' x hx => ?_, fun q' x hx => le_trans (ht hp) (ih.2 q' x hx)⟩
    by_cases h' : q' = q
    · subst h'
      rw [hI] at hx
      rcases List.mem_cons.mp hx with rfl | hx
      · exact ht hp
      · exact le_trans (ht hp) (ih.1 q' hq' x (by simpa using hx))
    · exact le_trans (ht hp) (ih.1 q' hq' x (by rw [updq_ne h']; exact hx))
  | @put now s q t τ s' I O n f h ht _ ih =>
    refine ⟨fun q' hq' x hx => le_trans (ht hp) (ih.1 q' hq' x hx), fun q' x hx => ?_⟩
    by_cases h' : q' = q
    · subst h'
      simp only [Function.update_self, List.mem_cons] at hx
      rcases hx with rfl | hx
      · exact ht hp
      · exact le_trans (ht hp) (ih.2 q' x hx)
    · rw [updq_ne h'] at hx
      exact le_trans (ht hp) (ih.2 q' x hx)

/-- If times are respected, some thread can move as long as there is something to be read or written. -/
theorem timed_descend (hp : P) (hv : G.Valid) (hw : G.Wired outs) (hcap : 1 ≤ cap) {c : Conf C R} {U F : QId → List (Tok C × Nat)}
    {f : Nat → Thread C R} {N : Nat → Nat} (hU : ∀ q, (U q).map Prod.fst = c.que q)
    (hinc : ∀ q, ((U q ++ F q).map Prod.snd).Pairwise (· < ·))
    (hr : ∀ i, ∃ now O, Run P (G.ins i) (outs i) now (c.loc i) (fun q => U q ++ F q) O (N i) (f i) ∧ ∀ q ∈ outs i, O q = F q) :
    ∀ τ i, ((∃ q ∈ G.ins i, ∃ x ∈ U q ++ F q, x.2 ≤ τ) ∨ ∃ q ∈ outs i, ∃ x ∈ F q, x.2 ≤ τ) → ∃ j d, G.step outs cap j c = some d := by
  intro τ
  induction τ using Nat.strong_induction_on with
  | _ τ ihτ =>
    intro i
    induction i using Nat.strong_induction_on with
    | _ i ihi =>
      intro hitem
      obtain ⟨now, O, hri, hO⟩ := hr i
      have hitem' : (∃ q ∈ G.ins i, ∃ x ∈ U q ++ F q, x.2 ≤ τ) ∨ ∃ q, ∃ x ∈ O q, x.2 ≤ τ := by
        rcases hitem with h | ⟨q, hq, x, hx, h⟩
        · exact Or.inl h
        · exact Or.inr ⟨q, x, by rw [hO q hq]; exact hx, h⟩
      match ha : threadAct (G.ins i) (outs i) (c.loc i) with
      | .halt =>
        exfalso
        obtain ⟨_, _, h3, h4⟩ := run_halt_zero hri ha
        rcases hitem' with ⟨q, hq, x, hx, _⟩ | ⟨q, x, hx, _⟩
        · have := h4 hp q hq
          rw [this] at hx; cases hx
        · rw [h3 q] at hx; cases hx
      | .tau s => exact ⟨i, _, step_tau ha⟩
      | .get q k =>
        match hq : c.que q with
        | t :: r => exact ⟨i, _, by rw [step_get ha, hq]⟩
        | [] =>
          obtain ⟨hu, t, τ1, r, hF, _⟩ := waiting_writer (f := f) hU hri ha hq
          have hle : τ1 ≤ τ := by
            obtain ⟨ni, hni⟩ : ∃ m, N i = m := ⟨_, rfl⟩
            obtain ⟨ff, hff⟩ : ∃ m, f i = m := ⟨_, rfl⟩
            rw [hni, hff] at hri
            cases hri with
            | halt h _ => rw [ha] at h; cases h
            | tau h _ => rw [ha] at h; cases h
            | put h _ _ => rw [ha] at h; cases h
            | @get _ _ q' k' t' τ2 r' _ _ n _ h hI ht hr2 =>
              rw [ha] at h; cases h
              simp only [hu, hF, List.nil_append] at hI
              cases hI
              obtain ⟨l1, l2⟩ := hr2.later hp
              rcases hitem' with ⟨q', hq', x, hx, hxτ⟩ | ⟨q', x, hx, hxτ⟩
              · by_cases h' : q' = q
                · subst h'
                  simp only [hu, hF, List.nil_append, List.mem_cons] at hx
                  rcases hx with rfl | hx
                  · exact hxτ
                  · exact le_trans (l1 q' hq' x (by simpa using hx)) hxτ
                · exact le_trans (l1 q' hq' x (by rw [updq_ne h']; exact hx)) hxτ
              · exact le_trans (l2 q' x hx) hxτ
          have hqi := act_get ha
          exact ihi _ (writer_lt hv hqi) (Or.inr ⟨q, writer_outs hw hqi, (t, τ1), by rw [hF]; exact List.mem_cons_self, hle⟩)
      | .put q t s =>
        by_cases hq : (c.que q).length < cap
        · exact ⟨i, _, by rw [step_put ha, if_pos hq]⟩
        · have hqo := act_put ha
          have hque : ∃ x u, U q = x :: u := by
            match hu : U q with
            | [] =>
              have := hU q
              rw [hu] at this
              simp only [List.map_nil] at this
              rw [← this] at hq
              simp at hq; omega
            | x :: u => exact ⟨x, u, rfl⟩
          obtain ⟨x, u, hu⟩ := hque
          obtain ⟨ni, hni⟩ : ∃ m, N i = m := ⟨_, rfl⟩
          obtain ⟨ff, hff⟩ : ∃ m, f i = m := ⟨_, rfl⟩
          rw [hni, hff] at hri
          cases hri with
          | halt h _ => rw [ha] at h; cases h
          | tau h _ => rw [ha] at h; cases h
          | get h _ _ _ => rw [ha] at h; cases h
          | @put _ _ q' t' τ1 s' _ O' n _ h ht hr2 =>
            rw [ha] at h; cases h
            obtain ⟨l1, l2⟩ := hr2.later hp
            have hle : τ1 ≤ τ := by
              rcases hitem' with ⟨q', hq', x, hx, hxτ⟩ | ⟨q', x, hx, hxτ⟩
              · exact le_trans (l1 q' hq' x hx) hxτ
              · by_cases h' : q' = q
                · subst h'
                  simp only [Function.update_self, List.mem_cons] at hx
                  rcases hx with rfl | hx
                  · exact hxτ
                  · exact le_trans (l2 q' x hx) hxτ
                · rw [updq_ne h'] at hx
                  exact le_trans (l2 q' x hx) hxτ
            have hF := hO q hqo
            simp only [Function.update_self] at hF
            have hlt : x.2 < τ1 := by
              have := hinc q
              rw [hu, ← hF] at this
              simp only [List.cons_append, List.map_cons, List.pairwise_cons] at this
              exact this.1 τ1 (by simp)
            have hqv := ((hw i).2 q).mp hqo
            refine ihτ x.2 (by omega) q.1 (Or.inl ⟨q, mem_ins.mpr ⟨rfl, hqv.1⟩, x, ?_, le_refl _⟩)
            rw [hu]; exact List.mem_cons_self

theorem timed_progress (hp : P) (hv : G.Valid) (hw : G.Wired outs) (hcap : 1 ≤ cap) {f : Nat → Thread C R} {N : Nat → Nat}
    {c : Conf C R} (h : EInv P B G outs f N c) (hs : G.Stuck outs cap c) : ∀ i, c.halted i := by
  intro i
  by_contra hh
  obtain ⟨U, F, hU, _, hinc, hr⟩ := h
  have key := timed_descend hp hv hw hcap hU (hinc hp) hr
  have none : ¬ ∃ j d, G.step outs cap j c = some d := by
    rintro ⟨j, d, hd⟩
    rw [hs j] at hd; cases hd
  obtain ⟨now, O, hri, hO⟩ := hr i
  rcases enabled_or_blocked (G := G) (outs := outs) (cap := cap) i c with h' | ⟨d, hd⟩ | ⟨q, k, hg, hq⟩ | ⟨q, t, s, hput, hl⟩
  · exact hh h'
  · exact none ⟨_, d, hd⟩
  · obtain ⟨_, t, τ, r, hF, _⟩ := waiting_writer (f := f) hU hri hg hq
    exact none (key τ i (Or.inl ⟨q, act_get hg, (t, τ), by rw [hF]; simp, le_refl _⟩))
  · obtain ⟨ni, hni⟩ : ∃ m, N i = m := ⟨_, rfl⟩
    obtain ⟨ff, hff⟩ : ∃ m, f i = m := ⟨_, rfl⟩
    rw [hni, hff] at hri
    cases hri with
    | halt h _ => rw [hput] at h; cases h
    | tau h _ => rw [hput] at h; cases h
    | get h _ _ _ => rw [hput] at h; cases h
    | @put _ _ q' t' τ1 s' _ O' n _ h ht hr2 =>
      rw [hput] at h; cases h
      have hF := hO q (act_put hput)
      simp only [Function.update_self] at hF
      exact none (key τ1 i (Or.inr ⟨q, act_put hput, (t, τ1), by rw [← hF]; exact List.mem_cons_self, le_refl _⟩))

end
end Biggus

import Verif.Proofs.EngineRun
/-
The invariant of the threaded engine holds initially: every thread can be run to its end, in isolation, on the tokens which its
sources put in the sequential evaluation.
-/
namespace Biggus

variable {C R : Type}

/-! ### Terminated token lists -/

/-- Chunks, then one `QUEUE_FINISHED` or `QUEUE_ABORT`. -/
def Terminated : List (Tok C) → Prop
  | [] => False
  | .chunk _ :: r => Terminated r
  | .finished :: r => r = []
  | .abort :: r => r = []

theorem Terminated.ne {l : List (Tok C)} (h : Terminated l) : l ≠ [] := by rintro rfl; exact h

theorem prodTokens_terminated (l : List (Res C)) : Terminated (prodTokens l) := by
  induction l with
  | nil => rfl
  | cons x r ih => cases x with
    | ok c => exact ih
    | error e => rfl

theorem outTok_terminated {c : Option C} {l : List (Tok C)} (h : Terminated l) : Terminated (outTok c ++ l) := by
  cases c with
  | none => exact h
  | some c => exact h

theorem rounds_cons {β : Type} : ∀ (M : List (β × List β)), M ≠ [] →
    rounds (M.map (fun p => p.1 :: p.2)) = M.map Prod.fst :: rounds (M.map Prod.snd)
  | [], h => absurd rfl h
  | [p], _ => rfl
  | p :: p' :: M, _ => by
    have ih := rounds_cons (p' :: M) (by simp)
    simp only [List.map_cons] at ih ⊢
    rw [rounds]
    · rw [ih]; rfl
    · simp

theorem split_heads {β : Type} : ∀ (L : List (List β)), (∀ l ∈ L, l ≠ []) → ∃ M : List (β × List β), L = M.map (fun p => p.1 :: p.2)
  | [], _ => ⟨[], rfl⟩
  | [] :: L, h => absurd rfl (h [] (by simp))
  | (a :: l) :: L, h => by
    obtain ⟨M, rfl⟩ := split_heads L (fun l hl => h l (List.mem_cons_of_mem _ hl))
    exact ⟨(a, l) :: M, rfl⟩

/-- Not all over: the tails of terminated lists whose heads are chunks are terminated. -/
theorem tails_terminated {M : List (Tok C × List (Tok C))} (h : ∀ p ∈ M, Terminated (p.1 :: p.2))
    (ha : (M.map Prod.fst).any Tok.isAbort = false) (hf : (M.map Prod.fst).any Tok.isFinished = false) : ∀ p ∈ M, Terminated p.2 := by
  intro p hp
  have h1 := h p hp
  simp only [List.any_eq_false, List.mem_map] at ha hf
  have h2 := ha p.1 ⟨p, hp, rfl⟩
  have h3 := hf p.1 ⟨p, hp, rfl⟩
  obtain ⟨t, r⟩ := p
  cases t with
  | chunk c => exact h1
  | finished => simp [Tok.isFinished] at h3
  | abort => simp [Tok.isAbort] at h2

theorem consRun_terminated (n : Nat) : ∀ (L : List (List (Tok C))) (o : Obj C R), (L.headD []).length = n → L ≠ [] →
    (∀ l ∈ L, Terminated l) → Terminated (consRun o (rounds L)).1 := by
  induction n with
  | zero =>
    intro L o hn hne h
    match L, hne with
    | l :: L, _ => exact absurd (List.length_eq_zero_iff.mp hn) (h l (by simp)).ne
  | succ n ih =>
    intro L o hn hne h
    obtain ⟨M, rfl⟩ := split_heads L (fun l hl => (h l hl).ne)
    have hM : M ≠ [] := by rintro rfl; simp at hne
    rw [rounds_cons M hM, consRun]
    split
    · rfl
    · split
      · split
        · rfl
        · exact outTok_terminated rfl
      · split
        · rfl
        · rename_i ha hf _ st' c _
          have ht := tails_terminated (M := M) (fun p hp => h _ (List.mem_map.mpr ⟨p, hp, rfl⟩)) (by simpa using ha) (by simpa using hf)
          refine outTok_terminated ?_
          match M, hM with
          | p :: M, _ =>
            refine ih _ _ (by simpa using hn) (by simp) ?_
            intro l hl
            obtain ⟨q, hq, rfl⟩ := List.mem_map.mp hl
            exact ht q hq

/-! ### Times -/

theorem consTimed_fst : ∀ (rs : List (List (Tok C))) (τs : List Nat) (o : Obj C R), rs.length ≤ τs.length →
    (consTimed o rs τs).map Prod.fst = (consRun o rs).1
  | [], _, _, _ => by simp [consTimed, consRun]
  | r :: rs, [], _, h => by simp at h
  | r :: rs, τ :: τs, o, h => by
    rw [consTimed, consRun]
    split
    · rfl
    · split
      · split
        · rename_i he; simp only [he]; rfl
        · rename_i he; simp only [he]; simp [Function.comp_def]
      · split
        · rename_i he; simp only [he]; rfl
        · rename_i he; simp only [he]
          rw [List.map_append, consTimed_fst rs τs _ (by simpa using h)]
          simp [Function.comp_def]

theorem outTok_pair {c : Option C} {τ : Nat} {l : List (Tok C × Nat)} (h : (l.map Prod.snd).Pairwise (· < ·))
    (hl : ∀ x ∈ l, τ < x.2) : (((outTok c).map (fun t => (t, τ)) ++ l).map Prod.snd).Pairwise (· < ·) := by
  cases c with
  | none => exact h
  | some c =>
    simp only [outTok, List.map_cons, List.map_nil, List.cons_append, List.nil_append, List.pairwise_cons]
    refine ⟨?_, h⟩
    intro a ha
    obtain ⟨x, hx, rfl⟩ := List.mem_map.mp ha
    exact hl x hx

theorem consTimed_ge : ∀ (rs : List (List (Tok C))) (τs : List Nat) (o : Obj C R) (b : Nat), (∀ τ ∈ τs, b ≤ τ) →
    ∀ x ∈ consTimed o rs τs, b ≤ x.2
  | [], _, _, _, _, x, hx => by simp [consTimed] at hx
  | r :: rs, [], _, _, _, x, hx => by simp [consTimed] at hx
  | r :: rs, τ :: τs, o, b, hb, x, hx => by
    have h0 := hb τ (by simp)
    have ho : ∀ c : Option C, x ∈ (outTok c).map (fun t => (t, τ)) → b ≤ x.2 := by
      intro c h
      obtain ⟨t, _, rfl⟩ := List.mem_map.mp h
      exact h0
    rw [consTimed] at hx
    split at hx
    · simp only [List.mem_singleton] at hx; subst hx; exact h0
    · split at hx
      · split at hx
        · simp only [List.mem_singleton] at hx; subst hx; exact h0
        · rcases List.mem_append.mp hx with h | h
          · exact ho _ h
          · simp only [List.mem_singleton] at h; subst h; exact Nat.le_add_right_of_le h0
      · split at hx
        · simp only [List.mem_singleton] at hx; subst hx; exact h0
        · rcases List.mem_append.mp hx with h | h
          · exact ho _ h
          · exact consTimed_ge rs τs _ b (fun τ' h' => hb τ' (List.mem_cons_of_mem _ h')) x h

theorem consTimed_inc : ∀ (rs : List (List (Tok C))) (τs : List Nat) (o : Obj C R), τs.Pairwise (· < ·) →
    ((consTimed o rs τs).map Prod.snd).Pairwise (· < ·)
  | [], _, _, _ => by simp [consTimed]
  | r :: rs, [], _, _ => by simp [consTimed]
  | r :: rs, τ :: τs, o, h => by
    obtain ⟨h1, h2⟩ := List.pairwise_cons.mp h
    rw [consTimed]
    split
    · simp
    · split
      · split
        · simp
        · rename_i c _
          cases c with
          | none => simp [outTok]
          | some c => simp [outTok]
      · split
        · simp
        · refine outTok_pair (consTimed_inc rs τs _ h2) (fun x hx => ?_)
          exact consTimed_ge rs τs _ (τ + 1) (fun τ' h' => h1 τ' h') x hx

/-! ### Single threads -/

variable {P : Prop} {ins outsq : List QId}

theorem run_putting (hn : outsq.Nodup) {now τ n : Nat} {t : Tok C} {ts : List (Tok C)} {next f : Thread C R}
    {I O : QId → List (Tok C × Nat)} (ht : P → now ≤ τ) (h : Run P ins outsq τ (.sending ts 0 next) I O n f) :
    ∀ (m k : Nat), k + m = outsq.length → ∃ n' O', Run P ins outsq now (.sending (t :: ts) k next) I O' n' f ∧
      ∀ q, O' q = if q ∈ outsq.drop k then (t, τ) :: O q else O q := by
  intro m
  induction m generalizing now with
  | zero =>
    intro k hk
    refine ⟨n + 1, O, .tau ?_ (h.now_le ht), ?_⟩
    · simp only [threadAct, List.getElem?_eq_none (show outsq.length ≤ k by omega)]
    · intro q
      rw [List.drop_eq_nil_of_le (by omega)]; simp
  | succ m ih =>
    intro k hk
    have hlt : k < outsq.length := by omega
    obtain ⟨n', O', hr, hO⟩ := ih (now := τ) (fun _ => le_refl _) (k + 1) (by omega)
    refine ⟨n' + 1, _, .put (q := outsq[k]) (t := t) (τ := τ) (s' := .sending (t :: ts) (k + 1) next) ?_ ht hr, ?_⟩
    · simp only [threadAct, List.getElem?_eq_getElem hlt]
    · intro q
      rw [List.drop_eq_getElem_cons hlt]
      have hnd : (outsq.drop k).Nodup := hn.sublist (List.drop_sublist _ _)
      rw [List.drop_eq_getElem_cons hlt, List.nodup_cons] at hnd
      by_cases hq : q = outsq[k]
      · subst hq
        rw [Function.update_self, hO, if_neg hnd.1, if_pos List.mem_cons_self]
      · rw [Function.update_of_ne hq, hO]
        simp only [List.mem_cons, hq, false_or]

theorem run_sending (hn : outsq.Nodup) {now' n : Nat} {next f : Thread C R} {I O : QId → List (Tok C × Nat)}
    (h : Run P ins outsq now' next I O n f) : ∀ (l : List (Tok C × Nat)) (now : Nat), (P → ∀ x ∈ l, x.2 ≤ now') →
      (P → (l.map Prod.snd).Pairwise (· ≤ ·)) → (P → now ≤ now') → (P → ∀ x ∈ l, now ≤ x.2) →
      ∃ n' O', Run P ins outsq now (.sending (l.map Prod.fst) 0 next) I O' n' f ∧ ∀ q ∈ outsq, O' q = l ++ O q
  | [], now, _, _, h3, _ => ⟨n + 1, O, .tau rfl (h.now_le h3), fun _ _ => rfl⟩
  | (t, τ) :: l, now, h1, h2, h3, h4 => by
    obtain ⟨n', O', hr, hO⟩ := run_sending hn h l τ (fun p x hx => h1 p x (List.mem_cons_of_mem _ hx))
      (fun p => (List.pairwise_cons.mp (h2 p)).2) (fun p => h1 p (t, τ) (by simp))
      (fun p x hx => (List.pairwise_cons.mp (h2 p)).1 x.2 (List.mem_map.mpr ⟨x, hx, rfl⟩))
    obtain ⟨n'', O'', hr', hO'⟩ := run_putting hn (now := now) (t := t) (fun p => h4 p (t, τ) (by simp)) hr outsq.length 0 (by omega)
    refine ⟨n'', O'', hr', fun q hq => ?_⟩
    rw [hO' q, if_pos (by simpa using hq), hO q hq]
    rfl

theorem mem_le_sum : ∀ {l : List Nat} {a : Nat}, a ∈ l → a ≤ l.sum
  | b :: l, a, h => by
    rw [List.sum_cons]
    rcases List.mem_cons.mp h with rfl | h
    · omega
    · have := mem_le_sum h; omega

theorem run_end (hn : outsq.Nodup) {now : Nat} {f : Thread C R} {I : QId → List (Tok C × Nat)} (l : List (Tok C × Nat))
    (hf : threadAct ins outsq f = .halt) (hI : P → ∀ q ∈ ins, I q = []) (h2 : P → (l.map Prod.snd).Pairwise (· ≤ ·))
    (h4 : P → ∀ x ∈ l, now ≤ x.2) :
    ∃ n' O', Run P ins outsq now (.sending (l.map Prod.fst) 0 f) I O' n' f ∧ ∀ q ∈ outsq, O' q = l := by
  obtain ⟨n', O', h, hO⟩ := run_sending hn (.halt (now := now + (l.map Prod.snd).sum) hf hI) l now
    (fun _ x hx => le_trans (mem_le_sum (List.mem_map.mpr ⟨x, hx, rfl⟩)) (Nat.le_add_left _ _)) h2
    (fun _ => Nat.le_add_right _ _) h4
  exact ⟨n', O', h, fun q hq => by rw [hO q hq]; simp⟩

/-- A producer, with any increasing times. -/
theorem run_producer (hn : outsq.Nodup) (hins : ins = []) {I : QId → List (Tok C × Nat)} :
    ∀ (todo : List (Res C)) (τs : List Nat) (now : Nat), τs.length = (prodTokens todo).length → (P → τs.Pairwise (· < ·)) →
      (P → ∀ τ ∈ τs, now ≤ τ) →
      ∃ n O, Run P ins outsq now (.producer todo : Thread C R) I O n (prodEnd todo) ∧ ∀ q ∈ outsq, O q = (prodTokens todo).zip τs
  | [], τs, now, hl, _, h2 => by
    obtain ⟨n, O, h, hO⟩ := run_end (P := P) (ins := ins) hn (now := now) (f := (.finished none : Thread C R)) (I := I)
      [(.finished, τs.headD 0)] rfl (by rw [hins]; simp) (by simp) (by
        intro p x hx
        simp only [List.mem_singleton] at hx
        subst hx
        match τs, hl with
        | [τ], _ => exact h2 p τ (by simp))
    refine ⟨n + 1, O, .tau rfl h, fun q hq => ?_⟩
    rw [hO q hq]
    match τs, hl with
    | [τ], _ => rfl
  | .error e :: r, τs, now, hl, _, h2 => by
    obtain ⟨n, O, h, hO⟩ := run_end (P := P) (ins := ins) hn (now := now) (f := (.aborted : Thread C R)) (I := I)
      [(.abort, τs.headD 0)] rfl (by rw [hins]; simp) (by simp) (by
        intro p x hx
        simp only [List.mem_singleton] at hx
        subst hx
        match τs, hl with
        | [τ], _ => exact h2 p τ (by simp))
    refine ⟨n + 1, O, .tau rfl h, fun q hq => ?_⟩
    rw [hO q hq]
    match τs, hl with
    | [τ], _ => rfl
  | .ok c :: r, [], _, hl, _, _ => by simp [prodTokens] at hl
  | .ok c :: r, τ :: τs, now, hl, h1, h2 => by
    obtain ⟨n, O, h, hO⟩ := run_producer hn hins (I := I) r τs τ (by simpa [prodTokens] using hl) (fun p => (List.pairwise_cons.mp (h1 p)).2)
      (fun p τ' h' => le_of_lt ((List.pairwise_cons.mp (h1 p)).1 τ' h'))
    obtain ⟨n', O', h', hO'⟩ := run_sending hn h [(.chunk c, τ)] now (by simp) (by simp) (fun p => h2 p τ (by simp))
      (by simpa using fun p => h2 p τ (by simp))
    refine ⟨n' + 1, O', .tau rfl h', fun q hq => ?_⟩
    rw [hO' q hq, hO q hq]; rfl

/-- Reading one token from every queue. -/
theorem run_gather (hnd : ins.Nodup) {o : Obj C R} {f : Thread C R} {n τ : Nat} {O : QId → List (Tok C × Nat)} :
    ∀ (M : List ((Tok C × Nat) × List (Tok C × Nat))) (got : List (Tok C)) (now : Nat) (I J : QId → List (Tok C × Nat)),
      got.length + M.length = ins.length →
      (∀ k (h : k < M.length), ∃ q, ins[got.length + k]? = some q ∧ I q = M[k].1 :: M[k].2 ∧ J q = M[k].2) →
      (∀ q ∈ ins, q ∈ ins.take got.length → I q = J q) → (P → now ≤ τ) → (P → ∀ p ∈ M, p.1.2 = τ) →
      Run P ins outsq τ (.consumer o (got ++ M.map (·.1.1))) J O n f → ∃ n', Run P ins outsq now (.consumer o got) I O n' f
  | [], got, now, I, J, hl, _, hJ, hnow, _, h => by
    refine ⟨n, (Run.congr (I := J) (by simpa using h.now_le hnow) ?_)⟩
    intro q hq
    refine (hJ q hq ?_).symm
    rw [List.take_of_length_le (by simp at hl; omega)]; exact hq
  | p :: M, got, now, I, J, hl, hI, hJ, hnow, hτ, h => by
    obtain ⟨q, hq, hIq, hJq⟩ := hI 0 (by simp)
    simp only [Nat.add_zero, List.getElem_cons_zero] at hq hIq hJq
    have hlt : got.length < ins.length := by simp at hl; omega
    have hqe : ins[got.length] = q := by
      rw [List.getElem?_eq_getElem hlt] at hq; exact Option.some.inj hq
    obtain ⟨⟨t, τ1⟩, r⟩ := p
    have ih := run_gather hnd (o := o) (f := f) (n := n) (τ := τ) (O := O) M (got ++ [t]) τ1 (Function.update I q r) J
      (by simp at hl ⊢; omega) (by
        intro k hk
        obtain ⟨q', a1, a2, a3⟩ := hI (k + 1) (by simpa using hk)
        have hne : q' ≠ q := by
          intro he
          rw [he] at a1
          have := (List.getElem?_inj (by omega) hnd).mp (hq.trans a1.symm)
          omega
        refine ⟨q', ?_, ?_, ?_⟩
        · rw [← a1]; congr 1; simp; omega
        · rw [Function.update_of_ne hne]; simpa using a2
        · simpa using a3) (by
        intro q' hq' hm
        rw [List.length_append, List.length_singleton, List.take_add_one, List.mem_append, hq] at hm
        rcases hm with hm | hm
        · have hne : q' ≠ q := by
            intro he
            rw [he] at hm
            obtain ⟨j, hj, hje⟩ := List.mem_take_iff_getElem.mp hm
            have := (List.Nodup.getElem_inj_iff hnd).mp (hje.trans hqe.symm)
            omega
          rw [Function.update_of_ne hne]
          exact hJ q' hq' hm
        · simp at hm
          subst hm
          rw [Function.update_self, hJq]) (fun p => le_of_eq (hτ p ((t, τ1), r) (by simp)))
      (fun p x hx => hτ p x (List.mem_cons_of_mem _ hx)) (by rw [List.append_assoc]; exact h)
    obtain ⟨n', ih⟩ := ih
    refine ⟨n' + 1, .get (q := q) (k := fun t => .consumer o (got ++ [t])) (t := t) (τ := τ1) (r := r) ?_ hIq ?_ ih⟩
    · simp only [threadAct, hq]
    · intro p
      have : τ1 = τ := hτ p ((t, τ1), r) (by simp)
      rw [this]; exact hnow p

/-- The `n` input queues of a consumer with the timed tokens `L`. -/
def InputsAre (ins : List QId) (I : QId → List (Tok C × Nat)) (L : List (List (Tok C × Nat))) : Prop :=
  ins.length = L.length ∧ ∀ k (h : k < L.length), ∃ q, ins[k]? = some q ∧ I q = L[k]

theorem no_abort_cons {t : Tok C} {l : List (Tok C)} (h : Tok.abort ∉ t :: l) : Tok.abort ∉ l :=
  fun h' => h (List.mem_cons_of_mem _ h')

theorem run_consumer (hins : ins.Nodup) (hn : outsq.Nodup) (m : Nat) : ∀ (L : List (List (Tok C × Nat))) (τs : List Nat) (o : Obj C R) (now : Nat)
    (I : QId → List (Tok C × Nat)), (L.headD []).length = m → L ≠ [] → (∀ l ∈ L, Terminated (l.map Prod.fst)) →
    InputsAre ins I L → (L.headD []).map Prod.snd = τs → (P → ∀ l ∈ L, l.map Prod.snd = τs) → (P → ∀ l ∈ L, Tok.abort ∉ l.map Prod.fst) →
    (P → Tok.abort ∉ (consRun o (rounds (L.map (List.map Prod.fst)))).1) → (P → τs.Pairwise (· < ·)) → (P → ∀ τ ∈ τs, now ≤ τ) →
    ∃ n O, Run P ins outsq now (.consumer o []) I O n (consRun o (rounds (L.map (List.map Prod.fst)))).2 ∧
      ∀ q ∈ outsq, O q = consTimed o (rounds (L.map (List.map Prod.fst))) τs := by
  induction m with
  | zero =>
    intro L τs o now I hm hne hT _ _ _ _ _ _ _
    match L, hne with
    | l :: L, _ =>
      have := (hT l (by simp)).ne
      have h0 : l = [] := List.length_eq_zero_iff.mp hm
      subst h0
      exact absurd rfl this
  | succ m ih =>
    intro L τs o now I hm hne hT hI hτ hPτ hPa hPo hinc hnow
    obtain ⟨M, rfl⟩ := split_heads L (fun l hl => by
      intro h; subst h; exact (hT [] hl).ne rfl)
    have hM : M ≠ [] := by rintro rfl; simp at hne
    obtain ⟨τ, τs, rfl⟩ : ∃ τ τs', τs = τ :: τs' := by
      match M, hM with
      | p :: M, _ => exact ⟨p.1.2, p.2.map Prod.snd, by rw [← hτ]; rfl⟩
    have heads : (M.map (fun p => p.1 :: p.2)).map (List.map Prod.fst) =
        (M.map (fun p => ((p.1.1, p.2.map Prod.fst) : Tok C × List (Tok C)))).map (fun p => p.1 :: p.2) := by
      simp [Function.comp_def]
    have tl : (M.map (fun p => ((p.1.1, p.2.map Prod.fst) : Tok C × List (Tok C)))).map Prod.snd = (M.map Prod.snd).map (List.map Prod.fst) := by
      simp [Function.comp_def]
    have hd : (M.map (fun p => ((p.1.1, p.2.map Prod.fst) : Tok C × List (Tok C)))).map Prod.fst = M.map (·.1.1) := by
      simp [Function.comp_def]
    have hround : rounds ((M.map (fun p => p.1 :: p.2)).map (List.map Prod.fst)) =
        M.map (·.1.1) :: rounds ((M.map Prod.snd).map (List.map Prod.fst)) := by
      rw [heads, rounds_cons _ (by simpa using hM), tl, hd]
    rw [hround] at hPo ⊢
    obtain ⟨hIl, hIk⟩ := hI
    simp only [List.length_map] at hIl hIk
    let J : QId → List (Tok C × Nat) := fun q => (I q).tail
    have hJk : ∀ k (h : k < M.length), ∃ q, ins[k]? = some q ∧ I q = M[k].1 :: M[k].2 ∧ J q = M[k].2 := by
      intro k hk
      obtain ⟨q, h1, h2⟩ := hIk k hk
      refine ⟨q, h1, by simpa using h2, ?_⟩
      show (I q).tail = _
      rw [h2]; simp
    have hτ1 : P → ∀ p ∈ M, p.1.2 = τ := by
      intro p x hx
      have := hPτ p (x.1 :: x.2) (List.mem_map.mpr ⟨x, hx, rfl⟩)
      simp only [List.map_cons, List.cons.injEq] at this
      exact this.1
    have hτ2 : P → ∀ p ∈ M, p.2.map Prod.snd = τs := by
      intro p x hx
      have := hPτ p (x.1 :: x.2) (List.mem_map.mpr ⟨x, hx, rfl⟩)
      simp only [List.map_cons, List.cons.injEq] at this
      exact this.2
    have fin : ∀ {n O f}, Run P ins outsq τ (.consumer o (M.map (·.1.1))) J O n f → ∃ n', Run P ins outsq now (.consumer o []) I O n' f := by
      intro n O f h
      refine run_gather hins (τ := τ) M [] now I J (by simpa using hIl.symm) ?_ (by simp) (fun p => hnow p τ (by simp)) hτ1 (by simpa using h)
      intro k hk
      simpa using hJk k hk
    have hact : threadAct ins outsq (.consumer o (M.map (·.1.1))) = .tau (react o (M.map (·.1.1))) := by
      simp only [threadAct, List.length_map]
      rw [List.getElem?_eq_none (by omega)]
    have allT : ∀ p ∈ M, Terminated (p.1.1 :: p.2.map Prod.fst) := by
      intro p hp
      simpa using hT _ (List.mem_map.mpr ⟨p, hp, rfl⟩)
    -- if a round contains the end of an input, and times are respected, everything has been read
    have hread : (M.map (·.1.1)).any Tok.isFinished = true → P → ∀ q ∈ ins, J q = [] := by
      intro hf p q hq
      obtain ⟨t, ht, hfin⟩ := List.any_eq_true.mp hf
      obtain ⟨x, hx, rfl⟩ := List.mem_map.mp ht
      have hx1 := allT x hx
      have hx2 : x.2.map Prod.fst = [] := by
        match hxt : x.1.1, hx1 with
        | .chunk _, _ => rw [hxt] at hfin; simp [Tok.isFinished] at hfin
        | .finished, h => exact h
        | .abort, h => exact h
      have hτe : τs = [] := by rw [← hτ2 p x hx, List.map_eq_nil_iff.mp hx2]; rfl
      obtain ⟨k, hk, rfl⟩ := List.mem_iff_getElem.mp hq
      obtain ⟨q, h1, _, h3⟩ := hJk k (by omega)
      rw [List.getElem?_eq_getElem hk] at h1
      cases h1
      rw [h3]
      have := hτ2 p _ (List.getElem_mem (by omega : k < M.length))
      rw [hτe] at this
      exact List.map_eq_nil_iff.mp this
    have hnoab : P → (M.map (·.1.1)).any Tok.isAbort = false := by
      intro p
      rw [List.any_eq_false]
      intro t ht
      obtain ⟨x, hx, rfl⟩ := List.mem_map.mp ht
      intro hc
      have := hPa p _ (List.mem_map.mpr ⟨x, hx, rfl⟩)
      refine this ?_
      match hxt : x.1.1 with
      | .chunk _ => rw [hxt] at hc; simp [Tok.isAbort] at hc
      | .finished => rw [hxt] at hc; simp [Tok.isAbort] at hc
      | .abort => simp [hxt]
    have abort : (P → False) → ∃ n O, Run P ins outsq τ (.sending [.abort] 0 (.aborted : Thread C R)) J O n .aborted ∧
        ∀ q ∈ outsq, O q = [(.abort, τ)] := by
      intro hp
      exact run_end hn [(.abort, τ)] rfl (fun p => (hp p).elim) (by simp) (by simp)
    rw [consTimed, consRun] 
    rw [consRun] at hPo
    by_cases ha : (M.map (·.1.1)).any Tok.isAbort = true
    · simp only [ha, if_true]
      obtain ⟨n, O, h, hO⟩ := abort (fun p => by rw [hnoab p] at ha; cases ha)
      obtain ⟨n', h'⟩ := fin (.tau hact (by simp only [react, ha, if_true, Bool.false_eq_true, if_false]; exact h))
      exact ⟨n', O, h', hO⟩
    · simp only [ha, Bool.false_eq_true, if_false] at hPo ⊢
      by_cases hf : (M.map (·.1.1)).any Tok.isFinished = true
      · simp only [hf, if_true] at hPo ⊢
        match hfin : o.finalise o.st with
        | .error e =>
          simp only [hfin] at hPo ⊢
          obtain ⟨n, O, h, hO⟩ := abort (fun p => hPo p (by simp))
          obtain ⟨n', h'⟩ := fin (.tau hact (by simp only [react, ha, hf, hfin, if_true, Bool.false_eq_true, if_false]; exact h))
          exact ⟨n', O, h', hO⟩
        | .ok c =>
          simp only [hfin]
          obtain ⟨n, O, h, hO⟩ := run_end (P := P) (ins := ins) hn (now := τ) (f := (.finished (some o) : Thread C R)) (I := J)
            ((outTok c).map (fun t => (t, τ)) ++ [(.finished, τ + (outTok c).length)]) rfl (hread hf) (by
              intro _
              cases c <;> simp [outTok]) (by
              intro _ x hx
              rcases List.mem_append.mp hx with h | h
              · obtain ⟨t, _, rfl⟩ := List.mem_map.mp h
                exact le_refl _
              · simp only [List.mem_singleton] at h
                subst h; exact Nat.le_add_right _ _)
          obtain ⟨n', h'⟩ := fin (.tau hact (by
            simp only [react, ha, hf, hfin, if_true, Bool.false_eq_true, if_false]
            simpa [Function.comp_def] using h))
          exact ⟨n', O, h', hO⟩
      · simp only [hf, Bool.false_eq_true, if_false] at hPo ⊢
        match hproc : o.process o.st ((M.map (·.1.1)).filterMap Tok.chunk?) with
        | .error e =>
          simp only [hproc] at hPo ⊢
          obtain ⟨n, O, h, hO⟩ := abort (fun p => hPo p (by simp))
          obtain ⟨n', h'⟩ := fin (.tau hact (by simp only [react, ha, hf, hproc, if_true, Bool.false_eq_true, if_false]; exact h))
          exact ⟨n', O, h', hO⟩
        | .ok (st', c) =>
          simp only [hproc] at hPo ⊢
          have ht := tails_terminated (M := M.map (fun p => ((p.1.1, p.2.map Prod.fst) : Tok C × List (Tok C)))) (by
              intro p hp
              obtain ⟨x, hx, rfl⟩ := List.mem_map.mp hp
              exact allT x hx) (by rw [hd]; simpa using ha) (by rw [hd]; simpa using hf)
          obtain ⟨n, O, h, hO⟩ := ih (M.map Prod.snd) τs { o with st := st' } τ J (by
              match M, hM with
              | p :: M, _ => simpa using hm) (by simpa using hM) (by
              intro l hl
              obtain ⟨x, hx, rfl⟩ := List.mem_map.mp hl
              exact ht _ (List.mem_map.mpr ⟨x, hx, rfl⟩)) (by
              refine ⟨by simpa using hIl, ?_⟩
              intro k hk
              obtain ⟨q, h1, _, h3⟩ := hJk k (by simpa using hk)
              exact ⟨q, h1, by rw [h3]; simp⟩) (by
              match M, hM with
              | p :: M, _ =>
                simp only [List.map_cons, List.headD_cons, List.cons.injEq] at hτ
                exact hτ.2) (by
              intro p l hl
              obtain ⟨x, hx, rfl⟩ := List.mem_map.mp hl
              exact hτ2 p x hx) (by
              intro p l hl
              obtain ⟨x, hx, rfl⟩ := List.mem_map.mp hl
              exact no_abort_cons (t := x.1.1) (by simpa using hPa p _ (List.mem_map.mpr ⟨x, hx, rfl⟩))) (by
              intro p hc
              exact hPo p (List.mem_append.mpr (Or.inr hc))) (fun p => (List.pairwise_cons.mp (hinc p)).2)
              (fun p τ' h' => le_of_lt ((List.pairwise_cons.mp (hinc p)).1 τ' h'))
          obtain ⟨n', O', h', hO'⟩ := run_sending hn h ((outTok c).map (fun t => (t, τ))) τ (by
              intro _ x hx
              obtain ⟨t, _, rfl⟩ := List.mem_map.mp hx
              exact le_refl _) (by intro _; cases c <;> simp [outTok]) (fun _ => le_refl _) (by
              intro _ x hx
              obtain ⟨t, _, rfl⟩ := List.mem_map.mp hx
              exact le_refl _)
          obtain ⟨n'', h''⟩ := fin (.tau hact (by
            simp only [react, ha, hf, hproc, Bool.false_eq_true, if_false]
            have e : ((outTok c).map (fun t => (t, τ))).map Prod.fst = outTok c := by simp [Function.comp_def]
            rw [e] at h'
            exact h'))
          exact ⟨n'', O', h'', fun q hq => by rw [hO' q hq, hO q hq]⟩

/-! ### The graph -/

theorem runAll_prefix : ∀ (gs : List (GNode C R)) (acc : List (List (Tok C) × Thread C R)) (i : Nat), i < acc.length →
    (runAll gs acc)[i]? = acc[i]?
  | [], _, _, _ => rfl
  | g :: gs, acc, i, h => by
    rw [runAll, runAll_prefix gs _ i (by simp; omega), List.getElem?_append_left h]

theorem runAll_get : ∀ (gs : List (GNode C R)) (acc : List (List (Tok C) × Thread C R)) (j : Nat),
    (runAll gs acc)[acc.length + j]? = gs[j]?.map (nodeRun (fun i => if i < acc.length + j then ((runAll gs acc)[i]?.map Prod.fst).getD [] else []))
  | [], acc, j => by simp [runAll]
  | g :: gs, acc, 0 => by
    simp only [Nat.add_zero, List.getElem?_cons_zero, Option.map_some]
    rw [runAll, runAll_prefix _ _ _ (by simp), List.getElem?_append_right (le_refl _)]
    simp only [Nat.sub_self, List.getElem?_cons_zero, Option.some.injEq]
    congr 1
    funext i
    split
    · rename_i h
      rw [runAll_prefix _ _ _ (by simp; omega), List.getElem?_append_left h]
    · rename_i h
      rw [List.getElem?_eq_none (by omega)]; rfl
  | g :: gs, acc, j + 1 => by
    have ih := runAll_get gs (acc ++ [nodeRun (fun i => (acc[i]?.map Prod.fst).getD []) g]) j
    rw [runAll, List.getElem?_cons_succ]
    rw [List.length_append, List.length_singleton, Nat.add_assoc, Nat.add_comm 1 j] at ih
    exact ih

variable {G : Graph C R} {outs : Nat → List QId}

theorem tokens_prod {i : Nat} {todo : List (Res C)} (h : G[i]? = some (.prod todo)) : G.tokens i = prodTokens todo ∧ G.final i = prodEnd todo := by
  have := runAll_get G [] i
  simp only [List.length_nil, Nat.zero_add, h, Option.map_some, nodeRun] at this
  unfold Graph.tokens Graph.final
  rw [this]
  exact ⟨rfl, rfl⟩

theorem tokens_cons (hv : G.Valid) {i : Nat} {s : List Nat} {o : Obj C R} (h : G[i]? = some (.cons s o)) :
    G.tokens i = (consRun o (rounds (s.map G.tokens))).1 ∧ G.final i = (consRun o (rounds (s.map G.tokens))).2 := by
  have := runAll_get G [] i
  simp only [List.length_nil, Nat.zero_add, h, Option.map_some, nodeRun] at this
  have e : s.map (fun j => if j < i then ((runAll G [])[j]?.map Prod.fst).getD [] else []) = s.map G.tokens := by
    refine List.map_congr_left (fun j hj => ?_)
    have hji : j < i := hv.1 i j (by unfold Graph.sources; rw [h]; exact hj)
    simp only [hji, if_true]
    rfl
  rw [e] at this
  unfold Graph.tokens Graph.final
  rw [this]
  exact ⟨rfl, rfl⟩

theorem tokens_terminated (hv : G.Valid) : ∀ i, i < G.length → Terminated (G.tokens i) := by
  intro i
  induction i using Nat.strong_induction_on with
  | _ i ih =>
    intro hi
    match hg : G[i]? with
    | none => rw [List.getElem?_eq_getElem hi] at hg; cases hg
    | some (.prod todo) => rw [(tokens_prod hg).1]; exact prodTokens_terminated _
    | some (.cons s o) =>
      rw [(tokens_cons hv hg).1]
      refine consRun_terminated _ _ _ rfl (by simpa using hv.2 i s o hg) ?_
      intro l hl
      obtain ⟨j, hj, rfl⟩ := List.mem_map.mp hl
      have hji : j < i := hv.1 i j (by unfold Graph.sources; rw [hg]; exact hj)
      exact ih j hji (by omega)

theorem Run.retime (hp : ¬ P) {now n : Nat} {s f : Thread C R} {I O : QId → List (Tok C × Nat)} (h : Run P ins outsq now s I O n f) :
    ∀ (now' : Nat) (O' : QId → List (Tok C × Nat)), (∀ q, (O' q).map Prod.fst = (O q).map Prod.fst) → Run P ins outsq now' s I O' n f := by
  induction h with
  | halt h hI =>
    intro now' O' hO
    have : O' = fun _ => [] := by
      funext q
      have := hO q
      simpa using this
    subst this
    exact .halt h hI
  | tau h _ ih => intro now' O' hO; exact .tau h (ih now' O' hO)
  | @get now s q k t τ r I O n f h hI ht _ ih => intro now' O' hO; exact .get h hI (fun p => (hp p).elim) (ih τ O' hO)
  | @put now s q t τ s' I O n f h ht _ ih =>
    intro now' O' hO
    have hq := hO q
    rw [Function.update_self] at hq
    match hoq : O' q with
    | [] => rw [hoq] at hq; cases hq
    | (t', τ') :: r =>
      rw [hoq] at hq
      simp only [List.map_cons, List.cons.injEq] at hq
      obtain ⟨rfl, hr⟩ := hq
      have e : O' = Function.update (Function.update O' q r) q ((t', τ') :: (Function.update O' q r) q) := by
        funext q'
        by_cases h' : q' = q
        · subst h'; simp [hoq]
        · rw [updq_ne h', updq_ne h']
      rw [e]
      refine .put h (fun p => (hp p).elim) (ih τ' _ ?_)
      intro q'
      by_cases h' : q' = q
      · subst h'; rw [Function.update_self]; exact hr
      · rw [updq_ne h', hO q', updq_ne h']

theorem rounds_length {β : Type} : ∀ (L : List (List β)), L ≠ [] → (rounds L).length ≤ (L.headD []).length
  | [], h => absurd rfl h
  | [l], _ => by simp [rounds]
  | l :: l' :: L, _ => by
    rw [rounds, List.length_zipWith]
    · exact Nat.min_le_left _ _
    · simp

theorem ins_nodup (i : Nat) : (G.ins i).Nodup := by
  unfold Graph.ins
  exact List.Nodup.map (fun a b h => (Prod.mk.inj h).2) List.nodup_range

theorem zip_fst {β γ : Type} {l : List β} {l' : List γ} (h : l.length ≤ l'.length) : (l.zip l').map Prod.fst = l := by
  rw [List.map_fst_zip h]

theorem zip_eq {β γ : Type} {l : List β} {l' : List γ} {z : List (β × γ)} (h1 : z.map Prod.fst = l) (h2 : z.map Prod.snd = l') : z = l.zip l' := by
  subst h1 h2
  induction z with
  | nil => rfl
  | cons a z ih => simp only [List.map_cons, List.zip_cons_cons, ← ih]

theorem clocked_length (hv : G.Valid) {T : Nat → List Nat} (h : G.Clocked T) : ∀ i, i < G.length → (T i).length = (G.tokens i).length := by
  intro i
  induction i using Nat.strong_induction_on with
  | _ i ih =>
    intro hi
    match hg : G[i]? with
    | none => rw [List.getElem?_eq_getElem hi] at hg; cases hg
    | some (.prod todo) => rw [(tokens_prod hg).1]; exact (h.prod i todo hg).1
    | some (.cons s o) =>
      have hs := hv.2 i s o hg
      match s, hs with
      | j :: s, _ =>
        have hji : j < i := hv.1 i j (by unfold Graph.sources; rw [hg]; exact List.mem_cons_self)
        rw [(tokens_cons hv hg).1, h.cons i _ o hg, ← consTimed_fst _ (T j)]
        · simp
        · rw [ih j hji (by omega)]
          exact le_trans (rounds_length _ (by simp)) (by simp)

theorem clocked_inc (hv : G.Valid) {T : Nat → List Nat} (h : G.Clocked T) : ∀ i, i < G.length → (T i).Pairwise (· < ·) := by
  intro i
  induction i using Nat.strong_induction_on with
  | _ i ih =>
    intro hi
    match hg : G[i]? with
    | none => rw [List.getElem?_eq_getElem hi] at hg; cases hg
    | some (.prod todo) => exact (h.prod i todo hg).2
    | some (.cons s o) =>
      have hs := hv.2 i s o hg
      match s, hs with
      | j :: s, _ =>
        have hji : j < i := hv.1 i j (by unfold Graph.sources; rw [hg]; exact List.mem_cons_self)
        rw [h.cons i _ o hg]
        exact consTimed_inc _ _ _ (ih j hji (by omega))

theorem init_inv (hv : G.Valid) (hw : G.Wired outs) (T : Nat → List Nat) (hlen : ∀ i, i < G.length → (T i).length = (G.tokens i).length)
    {B : Nat} (hBd : ∀ i, i < G.length → (G.tokens i).length ≤ B)
    (hP : P → G.Clocked T ∧ G.NoFailure) : ∃ N, EInv P B G outs G.final N G.init ∧ ∀ i, G.length ≤ i → N i = 0 := by
  let TT : Nat → List (Tok C × Nat) := fun i => (G.tokens i).zip (T i)
  have fstTT : ∀ i, i < G.length → (TT i).map Prod.fst = G.tokens i := fun i hi => zip_fst (by rw [hlen i hi])
  have sndTT : ∀ i, i < G.length → (TT i).map Prod.snd = T i := fun i hi => by
    show List.map Prod.snd (List.zip _ _) = _
    rw [List.map_snd_zip (by rw [hlen i hi])]
  let F : QId → List (Tok C × Nat) := fun q => if q.2 < (G.sources q.1).length then TT (G.writer q) else []
  have hsrc : ∀ q : QId, q.2 < (G.sources q.1).length → G.writer q < G.length := by
    intro q hq
    have h1 : q ∈ G.ins q.1 := mem_ins.mpr ⟨rfl, hq⟩
    have h2 := writer_lt hv h1
    have h3 : q.1 < G.length := by
      by_contra hc
      unfold Graph.sources at hq
      rw [List.getElem?_eq_none (by omega)] at hq
      simp at hq
    omega
  have key : ∀ i, ∃ n, (∃ now O, Run P (G.ins i) (outs i) now (G.init.loc i) F O n (G.final i) ∧ ∀ q ∈ outs i, O q = F q) ∧
      (G.length ≤ i → n = 0) := by
    intro i
    have hF : ∀ q ∈ outs i, F q = TT i := by
      intro q hq
      obtain ⟨h1, h2⟩ := ((hw i).2 q).mp hq
      show (if _ then _ else _) = _
      rw [if_pos h1, h2]
    match hg : G[i]? with
    | none =>
      have hi : G.length ≤ i := List.getElem?_eq_none_iff.mp hg
      refine ⟨0, ⟨0, fun _ => [], ?_, ?_⟩, fun _ => rfl⟩
      · have e1 : G.init.loc i = .aborted := by simp [Graph.init, hg]
        have e2 : G.final i = .aborted := by
          have := runAll_get G [] i
          simp only [List.length_nil, Nat.zero_add, hg, Option.map_none] at this
          unfold Graph.final; rw [this]; rfl
        rw [e1, e2]
        refine .halt rfl (fun _ q hq => ?_)
        have := (mem_ins.mp hq).2
        unfold Graph.sources at this
        rw [hg] at this
        simp at this
      · intro q hq
        obtain ⟨h1, h2⟩ := ((hw i).2 q).mp hq
        have := hsrc q h1
        omega
    | some (.prod todo) =>
      have hi : i < G.length := (List.getElem?_eq_some_iff.mp hg).1
      obtain ⟨ht, hf⟩ := tokens_prod hg
      have hins : G.ins i = [] := by simp [Graph.ins, Graph.sources, hg, GNode.sources]
      have e1 : G.init.loc i = .producer todo := by simp [Graph.init, hg, GNode.start]
      obtain ⟨n, O, h, hO⟩ := run_producer (P := P) (R := R) (hw i).1 hins (I := F) todo (T i) 0 (by rw [hlen i hi, ht])
        (fun p => ((hP p).1.prod i todo hg).2) (by simp)
      refine ⟨n, ⟨0, O, by rw [e1, hf]; exact h, fun q hq => ?_⟩, fun h => by omega⟩
      rw [hO q hq, hF q hq, ← ht]
    | some (.cons s o) =>
      have hi : i < G.length := (List.getElem?_eq_some_iff.mp hg).1
      obtain ⟨ht, hf⟩ := tokens_cons hv hg
      have hsi : G.sources i = s := by simp [Graph.sources, hg, GNode.sources]
      have e1 : G.init.loc i = .consumer o [] := by simp [Graph.init, hg, GNode.start]
      have hlt : ∀ j ∈ s, j < G.length := by
        intro j hj
        have := hv.1 i j (by rw [hsi]; exact hj)
        omega
      have hs := hv.2 i s o hg
      have efst : (s.map TT).map (List.map Prod.fst) = s.map G.tokens := by
        rw [List.map_map]
        exact List.map_congr_left (fun j hj => fstTT j (hlt j hj))
      obtain ⟨n, O, h, hO⟩ := run_consumer (P := P) (ins_nodup (G := G) i) (hw i).1 _ (s.map TT) (T (s.headD 0)) o 0 F rfl (by simpa using hs) (by
          intro l hl
          obtain ⟨j, hj, rfl⟩ := List.mem_map.mp hl
          rw [fstTT j (hlt j hj)]
          exact tokens_terminated hv j (hlt j hj)) (by
          refine ⟨by simp [Graph.ins, hsi], ?_⟩
          intro k hk
          simp only [List.length_map] at hk
          refine ⟨(i, k), by simp [Graph.ins, hsi, hk], ?_⟩
          show (if _ then _ else _) = _
          rw [if_pos (by simpa [hsi] using hk)]
          simp [Graph.writer, hsi, hk]) (by
          match s, hs, hlt with
          | j :: s, _, hlt => exact sndTT j (hlt j (by simp))) (by
          intro p l hl
          obtain ⟨j, hj, rfl⟩ := List.mem_map.mp hl
          rw [sndTT j (hlt j hj)]
          exact (hP p).1.same i s o hg j hj) (by
          intro p l hl
          obtain ⟨j, hj, rfl⟩ := List.mem_map.mp hl
          rw [fstTT j (hlt j hj)]
          exact (hP p).2 j) (by
          intro p
          rw [efst, ← ht]
          exact (hP p).2 i) (by
          intro p
          match s, hs, hlt with
          | j :: s, _, hlt => exact clocked_inc hv (hP p).1 j (hlt j (by simp))) (by simp)
      rw [efst] at h hO
      have hfst : (consTimed o (rounds (s.map G.tokens)) (T (s.headD 0))).map Prod.fst = G.tokens i := by
        rw [ht, consTimed_fst]
        match s, hs, hlt with
        | j :: s, _, hlt =>
          show _ ≤ (T j).length
          rw [hlen j (hlt j (by simp))]
          exact le_trans (rounds_length _ (by simp)) (by simp)
      by_cases p : P
      · refine ⟨n, ⟨0, O, by rw [e1, hf]; exact h, fun q hq => ?_⟩, fun h => by omega⟩
        rw [hO q hq, hF q hq]
        exact zip_eq hfst ((hP p).1.cons i s o hg).symm
      · refine ⟨n, ⟨0, fun q => if q ∈ outs i then F q else O q, by
          rw [e1, hf]
          refine h.retime p 0 _ (fun q => ?_)
          by_cases hq : q ∈ outs i
          · rw [if_pos hq, hF q hq, hO q hq, hfst, fstTT i hi]
          · rw [if_neg hq], fun q hq => if_pos hq⟩, fun h => by omega⟩
  refine ⟨fun i => (key i).choose, ⟨fun _ => [], F, fun _ => rfl, ?_, ?_, ?_⟩, fun i hi => (key i).choose_spec.2 hi⟩
  · intro q
    show ([] ++ F q).length ≤ B ∧ ∀ x ∈ [] ++ F q, _
    have hFq : F q = if _ then _ else _ := rfl
    rw [hFq]
    split
    · rename_i hq
      have h1 := congrArg List.length (fstTT _ (hsrc q hq))
      rw [List.length_map] at h1
      rw [List.nil_append, h1]
      refine ⟨hBd _ (hsrc q hq), fun x hx => ?_⟩
      rw [Graph.traffic, if_pos hq, ← fstTT _ (hsrc q hq)]
      exact List.mem_map_of_mem hx
    · simp
  · intro p q
    show (List.map Prod.snd ([] ++ (if _ then _ else _))).Pairwise _
    split
    · rename_i hq
      rw [List.nil_append, sndTT _ (hsrc q hq)]
      exact clocked_inc hv (hP p).1 _ (hsrc q hq)
    · simp
  · intro i
    exact (key i).choose_spec.1

theorem tokens_bounded (G : Graph C R) : ∃ B, ∀ i, i < G.length → (G.tokens i).length ≤ B :=
  ⟨((List.range G.length).map (fun i => (G.tokens i).length)).sum, fun i hi =>
    mem_le_sum (List.mem_map.mpr ⟨i, List.mem_range.mpr hi, rfl⟩)⟩

end Biggus

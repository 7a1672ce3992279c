import Verif.Spec.Schedules
import Mathlib.Algebra.BigOperators.Group.Finset.Basic
/-
Executions of the threaded engine: steps of different threads commute, so all schedules have the same outcome.
-/
namespace Biggus

variable {C R : Type} {G : Graph C R} {outs : Nat → List QId} {cap : Nat}

theorem act_get {ins outs : List QId} {s : Thread C R} {q : QId} {k : Tok C → Thread C R} (h : threadAct ins outs s = .get q k) :
    q ∈ ins := by
  unfold threadAct at h
  split at h <;> try (cases h; done)
  · split at h
    · cases h; rename_i h; exact List.mem_of_getElem? h
    · cases h
  · split at h <;> cases h

theorem act_put {ins outs : List QId} {s s' : Thread C R} {q : QId} {t : Tok C} (h : threadAct ins outs s = .put q t s') : q ∈ outs := by
  unfold threadAct at h
  split at h <;> try (cases h; done)
  · split at h <;> cases h
  · split at h
    · cases h; rename_i h; exact List.mem_of_getElem? h
    · cases h

theorem mem_ins {i : Nat} {q : QId} : q ∈ G.ins i ↔ q.1 = i ∧ q.2 < (G.sources i).length := by
  unfold Graph.ins
  simp only [List.mem_map, List.mem_range]
  constructor
  · rintro ⟨k, hk, rfl⟩; exact ⟨rfl, hk⟩
  · rintro ⟨rfl, h⟩; exact ⟨q.2, h, rfl⟩

theorem outs_wired (hw : G.Valid) : G.Wired G.outs := by
  intro j
  have hlen : ∀ q : QId, q.2 < (G.sources q.1).length → q.1 < G.length := by
    intro q h
    unfold Graph.sources at h
    by_contra hc
    rw [List.getElem?_eq_none (by omega)] at h
    simp at h
  refine ⟨?_, fun q => ?_⟩
  · unfold Graph.outs
    refine List.Nodup.filter _ ?_
    rw [List.nodup_flatMap]
    refine ⟨fun i _ => ?_, ?_⟩
    · unfold Graph.ins
      exact List.Nodup.map (fun a b h => by simpa using h) List.nodup_range
    · refine List.Pairwise.imp ?_ List.nodup_range
      intro a b hab q ha hb
      exact hab ((mem_ins.mp ha).1.symm.trans (mem_ins.mp hb).1)
  · unfold Graph.outs
    simp only [List.mem_filter, List.mem_flatMap, List.mem_range, mem_ins, beq_iff_eq]
    constructor
    · rintro ⟨⟨i, _, rfl, h⟩, h'⟩; exact ⟨h, h'⟩
    · rintro ⟨h, h'⟩; exact ⟨⟨q.1, hlen q h, rfl, h⟩, h'⟩

/-! ### Steps commute -/

theorem step_halt {i : Nat} {c : Conf C R} (h : threadAct (G.ins i) (outs i) (c.loc i) = .halt) : G.step outs cap i c = none := by
  unfold Graph.step; rw [h]

theorem step_tau {i : Nat} {c : Conf C R} {s} (h : threadAct (G.ins i) (outs i) (c.loc i) = .tau s) :
    G.step outs cap i c = some ⟨Function.update c.loc i s, c.que⟩ := by
  unfold Graph.step; rw [h]

theorem step_get {i : Nat} {c : Conf C R} {q k} (h : threadAct (G.ins i) (outs i) (c.loc i) = .get q k) :
    G.step outs cap i c = match c.que q with
      | [] => none
      | t :: r => some ⟨Function.update c.loc i (k t), Function.update c.que q r⟩ := by
  unfold Graph.step; rw [h]; rfl

theorem step_put {i : Nat} {c : Conf C R} {q t s} (h : threadAct (G.ins i) (outs i) (c.loc i) = .put q t s) :
    G.step outs cap i c = if (c.que q).length < cap then
      some ⟨Function.update c.loc i s, Function.update c.que q (c.que q ++ [t])⟩ else none := by
  unfold Graph.step; rw [h]

/-- A step, described by its effect. -/
inductive StepOf (G : Graph C R) (outs : Nat → List QId) (cap i : Nat) (c : Conf C R) : Conf C R → Prop
  | tau {s} : threadAct (G.ins i) (outs i) (c.loc i) = .tau s → StepOf G outs cap i c ⟨Function.update c.loc i s, c.que⟩
  | get {q k t r} : threadAct (G.ins i) (outs i) (c.loc i) = .get q k → c.que q = t :: r →
      StepOf G outs cap i c ⟨Function.update c.loc i (k t), Function.update c.que q r⟩
  | put {q t s} : threadAct (G.ins i) (outs i) (c.loc i) = .put q t s → (c.que q).length < cap →
      StepOf G outs cap i c ⟨Function.update c.loc i s, Function.update c.que q (c.que q ++ [t])⟩

theorem step_iff {i : Nat} {c d : Conf C R} : G.step outs cap i c = some d ↔ StepOf G outs cap i c d := by
  constructor
  · intro h
    match ha : threadAct (G.ins i) (outs i) (c.loc i) with
    | .halt => rw [step_halt ha] at h; cases h
    | .tau s => rw [step_tau ha] at h; cases h; exact .tau ha
    | .get q k =>
      rw [step_get ha] at h
      split at h
      · cases h
      · rename_i t r hq; cases h; exact .get ha hq
    | .put q t s =>
      rw [step_put ha] at h
      split at h
      · rename_i hq; cases h; exact .put ha hq
      · cases h
  · intro h
    cases h with
    | tau ha => exact step_tau ha
    | get ha hq => rw [step_get ha, hq]
    | put ha hq => rw [step_put ha, if_pos hq]

theorem update_ne {β : Type _} {f : Nat → β} {i j : Nat} {x : β} (h : j ≠ i) : Function.update f i x j = f j := by
  simp [Function.update, h]

theorem updq_ne {β : Type _} {f : QId → β} {i j : QId} {x : β} (h : j ≠ i) : Function.update f i x j = f j := by
  simp [Function.update, h]

theorem StepOf.tau' {i : Nat} {c d : Conf C R} {s} (h : threadAct (G.ins i) (outs i) (c.loc i) = .tau s)
    (hl : d.loc = Function.update c.loc i s) (hq : d.que = c.que) : StepOf G outs cap i c d := by
  obtain ⟨l, u⟩ := d
  simp only at hl hq
  subst hl hq
  exact .tau h

theorem StepOf.get' {i : Nat} {c d : Conf C R} {q k t r} (h : threadAct (G.ins i) (outs i) (c.loc i) = .get q k) (hc : c.que q = t :: r)
    (hl : d.loc = Function.update c.loc i (k t)) (hq : d.que = Function.update c.que q r) : StepOf G outs cap i c d := by
  obtain ⟨l, u⟩ := d
  simp only at hl hq
  subst hl hq
  exact .get h hc

theorem StepOf.put' {i : Nat} {c d : Conf C R} {q t s} (h : threadAct (G.ins i) (outs i) (c.loc i) = .put q t s)
    (hc : (c.que q).length < cap) (hl : d.loc = Function.update c.loc i s) (hq : d.que = Function.update c.que q (c.que q ++ [t])) :
    StepOf G outs cap i c d := by
  obtain ⟨l, u⟩ := d
  simp only at hl hq
  subst hl hq
  exact .put h hc

/-- Steps of different threads commute. -/
theorem diamond (hw : G.Wired outs) {i j : Nat} (hij : i ≠ j) {c d e : Conf C R} (h1 : G.step outs cap i c = some d)
    (h2 : G.step outs cap j c = some e) : ∃ f, G.step outs cap j d = some f ∧ G.step outs cap i e = some f := by
  have rd : ∀ {i q k} {s : Thread C R}, threadAct (G.ins i) (outs i) s = .get q k → q.1 = i := fun h => (mem_ins.mp (act_get h)).1
  have wr : ∀ {i q t s'} {s : Thread C R}, threadAct (G.ins i) (outs i) s = .put q t s' → G.writer q = i :=
    fun h => (((hw _).2 _).mp (act_put h)).2
  simp only [step_iff] at *
  have hji : j ≠ i := Ne.symm hij
  have lc : ∀ (x y : Thread C R), Function.update (Function.update c.loc i x) j y = Function.update (Function.update c.loc j y) i x :=
    fun x y => Function.update_comm hij x y c.loc
  cases h1 with
  | @tau s a1 =>
    cases h2 with
    | @tau s' a2 =>
      exact ⟨⟨Function.update (Function.update c.loc i s) j s', c.que⟩, .tau' (s := s') (by simpa [update_ne hji] using a2) rfl rfl,
        .tau' (s := s) (by simpa [update_ne hij] using a1) (lc _ _) rfl⟩
    | @get q k t r a2 q2 =>
      exact ⟨⟨Function.update (Function.update c.loc i s) j (k t), Function.update c.que q r⟩,
        .get' (by simpa [update_ne hji] using a2) q2 rfl rfl, .tau' (by simpa [update_ne hij] using a1) (lc _ _) rfl⟩
    | @put q t s' a2 q2 =>
      exact ⟨⟨Function.update (Function.update c.loc i s) j s', Function.update c.que q (c.que q ++ [t])⟩,
        .put' (by simpa [update_ne hji] using a2) q2 rfl rfl, .tau' (by simpa [update_ne hij] using a1) (lc _ _) rfl⟩
  | @get q k t r a1 q1 =>
    cases h2 with
    | @tau s' a2 =>
      exact ⟨⟨Function.update (Function.update c.loc i (k t)) j s', Function.update c.que q r⟩,
        .tau' (by simpa [update_ne hji] using a2) rfl rfl, .get' (by simpa [update_ne hij] using a1) q1 (lc _ _) rfl⟩
    | @get q' k' t' r' a2 q2 =>
      have hq : q ≠ q' := fun e => hij (by rw [← rd a1, ← rd a2, e])
      exact ⟨⟨Function.update (Function.update c.loc i (k t)) j (k' t'), Function.update (Function.update c.que q r) q' r'⟩,
        .get' (t := t') (r := r') (by simpa [update_ne hji] using a2) (by simp [updq_ne hq.symm, q2]) rfl rfl,
        .get' (t := t) (r := r) (by simpa [update_ne hij] using a1) (by simp [updq_ne hq, q1]) (lc _ _) (Function.update_comm hq _ _ _)⟩
    | @put q' t' s' a2 q2 =>
      by_cases hq : q = q'
      · subst hq
        refine ⟨⟨Function.update (Function.update c.loc i (k t)) j s', Function.update c.que q (r ++ [t'])⟩,
          .put' (t := t') (by simpa [update_ne hji] using a2) ?_ rfl (by simp),
          .get' (t := t) (r := r ++ [t']) (by simpa [update_ne hij] using a1) (by simp [q1]) (lc _ _) (by simp)⟩
        simp only [q1, List.length_cons] at q2
        simp only [Function.update_self]
        omega
      · exact ⟨⟨Function.update (Function.update c.loc i (k t)) j s', Function.update (Function.update c.que q r) q' (c.que q' ++ [t'])⟩,
          .put' (t := t') (by simpa [update_ne hji] using a2) (by simpa [updq_ne (Ne.symm hq)] using q2) rfl (by simp [updq_ne (Ne.symm hq)]),
          .get' (t := t) (r := r) (by simpa [update_ne hij] using a1) (by simp [updq_ne hq, q1]) (lc _ _) (Function.update_comm hq _ _ _)⟩
  | @put q t s a1 q1 =>
    cases h2 with
    | @tau s' a2 =>
      exact ⟨⟨Function.update (Function.update c.loc i s) j s', Function.update c.que q (c.que q ++ [t])⟩,
        .tau' (by simpa [update_ne hji] using a2) rfl rfl, .put' (by simpa [update_ne hij] using a1) q1 (lc _ _) rfl⟩
    | @get q' k' t' r' a2 q2 =>
      by_cases hq : q = q'
      · subst hq
        refine ⟨⟨Function.update (Function.update c.loc i s) j (k' t'), Function.update c.que q (r' ++ [t])⟩,
          .get' (t := t') (r := r' ++ [t]) (by simpa [update_ne hji] using a2) (by simp [q2]) rfl (by simp),
          .put' (t := t) (by simpa [update_ne hij] using a1) ?_ (lc _ _) (by simp)⟩
        simp only [q2, List.length_cons] at q1
        simp only [Function.update_self]
        omega
      · exact ⟨⟨Function.update (Function.update c.loc i s) j (k' t'), Function.update (Function.update c.que q (c.que q ++ [t])) q' r'⟩,
          .get' (t := t') (r := r') (by simpa [update_ne hji] using a2) (by simp [updq_ne (Ne.symm hq), q2]) rfl rfl,
          .put' (t := t) (by simpa [update_ne hij] using a1) (by simpa [updq_ne hq] using q1) (lc _ _)
            (by simp only [updq_ne hq]; exact Function.update_comm hq _ _ _)⟩
    | @put q' t' s' a2 q2 =>
      have hq : q ≠ q' := fun e => hij (by rw [← wr a1, ← wr a2, e])
      exact ⟨⟨Function.update (Function.update c.loc i s) j s', Function.update (Function.update c.que q (c.que q ++ [t])) q' (c.que q' ++ [t'])⟩,
        .put' (t := t') (by simpa [update_ne hji] using a2) (by simpa [updq_ne hq.symm] using q2) rfl (by simp [updq_ne hq.symm]),
        .put' (t := t) (by simpa [update_ne hij] using a1) (by simpa [updq_ne hq] using q1) (lc _ _)
          (by simp only [updq_ne hq]; exact Function.update_comm hq _ _ _)⟩

/-- Whatever step is made, a given way to the end can still be taken. -/
theorem step_towards (hw : G.Wired outs) {n : Nat} {c d e : Conf C R} {i : Nat} (h : G.step outs cap i c = some d)
    (he : G.Steps outs cap n c e) (hs : G.Stuck outs cap e) : ∃ n', n = n' + 1 ∧ G.Steps outs cap n' d e := by
  induction n generalizing c d i with
  | zero => cases he; rw [hs i] at h; cases h
  | succ n ih =>
    refine ⟨n, rfl, ?_⟩
    cases he with
    | @step _ _ c1 _ j hj he =>
      by_cases hij : i = j
      · subst hij
        rw [h] at hj; cases hj; exact he
      · obtain ⟨f, f1, f2⟩ := diamond hw hij h hj
        obtain ⟨n', rfl, hf⟩ := ih f2 he
        exact .step j f1 hf

theorem steps_towards (hw : G.Wired outs) {k : Nat} {c d : Conf C R} (hd : G.Steps outs cap k c d) :
    ∀ {n : Nat} {e : Conf C R}, G.Steps outs cap n c e → G.Stuck outs cap e → ∃ n', n = k + n' ∧ G.Steps outs cap n' d e := by
  induction hd with
  | refl c => intro n e h _; exact ⟨n, by omega, h⟩
  | @step k c c1 d i hi _ ih =>
    intro n e h hs
    obtain ⟨n', rfl, h'⟩ := step_towards hw hi h hs
    obtain ⟨n'', rfl, h''⟩ := ih h' hs
    exact ⟨n'', by omega, h''⟩

theorem Graph.Steps.trans {k n : Nat} {c d e : Conf C R} (h1 : G.Steps outs cap k c d) (h2 : G.Steps outs cap n d e) :
    G.Steps outs cap (k + n) c e := by
  induction h1 with
  | refl c => simpa using h2
  | step i hi _ ih => rw [Nat.add_right_comm]; exact .step i hi (ih h2)

end Biggus

import Verif.Proofs.DaskMake
/-
The graph of a list of arrays, and its executions.
-/
namespace Biggus

variable {α V : Type} [Inhabited α] [Inhabited V] {heap : Nat → AObj α} {m : Mode α V} {limit : Nat} {evalP : Arr α → Res (NDA V)}

/-- The `collect` tasks made so far give the arrays. -/
def TopsOk (heap : Nat → AObj α) (m : Mode α V) (tasks : List (DTask α)) (v : Nat → DVal V) (tops : List (Nat × Nat)) : Prop :=
  ∀ id t, tops.lookup id = some t → t < tasks.length ∧ ∃ r, v t = .array r ∧ r ≈ₐ (heap id).toArr.den m

theorem TopsOk.mono {tasks ts : List (DTask α)} {v v' : Nat → DVal V} {tops : List (Nat × Nat)} (h : TopsOk heap m tasks v tops)
    (hv : ∀ i, i < tasks.length → v' i = v i) : TopsOk heap m (tasks ++ ts) v' tops := by
  intro id t ht
  obtain ⟨h1, r, h2, h3⟩ := h id t ht
  exact ⟨by rw [List.length_append]; omega, r, by rw [hv t h1]; exact h2, h3⟩

theorem DVals.chunks_toChunk {tasks : List (DTask α)} {v : Nat → DVal V} {A : NDA V} {cuts : List (List Key)} {ids order : List Nat} {cs : List (Chunk V)}
    {D : List (List PySlice)} (h : NodeOk A cuts tasks v ids order cs D) : (ids.map v).mapM DVal.toChunk = .ok cs ∧ ∀ i ∈ ids, i < tasks.length := by
  constructor
  · rw [mapM_ok_iff, List.forall₂_map_left_iff]
    exact h.chunks.imp (fun i c hc => by rw [hc.1]; rfl)
  · intro i hi
    obtain ⟨j, hj, rfl⟩ := List.getElem_of_mem hi
    have hj' : j < cs.length := by rw [← h.chunks.length_eq]; exact hj
    obtain ⟨_, t, K, h2, _⟩ := h.chunks.get hj hj'
    exact (List.getElem?_eq_some_iff.mp h2).1

/-- What is needed of an array for its graph to be right. -/
structure DaskAsked (heap : Nat → AObj α) (m : Mode α V) (limit : Nat) (G : Arr α → Prop) (x : AObj α) : Prop where
  inHeap : x.inHeap heap
  proper : x.Proper
  wf : x.toArr.WF
  ok : x.toArr.Ok m limit .sliced
  good : x.toArr.streamGood m limit G
  few : x.toArr.fewChunks limit

theorem daskGraph_ok {G : Arr α → Prop} (hE : ∀ b : Arr α, b.WF → G b → ∃ r, evalP b = .ok r ∧ r ≈ₐ b.den m) : ∀ (xs : List (AObj α)) (b : DBuild α)
    (tops : List (Nat × Nat)) (v : Nat → DVal V), (∀ x ∈ xs, DaskAsked heap m limit G x) → DaskInv heap m limit evalP b v → TopsOk heap m b.tasks v tops →
    ∃ ids b' v' ts, daskGraph m limit xs b tops = .ok (ids, b') ∧ b'.tasks = b.tasks ++ ts ∧ (∀ i, i < b.tasks.length → v' i = v i) ∧
      DVals m evalP b'.tasks v' ∧ List.Forall₂ (fun x t => t < b'.tasks.length ∧ ∃ r, v' t = .array r ∧ r ≈ₐ (AObj.toArr x).den m) xs ids
  | [], b, tops, v, _, hb, _ => ⟨[], b, v, [], rfl, by simp, fun _ _ => rfl, hb.vals, .nil⟩
  | x :: xs, b, tops, v, hx, hb, ht => by
    obtain ⟨a1, a2, a3, a4, a5, a6⟩ := hx x (by simp)
    have hs := a3.shape_eq m
    obtain ⟨ids, b1, v1, ts1, m1, m2, m3, m4, m5⟩ := makeDask_ok hE x (List.range (x.toArr.den m).shape.length) b v a1 a2 a3 a4 a5 a6 (List.Perm.refl _) hb
    have ht1 : TopsOk heap m b1.tasks v1 tops := by rw [m2]; exact ht.mono m3
    cases hl : tops.lookup x.id with
    | some t =>
      obtain ⟨ids', b', v', ts, k1, k2, k3, k4, k5⟩ := daskGraph_ok hE xs b1 tops v1 (fun y hy => hx y (List.mem_cons_of_mem _ hy)) m4 ht1
      obtain ⟨t1, r, t2, t3⟩ := ht1 _ _ hl
      refine ⟨t :: ids', b', v', ts1 ++ ts, ?_, ?_, ?_, k4, .cons ⟨?_, r, ?_, ?_⟩ k5⟩
      · unfold daskGraph
        simp only [hs, m1, hl, k1, bind, Except.bind]
        rfl
      · rw [k2, m2, List.append_assoc]
      · intro i hi
        rw [k3 i (by rw [m2, List.length_append]; omega), m3 i hi]
      · rw [k2, List.length_append]; omega
      · rw [k3 t t1]; exact t2
      · rwa [inHeap_id a1] at t3
    | none =>
      obtain ⟨order, cs, D, hnode⟩ := m5
      obtain ⟨w1, w2⟩ := skel_shape m x.toArr a3
      have hc := x.toArr.skel.cutsOk limit w1
      rw [w2] at hc
      obtain ⟨r, r1, r2⟩ := hnode.stream.assemble hc hnode.perm
      obtain ⟨c1, c2⟩ := DVals.chunks_toChunk hnode
      obtain ⟨v2, e1, e2, e3⟩ := m4.vals.extend (ts := [.gather (x.toArr.den m).shape ids]) (ws := [.array r]) (.cons ⟨c2, by
        unfold DTask.run
        show (do let cs ← (ids.map v1).mapM DVal.toChunk; let r ← assemble (x.toArr.den m).shape cs; return DVal.array r : Res (DVal V)) = _
        rw [c1]
        simp only [r1, bind, Except.bind, pure, Except.pure]⟩ .nil)
      have e4 := e3 0 (.array r) rfl
      rw [Nat.add_zero] at e4
      have hb2 : DaskInv heap m limit evalP ⟨b1.tasks ++ [.gather (x.toArr.den m).shape ids], b1.cache⟩ v2 :=
        ⟨e2, fun id ids hl => (m4.cached id ids hl).mono e1⟩
      have ht2 : TopsOk heap m (b1.tasks ++ [.gather (x.toArr.den m).shape ids]) v2 ((x.id, b1.tasks.length) :: tops) := by
        intro id t h
        rw [List.lookup_cons] at h
        by_cases he : id = x.id
        · subst he
          simp only [beq_self_eq_true] at h
          cases h
          exact ⟨by simp, r, e4, by rw [inHeap_id a1]; exact r2⟩
        · have : (id == x.id) = false := by simpa using he
          rw [this] at h
          exact (ht1.mono e1) id t h
      obtain ⟨ids', b', v', ts, k1, k2, k3, k4, k5⟩ := daskGraph_ok hE xs _ _ v2 (fun y hy => hx y (List.mem_cons_of_mem _ hy)) hb2 ht2
      simp only [List.length_append, List.length_singleton] at k3
      refine ⟨b1.tasks.length :: ids', b', v', ts1 ++ [.gather (x.toArr.den m).shape ids] ++ ts, ?_, ?_, ?_, k4, .cons ⟨?_, r, ?_, r2⟩ k5⟩
      · unfold daskGraph
        simp only [hs, m1, hl, k1, bind, Except.bind]
        rfl
      · rw [k2, m2]; simp [List.append_assoc]
      · intro i hi
        have hi' : i < b1.tasks.length := by rw [m2, List.length_append]; omega
        rw [k3 i (by omega), e1 i hi', m3 i hi]
      · rw [k2]; simp
      · rw [k3 _ (by omega)]; exact e4

/-! ### Executions -/

/-- Everything computed so far is right. -/
def DoneOk (tasks : List (DTask α)) (v : Nat → DVal V) (d : Done V) : Prop := ∀ i w, d i = some w → i < tasks.length ∧ w = v i

variable {tasks : List (DTask α)} {v : Nat → DVal V}

theorem doneOk_empty : DoneOk tasks v (fun _ => none) := fun _ _ h => by cases h

theorem mapM_done {d : Done V} (hd : DoneOk tasks v d) : ∀ {l : List Nat} {args : List (DVal V)}, l.mapM d = some args → args = l.map v
  | [], args, h => by cases h; rfl
  | i :: l, args, h => by
    rw [List.mapM_cons] at h
    cases h1 : d i with
    | none => rw [h1] at h; cases h
    | some w =>
      cases h2 : l.mapM d with
      | none => rw [h1, h2] at h; cases h
      | some r =>
        rw [h1, h2] at h
        cases h
        rw [List.map_cons, (hd i w h1).2, mapM_done hd h2]

theorem ready_value (hv : DVals m evalP tasks v) {d : Done V} (hd : DoneOk tasks v d) {i : Nat} {r : Res (DVal V)} (h : DaskReady m evalP tasks d i r) :
    i < tasks.length ∧ d i = none ∧ r = .ok (v i) := by
  obtain ⟨t, args, h1, h2, h3, h4⟩ := h
  refine ⟨(List.getElem?_eq_some_iff.mp h1).1, h2, ?_⟩
  rw [mapM_done hd h3, (hv i t h1).2] at h4
  exact h4.symm

theorem DoneOk.set {d : Done V} (hd : DoneOk tasks v d) {i : Nat} (hi : i < tasks.length) : DoneOk tasks v (fun j => if j = i then some (v i) else d j) := by
  intro j w h
  by_cases he : j = i
  · simp only [he, if_true, Option.some.injEq] at h
    exact ⟨he ▸ hi, by rw [he, ← h]⟩
  · simp only [he, if_false] at h
    exact hd j w h

/-- How many tasks have not been executed. -/
def todo (n : Nat) (d : Done V) : Nat := (List.range n).countP (fun i => (d i).isNone)

theorem todo_set {d : Done V} {i : Nat} {w : DVal V} (h : d i = none) : ∀ {n : Nat}, i < n → todo n (fun j => if j = i then some w else d j) + 1 = todo n d := by
  have hge : ∀ n, n ≤ i → todo n (fun j => if j = i then some w else d j) = todo n d := by
    intro n hn
    unfold todo
    refine List.countP_congr ?_
    intro j hj
    have : j ≠ i := by have := List.mem_range.mp hj; omega
    simp only [this, if_false]
  intro n hn
  induction n with
  | zero => omega
  | succ n ih =>
    unfold todo at *
    rw [List.range_succ, List.countP_append, List.countP_append, List.countP_singleton, List.countP_singleton]
    by_cases he : n = i
    · rw [hge n (by omega)]
      subst he
      simp [h]
    · have := ih (by omega)
      simp only [he, if_false] at this ⊢
      omega

theorem steps_ok (hv : DVals m evalP tasks v) {n : Nat} {d e : Done V} (h : DaskSteps m evalP tasks n d e) : DoneOk tasks v d →
    DoneOk tasks v e ∧ n + todo tasks.length e = todo tasks.length d := by
  induction h with
  | refl d => exact fun hd => ⟨hd, by omega⟩
  | @step n d e i w hr _ ih =>
    intro hd
    obtain ⟨h1, h2, h3⟩ := ready_value hv hd hr
    cases h3
    obtain ⟨i1, i2⟩ := ih (hd.set h1)
    have := todo_set (w := v i) h2 h1
    exact ⟨i1, by omega⟩

/-- While a task has not been executed, some task can be. -/
theorem can_progress (hv : DVals m evalP tasks v) {d : Done V} (hd : DoneOk tasks v d) : ∀ (i : Nat), i < tasks.length → d i = none → ∃ j, j ≤ i ∧ DaskReady m evalP tasks d j (.ok (v j)) := by
  intro i
  induction i using Nat.strong_induction_on with
  | _ i ih =>
    intro hi hn
    have ht := List.getElem?_eq_getElem hi
    obtain ⟨h1, h2⟩ := hv i _ ht
    by_cases hall : ∀ j ∈ tasks[i].deps, d j ≠ none
    · refine ⟨i, Nat.le_refl _, tasks[i], tasks[i].deps.map v, ht, hn, ?_, h2⟩
      clear h1 h2
      generalize tasks[i].deps = l at hall
      induction l with
      | nil => rfl
      | cons j l ihl =>
        rw [List.mapM_cons, ihl (fun k hk => hall k (List.mem_cons_of_mem _ hk))]
        cases hj : d j with
        | none => exact (hall j (by simp) hj).elim
        | some w => rw [(hd j w hj).2]; rfl
    · obtain ⟨j, hj, hne⟩ : ∃ j ∈ tasks[i].deps, d j = none := by
        by_contra hc
        exact hall (fun j hj he => hc ⟨j, hj, he⟩)
      have hlt := h1 j hj
      obtain ⟨k, k1, k2⟩ := ih j hlt (by omega) hne
      exact ⟨k, by omega, k2⟩

/-- Every execution can be completed. -/
theorem can_complete (hv : DVals m evalP tasks v) : ∀ (k : Nat) (d : Done V), todo tasks.length d = k → DoneOk tasks v d →
    ∃ e, DaskSteps m evalP tasks k d e ∧ ∀ i, i < tasks.length → e i = some (v i) := by
  intro k
  induction k with
  | zero =>
    intro d hk hd
    refine ⟨d, .refl d, fun i hi => ?_⟩
    unfold todo at hk
    rw [List.countP_eq_zero] at hk
    have := hk i (List.mem_range.mpr hi)
    cases h : d i with
    | none => simp [h] at this
    | some w => rw [(hd i w h).2]
  | succ k ih =>
    intro d hk hd
    have : 0 < todo tasks.length d := by omega
    unfold todo at this
    rw [List.countP_pos_iff] at this
    obtain ⟨i, hi, hn⟩ := this
    obtain ⟨j, _, hj⟩ := can_progress hv hd i (List.mem_range.mp hi) (by simpa using hn)
    obtain ⟨j1, j2, _⟩ := ready_value hv hd hj
    have h1 := todo_set (w := v j) j2 j1
    obtain ⟨e, e1, e2⟩ := ih _ (by omega) (hd.set j1)
    exact ⟨e, .step hj e1, e2⟩

theorem gets_iff (hv : DVals m evalP tasks v) {ids : List Nat} (hids : ∀ i ∈ ids, i < tasks.length) (out : Res (List (DVal V))) :
    DaskGets m evalP tasks ids out ↔ out = .ok (ids.map v) := by
  constructor
  · rintro ⟨n, d, h1, h2⟩
    have hd := (steps_ok hv h1 doneOk_empty).1
    cases out with
    | error e =>
      obtain ⟨i, hi⟩ := h2
      cases (ready_value hv hd hi).2.2
    | ok rs => rw [mapM_done hd h2]
  · rintro rfl
    obtain ⟨e, e1, e2⟩ := can_complete hv _ (fun _ => none) rfl doneOk_empty
    refine ⟨_, e, e1, ?_⟩
    show ids.mapM e = _
    clear e1
    induction ids with
    | nil => rfl
    | cons i l ih =>
      rw [List.mapM_cons, e2 i (hids i (by simp)), ih (fun j hj => hids j (List.mem_cons_of_mem _ hj))]
      rfl

end Biggus

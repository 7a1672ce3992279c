import Verif.Proofs.MemoryGroup
import Verif.Proofs.Built
import Verif.Props.GroupsWitness
import Mathlib.Tactic.Ring
import Mathlib.Tactic.Linarith
/-
C74: memory in flight is bounded.
-/
namespace Biggus

section
variable {C R : Type} {G : Graph C R} {outs : Nat → List QId} {cap L : Nat}

/-- C74, for arbitrary graphs: if no chunk weighs more than `L`, then at every moment of every execution what is in flight weighs at most
`L` times (two per node and `cap + 1` per connection). -/
theorem C74_graph (hv : G.Valid) (hw : G.Wired outs) (hsil : ∀ i, outs i = [] → G.Silent i ∧ ∀ t, G[i]? ≠ some (.prod t)) (hst : ∀ i, G.Stores L i) {w : C → Nat}
    (hL : ∀ i c, Tok.chunk c ∈ G.tokens i → w c ≤ L) {n : Nat} {c : Conf C R} (hs : G.Steps outs cap n G.init c) :
    G.inFlight w c ≤ L * (2 * G.length + (cap + 1) * G.connections) := by
  obtain ⟨h1, h2, h3⟩ := reach_holds hv hw hsil hst hs
  have key : ∀ i ∈ List.range G.length, (c.loc i).held w + ((G.ins i).map (c.queued w)).sum ≤ L * (2 + (cap + 1) * (G.sources i).length) := by
    intro i _
    have a1 := (h3 i).le hL
    have a2 : ((G.ins i).map (c.queued w)).sum ≤ ((G.ins i).map (fun _ => L * cap)).sum := sum_map_le (fun q hq => by
      refine le_trans (weight_sum_le (fun c hc => hL _ c (h2 i q hq _ hc))) (Nat.mul_le_mul_left _ (le_trans (weight_one_le _) (h1 q))))
    have a3 : ((G.ins i).map (fun _ => L * cap)).sum = (G.sources i).length * (L * cap) := by
      rw [List.map_const', List.sum_replicate]; simp [Graph.ins]
    rw [a3] at a2
    have a4 : 1 + max 1 (G.sources i).length ≤ 2 + (G.sources i).length := by omega
    have a5 := Nat.mul_le_mul_left L a4
    nlinarith
  refine le_trans (sum_map_le key) ?_
  unfold Graph.connections
  have e : ∀ l : List Nat, (l.map (fun i => L * (2 + (cap + 1) * (G.sources i).length))).sum = L * (2 * l.length + (cap + 1) * (l.map (fun i => (G.sources i).length)).sum) := by
    intro l
    induction l with
    | nil => simp
    | cons x l ih => simp only [List.map_cons, List.sum_cons, List.length_cons, ih]; ring
  rw [e, List.length_range]

end


section
variable {α V : Type} [Inhabited α] [Inhabited V] {m : Mode α V} {limit : Nat} {xs : List (AObj α)}

/-- C74: at every moment of every execution of `ndarrays(xs)`, whatever the schedule and however large the arrays, at most six chunks for
every array in the expressions and two for every result are in flight - each of at most `limit` elements (`MAX_CHUNK_SIZE`).  For arrays
that can be evaluated together (see C28), without aggregations along axes of length 0. -/
theorem C74_bounded_memory (hl : 1 ≤ limit) (fwd : Bool) (hc : Compatible xs) (hb : ∀ x ∈ xs, x.toArr.Built m limit fwd false .sliced) (hs : ∀ x ∈ xs, x.toArr.solid) :
    ∃ N, ∀ n, N ≤ n → ∀ e, GroupInFlight m limit queueSize (Arr.eval m limit n) xs e → e ≤ limit * (6 * (xs.flatMap AObj.ids).length + 2 * xs.length) := by
  have hlev : ∀ xs : List (AObj α), ∃ N, ∀ x ∈ xs, x.toArr.levelLe N := by
    intro xs
    induction xs with
    | nil => exact ⟨0, by simp⟩
    | cons x xs ih =>
      obtain ⟨N, hN⟩ := ih
      obtain ⟨M, hM⟩ := exists_level x.toArr
      refine ⟨max N M, fun y hy => ?_⟩
      rcases List.mem_cons.mp hy with rfl | hy
      · exact Arr.levelLe.mono _ M _ (le_max_right _ _) hM
      · exact Arr.levelLe.mono _ N _ (le_max_left _ _) (hN y hy)
  obtain ⟨N, hN⟩ := hlev xs
  refine ⟨N, fun n hn e he => ?_⟩
  obtain ⟨rs, b, k, c, h1, h2, rfl⟩ := he
  obtain ⟨p1, ⟨heap, p2⟩, ⟨ord, p3⟩⟩ := hc
  obtain ⟨s1, s2, s3, s4⟩ := buildGroup_sized (heap := heap) (ord := ord) hl (fun b hb hG => eval_good m limit n b hb hG) xs ⟨[], []⟩ b (fun _ => []) rs BInv.empty (by
      intro x hx
      obtain ⟨f1, f2, f3, _⟩ := (hb x hx).fineS
      have e := f1.shape_eq m
      have ho := p3 x hx
      rw [e] at ho
      exact ⟨p2 x hx, p1 x hx, served_of_ordered x _ ho, f1, streamGood_of m limit n _ (good_of m limit n) _ f1 f3 f2 (Arr.levelLe.mono _ N n hn (hN x hx)), hs x hx, List.Perm.refl _⟩)
    ⟨fun i hi => absurd hi (Nat.not_lt_zero _), fun i hi => absurd hi (Nat.not_lt_zero _), fun i hi => absurd hi (Nat.not_lt_zero _)⟩ h1
  have hw := outs_wired s4
  have := C74_graph (L := limit) s4 hw ?_ ?_ (w := fun ch => ch.2.shape.prod) ?_ h2
  · refine le_trans this (Nat.mul_le_mul_left _ ?_)
    have e0 : Graph.connections ([] : Graph (Chunk V) (NDA V)) = 0 := rfl
    have e1 : queueSize = 3 := rfl
    simp only [List.length_nil, e0] at s2 s3
    rw [e1]
    omega
  · intro i hi
    by_cases hil : i < b.nodes.length
    · rcases s1.used i hil with h | ⟨k, hk⟩ | h
      · cases h
      · exfalso
        obtain ⟨j, hj, e⟩ := List.getElem_of_mem hk
        have : (k, j) ∈ b.nodes.outs i := ((hw i).2 (k, j)).mpr ⟨hj, by
          unfold Graph.writer
          simp only [List.getD_eq_getElem?_getD, List.getElem?_eq_getElem hj, Option.getD_some]
          exact e⟩
        rw [hi] at this
        cases this
      · exact h
    · have hnone : b.nodes[i]? = none := List.getElem?_eq_none (by omega)
      refine ⟨fun s o h => ?_, fun t => ?_⟩
      · rw [hnone] at h; cases h
      · rw [hnone]; simp
  · intro i
    by_cases hil : i < b.nodes.length
    · exact s1.stores i hil
    · have hnone : b.nodes[i]? = none := List.getElem?_eq_none (by omega)
      intro s o h
      rw [hnone] at h; cases h
  · intro i c hc
    by_cases hil : i < b.nodes.length
    · exact s1.small i hil c hc
    · unfold Graph.tokens at hc
      rw [List.getElem?_eq_none (by rw [runAll_length]; simp; omega)] at hc
      simp at hc

/-- What is in flight after `steps` steps of one particular schedule. -/
def inFlightAfter (m : Mode α V) (limit cap : Nat) (evalP : Arr α → Res (NDA V)) (xs : List (AObj α)) (steps : Nat) : Option Nat :=
  match buildGroup m limit evalP xs ⟨[], []⟩ with
  | .error _ => none
  | .ok (_, b) => some (b.nodes.inFlight (fun ch => ch.2.shape.prod) (b.nodes.greedy b.nodes.outs cap b.nodes.length steps b.nodes.init))

theorem inFlight_of_run {evalP : Arr α → Res (NDA V)} {cap steps e : Nat} (h : inFlightAfter m limit cap evalP xs steps = some e) : GroupInFlight m limit cap evalP xs e := by
  unfold inFlightAfter at h
  match hb : buildGroup m limit evalP xs ⟨[], []⟩ with
  | .error e => rw [hb] at h; cases h
  | .ok (rs, b) =>
    rw [hb] at h
    obtain ⟨k, hk⟩ := greedy_steps (G := b.nodes) (outs := b.nodes.outs) (cap := cap) b.nodes.length steps b.nodes.init
    cases h
    exact ⟨rs, b, k, _, hb, hk, rfl⟩

end

/-- The hypotheses hold for `exTogether`; after 18 steps of one schedule, 24 elements are in flight, with chunks of at most 3 elements. -/
example : Compatible exTogether ∧ (∀ x ∈ exTogether, x.toArr.Built exMode 3 true false .sliced) ∧ (∀ x ∈ exTogether, x.toArr.solid) ∧
    GroupInFlight exMode 3 queueSize (Arr.eval exMode 3 1) exTogether 24 := by
  have hx : ∀ cut, exX.toArr.Built exMode 3 true false cut := fun cut => .source _ _ _ _ (fun _ _ => rfl) (fun _ => rfl)
  have ha : ∀ cut, (AObj.agg 1 exX 1 .sum).toArr.Built exMode 3 true false cut := fun cut =>
    .agg (s := [4, 3]) (hx _) (by decide +kernel) (by decide) (Or.inl (by decide)) (Or.inl sumH_lawful)
  have hs : (AObj.agg 1 exX 1 .sum).toArr.solid := ⟨by decide +kernel, trivial⟩
  refine ⟨exTogether_ok.1, ?_, ?_, inFlight_of_run (steps := 18) (by decide +kernel)⟩
  · simp only [exTogether, List.mem_cons, List.not_mem_nil, or_false, forall_eq_or_imp, forall_eq]
    exact ⟨ha _, .elem2 (ha _) (ha _) rfl rfl (Or.inr (Or.inl rfl)), hx _⟩
  · simp only [exTogether, List.mem_cons, List.not_mem_nil, or_false, forall_eq_or_imp, forall_eq]
    exact ⟨hs, ⟨hs, hs⟩, trivial⟩

/-- `[sum(x, 1)]` of an array of shape (100, 0). -/
def exEmptyAxis : List (AObj ℚ) := [.agg 1 (.prod 0 (.adapter true ⟨⟨[100, 0], fun _ => none⟩, 0, 0⟩ [])) 1 .sum]

/-- C74 fails in the code for aggregations along an empty axis: an array without elements is one chunk, whatever its shape, and the
aggregated chunk has as many elements as the other axes say.  With a limit of 3 elements per chunk the bound is 42 elements; 100 are
in flight. -/
theorem C74_empty_axis_unbounded : GroupInFlight exMode 3 queueSize (Arr.eval exMode 3 1) exEmptyAxis 100 ∧
    3 * (6 * (exEmptyAxis.flatMap AObj.ids).length + 2 * exEmptyAxis.length) = 42 :=
  ⟨inFlight_of_run (steps := 10) (by decide +kernel), by decide +kernel⟩

end Biggus

import Verif.Proofs.EngineExec
/-
Concrete cases for C25-C27.
-/
namespace Biggus

/-- A consumer that stores what it gets (like an `NdarrayNode`). -/
def collector : Obj Nat (List Nat) := ⟨List Nat, [], fun st cs => .ok (st ++ cs, none), fun _ => .ok none, some, fun _ => 0⟩

/-- A consumer that passes the sum of what it has got in a round. -/
def adder : Obj Nat (List Nat) := ⟨Unit, (), fun _ cs => .ok ((), some cs.sum), fun _ => .ok none, fun _ => none, fun _ => 0⟩

/-- A consumer whose `process_chunks` raises. -/
def raiser : Obj Nat (List Nat) := ⟨Unit, (), fun _ _ => .error .value, fun _ => .ok none, fun _ => none, fun _ => 0⟩

/-- `validity` of concrete graphs. -/
def Graph.validB (G : Graph Nat (List Nat)) : Bool :=
  (List.range G.length).all (fun i => (G.sources i).all (fun s => s < i) && match G[i]? with
    | some (.cons s _) => !s.isEmpty
    | _ => true)

theorem valid_of_validB {G : Graph Nat (List Nat)} (h : G.validB = true) : G.Valid := by
  unfold Graph.validB at h
  rw [List.all_eq_true] at h
  constructor
  · intro i s hs
    have hi : i < G.length := by
      by_contra hc
      unfold Graph.sources at hs
      rw [List.getElem?_eq_none (by omega)] at hs
      simp at hs
    have := h i (List.mem_range.mpr hi)
    simp only [Bool.and_eq_true, List.all_eq_true] at this
    simpa using this.1 s hs
  · intro i s o hi
    have hl : i < G.length := (List.getElem?_eq_some_iff.mp hi).1
    have := h i (List.mem_range.mpr hl)
    simp only [Bool.and_eq_true, hi] at this
    intro hs
    subst hs
    simp at this

/-- Two results computed from one producer; the second computation raises. -/
def exShared : Graph Nat (List Nat) :=
  [.prod [.ok 1, .ok 2, .ok 3, .ok 4, .ok 5, .ok 6], .cons [0] collector, .cons [0] raiser, .cons [2] collector]

/-- C27 fails in the code: if one of two nodes fed by the same producer raises, it stops reading, its queue fills up, the
producer waits for ever, and the other result never arrives: evaluation hangs, under every schedule. -/
theorem C27_failure_with_shared_source_hangs {n : Nat} {c : Conf Nat (List Nat)} (h : exShared.Steps exShared.outs queueSize n exShared.init c)
    (hs : exShared.Stuck exShared.outs queueSize c) : ¬ c.halted 1 := by
  have hv : exShared.Valid := valid_of_validB (by decide +kernel)
  rw [outcome_by_greedy hv (outs_wired hv) 100 (by decide +kernel) h hs, ← isHalted_iff]
  decide +kernel

/-- Without the shared source the failing branch does no harm (`C27_tree_terminates`). -/
def exSeparate : Graph Nat (List Nat) :=
  [.prod [.ok 1, .ok 2, .ok 3, .ok 4, .ok 5, .ok 6], .cons [0] collector, .prod [.ok 1, .ok 2, .ok 3, .ok 4, .ok 5, .ok 6], .cons [2] raiser,
    .cons [3] collector]

theorem exSeparate_results {n : Nat} {c : Conf Nat (List Nat)} (h : exSeparate.Steps exSeparate.outs queueSize n exSeparate.init c)
    (hs : exSeparate.Stuck exSeparate.outs queueSize c) :
    (c.loc 1).result = some (some [1, 2, 3, 4, 5, 6]) ∧ (c.loc 4).result = some none := by
  have hv : exSeparate.Valid := valid_of_validB (by decide +kernel)
  rw [outcome_by_greedy hv (outs_wired hv) 100 (by decide +kernel) h hs]
  decide +kernel

/-- A consumer that sums everything and emits at the end (like an aggregation). -/
def total : Obj Nat (List Nat) := ⟨Nat, 0, fun st cs => .ok (st + cs.sum, none), fun st => .ok (some st), fun _ => none, fun _ => 0⟩

/-- `x + y`, `x + (x + y)` and the total of `x + y`, where `x` and `y` are read once: shared sources, and a clock. -/
def exClocked : Graph Nat (List Nat) :=
  [.prod [.ok 1, .ok 2, .ok 3, .ok 4, .ok 5], .prod [.ok 10, .ok 20, .ok 30, .ok 40, .ok 50], .cons [0, 1] adder, .cons [2] collector,
    .cons [0, 2] adder, .cons [4] collector, .cons [2] total, .cons [6] collector]

/-- The times of the tokens. -/
def exClock (i : Nat) : List Nat :=
  [[0, 1, 2, 3, 4, 5], [0, 1, 2, 3, 4, 5], [0, 1, 2, 3, 4, 5], [5], [0, 1, 2, 3, 4, 5], [5], [5, 6], [6]].getD i []

def Graph.clockedB (G : Graph Nat (List Nat)) (T : Nat → List Nat) : Bool :=
  (List.range G.length).all (fun i => match G[i]? with
    | some (.prod todo) => (T i).length == (prodTokens todo).length && decide ((T i).Pairwise (· < ·))
    | some (.cons s o) => s.all (fun j => T j == T (s.headD 0)) &&
        T i == (consTimed o (rounds (s.map G.tokens)) (T (s.headD 0))).map Prod.snd
    | none => true)

theorem clocked_of_clockedB {G : Graph Nat (List Nat)} {T : Nat → List Nat} (h : G.clockedB T = true) : G.Clocked T := by
  unfold Graph.clockedB at h
  rw [List.all_eq_true] at h
  have get : ∀ {i : Nat} {g : GNode Nat (List Nat)}, G[i]? = some g → i ∈ List.range G.length :=
    fun hi => List.mem_range.mpr (List.getElem?_eq_some_iff.mp hi).1
  refine ⟨fun i todo hi => ?_, fun i s o hi => ?_, fun i s o hi => ?_⟩
  · have := h i (get hi)
    simp only [hi, Bool.and_eq_true, beq_iff_eq, decide_eq_true_eq] at this
    exact this
  · have := h i (get hi)
    simp only [hi, Bool.and_eq_true, List.all_eq_true, beq_iff_eq] at this
    exact this.1
  · have := h i (get hi)
    simp only [hi, Bool.and_eq_true, beq_iff_eq] at this
    exact this.2

/-- The hypotheses of `C27_clocked_terminates` hold in a case with shared sources. -/
theorem exClocked_ok : exClocked.Valid ∧ exClocked.Clocked exClock ∧ exClocked.NoFailure ∧ ¬ exClocked.Tree := by
  refine ⟨valid_of_validB (by decide +kernel), clocked_of_clockedB (by decide +kernel), ?_, ?_⟩
  · intro i
    by_cases hi : i < 8
    · have : ∀ i < 8, Tok.abort ∉ exClocked.tokens i := by decide +kernel
      exact this i hi
    · have hn : (runAll exClocked [])[i]? = none := by
        have := runAll_get exClocked [] i
        rw [List.length_nil, Nat.zero_add] at this
        rw [this, List.getElem?_eq_none (show exClocked.length ≤ i by
          have : exClocked.length = 8 := rfl
          omega)]
        rfl
      unfold Graph.tokens
      rw [hn]; simp
  · intro h
    have := h (2, 0) (4, 0) (by decide +kernel) (by decide +kernel) (by decide +kernel)
    cases this

/-- All three results arrive, under every schedule. -/
theorem exClocked_results {n : Nat} {c : Conf Nat (List Nat)} (h : exClocked.Steps exClocked.outs queueSize n exClocked.init c)
    (hs : exClocked.Stuck exClocked.outs queueSize c) : (c.loc 3).result = some (some [11, 22, 33, 44, 55]) ∧
      (c.loc 5).result = some (some [12, 24, 36, 48, 60]) ∧ (c.loc 7).result = some (some [165]) := by
  obtain ⟨hv, hc, hf, _⟩ := exClocked_ok
  have := C27_clocked_terminates hv (outs_wired hv) hc hf (by decide) h hs
  rw [C26_terminated_is_sequential hv (outs_wired hv) h (this 3), C26_terminated_is_sequential hv (outs_wired hv) h (this 5),
    C26_terminated_is_sequential hv (outs_wired hv) h (this 7)]
  decide +kernel

/-- A failing source: the result of everything computed from it is `None` (`C26_failure_propagates`), evaluation raises. -/
def exFailing : Graph Nat (List Nat) := [.prod [.ok 1, .ok 2, .error .index, .ok 4], .cons [0] total, .cons [1] collector]

theorem exFailing_result {n : Nat} {c : Conf Nat (List Nat)} (h : exFailing.Steps exFailing.outs queueSize n exFailing.init c)
    (hs : exFailing.Stuck exFailing.outs queueSize c) : (c.loc 2).result = some none := by
  have hv : exFailing.Valid := valid_of_validB (by decide +kernel)
  rw [outcome_by_greedy hv (outs_wired hv) 100 (by decide +kernel) h hs]
  decide +kernel

/-- Why C27 needs the nodes to proceed at the same pace: `c` reads the total of `x` together with the first number of `x`; the
queue to `c` fills up before the total is known. -/
def exPace : Graph Nat (List Nat) :=
  [.prod [.ok 1, .ok 2, .ok 3, .ok 4, .ok 5], .cons [0] total, .cons [0, 1] adder, .cons [2] collector]

theorem C27_different_paces_deadlock {n : Nat} {c : Conf Nat (List Nat)} (h : exPace.Steps exPace.outs queueSize n exPace.init c)
    (hs : exPace.Stuck exPace.outs queueSize c) : ¬ c.halted 3 := by
  have hv : exPace.Valid := valid_of_validB (by decide +kernel)
  rw [outcome_by_greedy hv (outs_wired hv) 100 (by decide +kernel) h hs, ← isHalted_iff]
  decide +kernel

/-- An element-wise sum of a source with two chunks and a source with four, whose last chunk cannot be read. -/
def exOverlooked : Graph Nat (List Nat) := [.prod [.ok 1, .ok 2], .prod [.ok 10, .ok 20, .ok 30, .error .runtime], .cons [0, 1] adder, .cons [2] collector]

/-- C26 fails in the code: the node stops at the end of the first source, the failure of the second is overlooked, and a result is
returned. -/
theorem C26_failure_overlooked {n : Nat} {c : Conf Nat (List Nat)} (h : exOverlooked.Steps exOverlooked.outs queueSize n exOverlooked.init c)
    (hs : exOverlooked.Stuck exOverlooked.outs queueSize c) : (c.loc 3).result = some (some [11, 22]) ∧ c.loc 1 = .aborted := by
  have hv : exOverlooked.Valid := valid_of_validB (by decide +kernel)
  rw [outcome_by_greedy hv (outs_wired hv) 100 (by decide +kernel) h hs]
  refine ⟨by decide +kernel, ?_⟩
  rfl

/-- `C26_aborts_iff` is met by the sum node of this graph: it has a failing source, but does not abort. -/
example : exOverlooked.Valid ∧ exOverlooked[2]? = some (.cons [0, 1] adder) ∧ (∀ st cs, ∃ r, adder.process st cs = .ok r) ∧
    (∀ st, ∃ r, adder.finalise st = .ok r) ∧ Tok.abort ∈ exOverlooked.tokens 1 :=
  ⟨valid_of_validB (by decide +kernel), rfl, fun _ _ => ⟨_, rfl⟩, fun _ => ⟨_, rfl⟩, by simp [exOverlooked, Graph.tokens, runAll, nodeRun, prodTokens]⟩

end Biggus

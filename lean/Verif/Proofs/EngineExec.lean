import Verif.Props.Engine
/-
Running a graph with one particular scheduler, for concrete examples: by `C25_same_outcome` its outcome is that of all schedules.
-/
namespace Biggus

variable {C R : Type} {G : Graph C R} {outs : Nat → List QId} {cap : Nat}

/-- The first thread below `n` that can move makes a step. -/
def Graph.firstStep (G : Graph C R) (outs : Nat → List QId) (cap n : Nat) (c : Conf C R) : Option (Conf C R) :=
  (List.range n).findSome? (fun i => G.step outs cap i c)

/-- At most `fuel` steps. -/
def Graph.greedy (G : Graph C R) (outs : Nat → List QId) (cap n : Nat) : Nat → Conf C R → Conf C R
  | 0, c => c
  | fuel + 1, c => match G.firstStep outs cap n c with
    | none => c
    | some d => G.greedy outs cap n fuel d

def Thread.isHalted : Thread C R → Bool
  | .finished _ => true
  | .aborted => true
  | _ => false

theorem isHalted_iff {c : Conf C R} {i : Nat} : (c.loc i).isHalted = true ↔ c.halted i := by
  unfold Conf.halted
  cases c.loc i <;> simp [Thread.isHalted]

theorem greedy_steps (n fuel : Nat) (c : Conf C R) : ∃ k, G.Steps outs cap k c (G.greedy outs cap n fuel c) := by
  induction fuel generalizing c with
  | zero => exact ⟨0, .refl c⟩
  | succ fuel ih =>
    unfold Graph.greedy
    split
    · exact ⟨0, .refl c⟩
    · rename_i d hd
      obtain ⟨i, _, hi⟩ := List.exists_of_findSome?_eq_some hd
      obtain ⟨k, hk⟩ := ih d
      exact ⟨k + 1, .step i hi hk⟩

/-- The outcome of all complete executions, computed by one. -/
theorem outcome_by_greedy (hv : G.Valid) (hw : G.Wired outs) (fuel : Nat) (hf : ((G.firstStep outs cap G.length (G.greedy outs cap G.length fuel G.init)).isNone) = true)
    {n : Nat} {c : Conf C R} (h : G.Steps outs cap n G.init c) (hs : G.Stuck outs cap c) : c = G.greedy outs cap G.length fuel G.init := by
  obtain ⟨k, hk⟩ := greedy_steps (G := G) (outs := outs) (cap := cap) G.length fuel G.init
  refine (C25_same_outcome hw h hs hk ?_).1
  intro i
  by_cases hi : i < G.length
  · rw [Option.isNone_iff_eq_none, Graph.firstStep, List.findSome?_eq_none_iff] at hf
    exact hf i (List.mem_range.mpr hi)
  · obtain ⟨_, N, h0, h1⟩ := plain_inv hv hw
    obtain ⟨N', h2, h3, _⟩ := EInv.steps hw hk h0 h1
    match hd : G.step outs cap i (G.greedy outs cap G.length fuel G.init) with
    | none => rfl
    | some d =>
      obtain ⟨m, hm, _⟩ := h2.step hw hd
      rw [h3 i (by omega)] at hm
      cases hm

end Biggus

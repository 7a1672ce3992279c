import Verif.Spec.EvalGuards
import Verif.Props.Handlers
/-
Which handlers give an answer that does not depend on how the data is cut, and what the answers are for a column given
in one piece.
-/
namespace Biggus
open Spec

variable {α : Type}

theorem lawful_of_spec {V : Type} {h : Handler V} (f : Nat → List V → V)
    (hf : ∀ (n : Nat) (chunks : List (List V)), chunks ≠ [] → (∀ c ∈ chunks, c ≠ []) → h.run n chunks = f n chunks.flatten) :
    h.Lawful := by
  intro n chunks hne hc
  rw [hf n chunks hne hc]
  have hfl : chunks.flatten ≠ [] := by
    obtain ⟨c, cs, rfl⟩ := List.exists_cons_of_ne_nil hne
    intro h0
    exact hc c List.mem_cons_self (by have := List.flatten_eq_nil_iff.mp h0; exact this c List.mem_cons_self)
  rw [hf n [chunks.flatten] (by simp) (by simpa using hfl)]
  simp

theorem countH_lawful [AddMonoidWithOne α] : (countH : Handler α).Lawful :=
  lawful_of_spec (fun _ col => (col.length : α)) (fun n chunks _ _ => C20_count_of_any_chunking _ chunks rfl n)

theorem sumH_lawful [AddCommMonoid α] : (sumH : Handler α).Lawful :=
  lawful_of_spec (fun _ col => col.sum) (fun n chunks _ _ => C20_sum_of_any_chunking _ chunks rfl n)

theorem meanH_lawful [Field α] : (meanH : Handler α).Lawful :=
  lawful_of_spec (fun n col => col.sum / (n : α)) (fun n chunks _ _ => by
    have := C20_sum_of_any_chunking chunks.flatten chunks rfl n
    simp only [Handler.run, sumH] at this
    simp only [Handler.run, meanH, this])

theorem countMH_lawful [AddMonoidWithOne α] : (countMH : Handler (Option α)).Lawful :=
  lawful_of_spec (fun _ col => some ((valid col).length : α)) (fun n chunks _ _ => C21_masked_count _ chunks rfl n)

theorem sumMH_lawful [AddCommMonoid α] : (sumMH : Handler (Option α)).Lawful :=
  lawful_of_spec (fun _ col => if valid col = [] then none else some (valid col).sum)
    (fun n chunks _ _ => C21_masked_sum_partial _ chunks rfl n)

theorem meanMH_lawful [Field α] [LinearOrder α] (mdtol : α) : (meanMH mdtol).Lawful :=
  lawful_of_spec (fun _ col => if valid col = [] ∨ (mdtol < 1 ∧ mdtol < ((col.length - (valid col).length : Nat) : α) / (col.length : α))
      then none else some (mean (valid col))) (fun n chunks _ _ => C21_masked_mean mdtol _ chunks rfl n)

theorem stdMH_lawful [Field α] [LinearOrder α] [CharZero α] (sqrt : α → α) (ddof : Int) : (stdMH sqrt ddof).Lawful :=
  lawful_of_spec (fun _ col => if valid col = [] ∨ ((valid col).length : α) - (ddof : α) = 0 ∨ var ddof (valid col) < 0 then none
      else some (sqrt (var ddof (valid col)))) (fun n chunks _ _ => C23_masked_std sqrt ddof _ chunks rfl n)

theorem varMH_lawful [Field α] [LinearOrder α] [CharZero α] (sqrt : α → α) (ddof : Int) : (varMH sqrt ddof).Lawful := by
  intro n chunks hne hc
  show ((stdMH sqrt ddof).run n chunks).map _ = ((stdMH sqrt ddof).run n [chunks.flatten]).map _
  rw [stdMH_lawful sqrt ddof n chunks hne hc]

end Biggus

import Verif.Model.Casts
import Verif.Proofs.Shape
import Verif.Props.Handlers
/-
C69: which dtypes the aggregations accept.
-/
namespace Biggus
open Spec

variable {α V : Type}

namespace Spec

/-- The aggregations of data of kind `k` that raise `TypeError` on a chunk of an array of `ndim` dimensions: sum and mean of booleans, the masked mean of unsigned integers, and the masked mean of a chunk of a
one-dimensional array of integers that has no unmasked element. -/
def Refuses (masked : Bool) (ndim : Nat) (k : Kind) (allMasked : Bool) : AggKind α → Prop
  | .sum => k = .bool
  | .mean _ => k = .bool ∨ masked = true ∧ (k = .unsigned ∨ k = .signed ∧ ndim = 1 ∧ allMasked = true)
  | _ => False

end Spec

theorem processKinds_eq (masked : Bool) (ndim : Nat) (k : Kind) (b : Bool) (g : AggKind α) :
    (Refuses masked ndim k b g → processKinds masked ndim k b g = .error .type) ∧ (¬ Refuses masked ndim k b g → processKinds masked ndim k b g = .ok ()) := by
  by_cases hn : ndim = 1
  · subst hn
    cases g <;> cases masked <;> cases k <;> cases b <;> simp [Refuses, processKinds, Kind.iadd, Kind.promote, Kind.castsTo, Kind.rank, Kind.sum, Kind.maskedSum, Kind.overOne, bind, Except.bind]
  · cases g <;> cases masked <;> cases k <;> cases b <;> simp [hn, Refuses, processKinds, Kind.iadd, Kind.promote, Kind.castsTo, Kind.rank, Kind.sum, Kind.maskedSum, Kind.overOne, bind, Except.bind]

theorem runKinds_eq (masked : Bool) (isMasked : V → Bool) (ndim : Nat) (k : Kind) (g : AggKind α) (chunks : List (List V)) :
    ((∃ c ∈ chunks, Refuses masked ndim k (c.all isMasked) g) → runKinds masked isMasked ndim k g chunks = .error .type) ∧
    ((∀ c ∈ chunks, ¬ Refuses masked ndim k (c.all isMasked) g) → runKinds masked isMasked ndim k g chunks = .ok ()) := by
  unfold runKinds
  refine ⟨?_, ?_⟩
  · induction chunks with
    | nil => rintro ⟨c, hc, _⟩; cases hc
    | cons d chunks ih =>
      intro h
      rw [List.mapM_cons]
      by_cases hd : Refuses masked ndim k (d.all isMasked) g
      · rw [(processKinds_eq masked ndim k _ g).1 hd]; rfl
      · rw [(processKinds_eq masked ndim k _ g).2 hd]
        obtain ⟨c, hc, hr⟩ := h
        have := ih ⟨c, by
          rcases List.mem_cons.mp hc with rfl | hc
          · exact absurd hr hd
          · exact hc, hr⟩
        cases hm : List.mapM (fun col => processKinds masked ndim k (col.all isMasked) g) chunks with
        | error e => rw [hm] at this; simp only [bind, Except.bind] at this ⊢; exact this
        | ok v => rw [hm] at this; cases this
  · intro h
    rw [mapM_ok _ _ (fun _ => ()) (fun c hc => (processKinds_eq masked ndim k _ g).2 (h c hc))]
    rfl

/-- C69, exact, `ndarray()`.  An aggregation of a column, cut into any chunks, raises `TypeError` if it is the sum or mean of booleans, and otherwise gives the value of the other theorems
(C20, C22, C23). -/
theorem C69_plain_exact [Field α] [LinearOrder α] (sqrt : α → α) (ndim : Nat) (k : Kind) (g : AggKind α) (n : Nat) (chunks : List (List α)) (hne : chunks ≠ []) :
    (k = .bool ∧ (g = .sum ∨ ∃ t, g = .mean t) → runTyped sqrt ndim k g n chunks = .error .type) ∧
    (¬ (k = .bool ∧ (g = .sum ∨ ∃ t, g = .mean t)) → runTyped sqrt ndim k g n chunks = .ok ((plainHandler sqrt g).run n chunks)) := by
  have hiff : ∀ b, Refuses false ndim k b g ↔ (k = .bool ∧ (g = .sum ∨ ∃ t, g = .mean t)) := by
    intro b; cases g <;> simp [Refuses]
  obtain ⟨c, hc⟩ := List.exists_mem_of_ne_nil _ hne
  unfold runTyped
  refine ⟨fun h => ?_, fun h => ?_⟩
  · rw [(runKinds_eq false _ ndim k g chunks).1 ⟨c, hc, (hiff _).mpr h⟩]; rfl
  · rw [(runKinds_eq false _ ndim k g chunks).2 (fun c _ hr => h ((hiff _).mp hr))]; rfl

/-- C69, exact, `masked_array()`.  Sum and mean of booleans and the mean of unsigned integers raise `TypeError`; so does the mean of a one-dimensional array of integers one of whose chunks has no unmasked element.
Otherwise the value is that of the other theorems (C21-C23). -/
theorem C69_masked_exact [Field α] [LinearOrder α] (sqrt : α → α) (ndim : Nat) (k : Kind) (g : AggKind α) (n : Nat) (chunks : List (List (Option α))) (hne : chunks ≠ []) :
    ((k = .bool ∧ (g = .sum ∨ ∃ t, g = .mean t)) ∨ (k = .unsigned ∧ ∃ t, g = .mean t) ∨ (k = .signed ∧ ndim = 1 ∧ (∃ t, g = .mean t) ∧ ∃ c ∈ chunks, valid c = []) →
      runTypedMasked sqrt ndim k g n chunks = .error .type) ∧
    (¬ ((k = .bool ∧ (g = .sum ∨ ∃ t, g = .mean t)) ∨ (k = .unsigned ∧ ∃ t, g = .mean t) ∨ (k = .signed ∧ ndim = 1 ∧ (∃ t, g = .mean t) ∧ ∃ c ∈ chunks, valid c = [])) →
      runTypedMasked sqrt ndim k g n chunks = .ok ((maskedHandler sqrt g).run n chunks)) := by
  have hall : ∀ c : List (Option α), c.all Option.isNone = true ↔ valid c = [] := by
    intro c
    induction c with
    | nil => simp [valid]
    | cons x c ih => cases x <;> simp_all [valid]
  have hiff : (∃ c ∈ chunks, Refuses true ndim k (c.all Option.isNone) g) ↔
      ((k = .bool ∧ (g = .sum ∨ ∃ t, g = .mean t)) ∨ (k = .unsigned ∧ ∃ t, g = .mean t) ∨ (k = .signed ∧ ndim = 1 ∧ (∃ t, g = .mean t) ∧ ∃ c ∈ chunks, valid c = [])) := by
    obtain ⟨c0, hc0⟩ := List.exists_mem_of_ne_nil _ hne
    cases g with
    | sum => simp [Refuses]; exact fun _ => ⟨c0, hc0⟩
    | mean t =>
      simp only [Refuses, hall, true_and]
      constructor
      · rintro ⟨c, hc, h | h | ⟨h1, h2, h3⟩⟩
        · exact Or.inl ⟨h, Or.inr ⟨t, rfl⟩⟩
        · exact Or.inr (Or.inl ⟨h, t, rfl⟩)
        · exact Or.inr (Or.inr ⟨h1, h2, ⟨t, rfl⟩, c, hc, h3⟩)
      · rintro (⟨h, _⟩ | ⟨h, _⟩ | ⟨h1, h2, _, c, hc, h3⟩)
        · exact ⟨c0, hc0, Or.inl h⟩
        · exact ⟨c0, hc0, Or.inr (Or.inl h)⟩
        · exact ⟨c, hc, Or.inr (Or.inr ⟨h1, h2, h3⟩)⟩
    | _ => simp [Refuses]
  unfold runTypedMasked
  refine ⟨fun h => ?_, fun h => ?_⟩
  · rw [(runKinds_eq true _ ndim k g chunks).1 (hiff.mpr h)]; rfl
  · rw [(runKinds_eq true _ ndim k g chunks).2 (fun c hc hr => h (hiff.mp ⟨c, hc, hr⟩))]; rfl

/-- C69 fails of the code: the sum of booleans, the masked mean of unsigned integers, and the masked mean of a vector of integers if all of them - or only those of one chunk - are masked. -/
theorem C69_refused : runTyped (α := ℚ) id 1 .bool .sum 2 [[1, 0]] = .error .type ∧ runTypedMasked (α := ℚ) id 2 .unsigned (.mean 1) 2 [[some 1, none]] = .error .type ∧
    runTypedMasked (α := ℚ) id 1 .signed (.mean 1) 2 [[none, none]] = .error .type ∧ runTypedMasked (α := ℚ) id 1 .signed (.mean 1) 3 [[some 4, some 6], [none]] = .error .type ∧
    (maskedHandler (α := ℚ) id (.mean 1)).run 3 [[some 4, some 6], [none]] = some 5 := by
  refine ⟨by decide +kernel, by decide +kernel, by decide +kernel, by decide +kernel, by decide +kernel⟩

/-- What is accepted: the same data in floats, in an array of two dimensions, or in other chunks. -/
example : runTypedMasked (α := ℚ) id 1 .float (.mean 1) 3 [[some 4, some 6], [none]] = .ok (some 5) ∧ runTypedMasked (α := ℚ) id 2 .signed (.mean 1) 3 [[some 4, some 6], [none]] = .ok (some 5) ∧
    runTypedMasked (α := ℚ) id 1 .signed (.mean 1) 3 [[some 4], [some 6, none]] = .ok (some 5) ∧ runTyped (α := ℚ) id 1 .bool (.std 0) 2 [[1, 0]] = .ok (1 / 4) := by
  refine ⟨by decide +kernel, by decide +kernel, by decide +kernel, by decide +kernel⟩

end Biggus

import Verif.Proofs.EvalClosed
import Verif.Proofs.Lawful
import Verif.Spec.Returns
/-
`Arr.Returns` in terms of `Arr.den`.
-/
namespace Biggus

variable {α V : Type}

section
variable [Inhabited α] [Inhabited V] {m : Mode α V} {limit : Nat}

theorem returns_den {a : Arr α} (hwf : a.WF) (hok : a.Ok m limit .whole) : a.Returns m limit (a.den m) :=
  eval_ok m limit a hwf hok

theorem engineReturns_den {a : Arr α} (hwf : a.WF) (hso : a.streamOk m limit) (hok : a.Ok m limit .sliced) :
    a.EngineReturns m limit (a.den m) := engine_ok m limit a hwf hso hok

theorem Arr.Returns.unique {a : Arr α} {r r' : NDA V} (h : a.Returns m limit r) (h' : a.Returns m limit r') : r ≈ₐ r' := by
  obtain ⟨N, h⟩ := h
  obtain ⟨N', h'⟩ := h'
  obtain ⟨x, hx, hr⟩ := h (max N N') (le_max_left _ _)
  obtain ⟨x', hx', hr'⟩ := h' (max N N') (le_max_right _ _)
  rw [hx] at hx'
  cases hx'
  exact hr.symm.trans hr'

theorem Arr.Returns.congr {a : Arr α} {r r' : NDA V} (h : a.Returns m limit r) (e : r ≈ₐ r') : a.Returns m limit r' := by
  obtain ⟨N, h⟩ := h
  exact ⟨N, fun n hn => by obtain ⟨x, hx, hr⟩ := h n hn; exact ⟨x, hx, hr.trans e⟩⟩

theorem Arr.EngineReturns.congr {a : Arr α} {r r' : NDA V} (h : a.EngineReturns m limit r) (e : r ≈ₐ r') :
    a.EngineReturns m limit r' := by
  obtain ⟨N, h⟩ := h
  exact ⟨N, fun n hn => by obtain ⟨x, hx, hr⟩ := h n hn; exact ⟨x, hx, hr.trans e⟩⟩

theorem Arr.Returns.den_eqv {a : Arr α} {r : NDA V} (hwf : a.WF) (hok : a.Ok m limit .whole) (h : a.Returns m limit r) :
    r ≈ₐ a.den m := h.unique (returns_den hwf hok)
end

end Biggus

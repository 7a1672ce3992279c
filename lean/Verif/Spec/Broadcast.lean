import Verif.Spec.NDArray
/-
SPECIFICATION SIDE.  NumPy's broadcasting rule, from the NumPy manual: shapes are compared from the right, missing
dimensions count as 1, and two sizes are compatible when they are equal or one of them is 1.
-/
namespace Biggus.Spec

/-- Sizes `m` and `n` are compatible and give the size `r`. -/
def Stretches (m n r : Nat) : Prop := (m = n ∧ r = m) ∨ (m = 1 ∧ r = n) ∨ (n = 1 ∧ r = m)

/-- The shapes `s` and `t` broadcast to the shape `r`. -/
def Broadcasts (s t r : List Nat) : Prop :=
  r.length = max s.length t.length ∧
    ∀ i, i < r.length → Stretches (s.reverse.getD i 1) (t.reverse.getD i 1) (r.reverse.getD i 1)

/-- `np.broadcast_to(x, shape)`: the element at `idx` is the element of `x` with the extra leading coordinates dropped
and 0 on the dimensions of length 1. -/
def broadcastTo {β : Type} (x : NDA β) (shape : List Nat) : NDA β :=
  ⟨shape, fun idx => x.get ((List.range x.shape.length).map (fun j =>
    if x.shape.getD j 0 = 1 then 0 else idx.getD (shape.length - x.shape.length + j) 0))⟩

end Biggus.Spec

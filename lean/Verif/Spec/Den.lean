import Verif.Spec.Combinators
import Verif.Model.Arrays
import Verif.Model.Handlers
/-
SPECIFICATION SIDE.  The meaning of a biggus expression: the NumPy array it stands for (`Arr.den`), built only
from the NumPy operations of `Spec/NDArray.lean` and `Spec/Combinators.lean`; and which expressions are
well formed (`Arr.WF`).
-/
namespace Biggus

/-- In which kind of element an expression is evaluated: `V = α` for `ndarray()`, `V = Option α` for
`masked_array()` (`none` = masked). -/
structure Mode (α V : Type) where
  /-- element of a data source with the given fill value -/
  leaf : α → Option α → V
  /-- the same for an element read on its own: a data source indexed down to a single element gives a NumPy scalar -/
  leaf0 : α → Option α → V
  const : α → V
  /-- cast to a dtype -/
  cast : Nat → V → V
  /-- mask where equal -/
  maskEq : α → V → V
  handler : AggKind α → Handler V
  op1 : Op1 α → Option (V → V)
  op2 : Op2 α → Option (V → V → V)

variable {α V : Type}

/-- The NumPy array a biggus expression stands for.  (For an ill-formed expression the value is arbitrary.) -/
def Arr.den [Inhabited V] (m : Mode α V) : Arr α → NDA V
  | .adapter _ c keys => match npIndex (c.data.map (m.leaf c.fill)) keys with
      | .ok r => r
      | .error _ => ⟨[], fun _ => default⟩
  | .const s v _ => ⟨s, fun _ => m.const v⟩
  | .newAxes a na => (a.den m).insertAxes na
  | .bcast a d lead => (a.den m).stretch d lead
  | .transposed a axes => (a.den m).permute axes
  | .stack ss items => NDA.stacked ss (fun i => (items i).den m)
  | .mosaic n tiles axis => NDA.concat n (fun i => (tiles i).den m) axis
  | .asType a dt => (a.den m).map (m.cast dt)
  | .maskVal a v => (a.den m).map (m.maskEq v)
  | .agg a axis k => (a.den m).reduce axis
      (fun col => (m.handler k).run ((a.den m).shape.getD axis 0) [col])
  | .elem1 a op => (a.den m).map ((m.op1 op).getD id)
  | .elem2 a b op => (a.den m).zip (b.den m) ((m.op2 op).getD (fun x _ => x))

/-- Keys an adapter may hold. -/
def Key.storable : Key → Bool
  | .int _ | .slice _ | .tuple _ | .barr _ => true
  | _ => false

/-- Not a `BroadcastArray`. -/
def Arr.notBcast : Arr α → Bool
  | .bcast _ _ _ => false
  | _ => true

/-- No broadcast with leading dimensions is reachable through stacks and mosaics. -/
def Arr.noLead : Arr α → Prop
  | .bcast _ _ lead => lead = []
  | .stack ss items => ∀ i, InB ss i → (items i).noLead
  | .mosaic n tiles _ => ∀ i, i < n → (tiles i).noLead
  | _ => True

/-- Well-formed expressions: the parts fit together.  Every expression built by the constructors from adapters
is of this form (see `Props/Arrays.lean`), except that a broadcast of a stack or mosaic containing broadcasts
with leading dimensions is excluded. -/
def Arr.WF : Arr α → Prop
  | .adapter _ c keys => (∀ k ∈ keys, k.storable = true) ∧ ∃ r, npIndex c.data keys = .ok r
  | .const _ _ _ => True
  | .newAxes a na => a.WF ∧ ∃ s, a.shape = .ok s ∧ na.length = s.length + 1
  | .bcast a d lead => a.WF ∧ a.notBcast = true ∧ a.noLead ∧ (d.map Prod.fst).Nodup ∧
      (∀ l ∈ lead, 1 ≤ l) ∧ ∃ s, a.shape = .ok s ∧ ∀ p ∈ d, s[p.1]? = some 1
  | .transposed a axes => a.WF ∧ ∃ s, a.shape = .ok s ∧ axes.Perm (List.range s.length)
  | .stack ss items => ss.prod ≠ 0 ∧ ∃ s, ∀ i, InB ss i → (items i).WF ∧ (items i).shape = .ok s
  | .mosaic n tiles axis => 0 < n ∧ ∃ s : List Nat, axis < s.length ∧
      ∀ i, i < n → (tiles i).WF ∧ ∃ k, (tiles i).shape = .ok (s.set axis k)
  | .asType a _ => a.WF
  | .maskVal a _ => a.WF
  | .agg a axis _ => a.WF ∧ ∃ s, a.shape = .ok s ∧ axis < s.length
  | .elem1 a _ => a.WF
  | .elem2 a b _ => a.WF ∧ b.WF ∧ a.shape = b.shape

end Biggus

import Verif.Model.Eval
/-
SPECIFICATION SIDE of C77: when the values of `ndarray()` and of `masked_array()` can be compared.
-/
namespace Biggus

variable {α : Type}

/-- Wherever the masked array `y` has a value, the plain array `x` has the same value. -/
def AgreeUnmasked (x : NDA α) (y : NDA (Option α)) : Prop :=
  x.shape = y.shape ∧ ∀ idx, InB x.shape idx → ∀ v, y.get idx = some v → x.get idx = v

/-- The array `y` has no masked element. -/
def NDA.unmaskedAll (y : NDA (Option α)) : Prop := ∀ idx, InB y.shape idx → (y.get idx).isSome = true

/-- The masked variant of a unary operation masks at least the elements masked in the operand, and computes the same values as
the plain variant. -/
def Op1.Agrees (op : Op1 α) : Prop :=
  ∀ g, op.ma = some g → g none = none ∧ ∀ x v, g (some x) = some v → op.np x = v

/-- The same for a binary operation. -/
def Op2.Agrees (op : Op2 α) : Prop :=
  ∀ g, op.ma = some g → (∀ y, g none y = none) ∧ (∀ x, g x none = none) ∧ ∀ x y v, g (some x) (some y) = some v → op.np x y = v

variable [Inhabited α] [Field α] [LinearOrder α]

/-- Only data without masked elements is aggregated (a source may hold masked elements, as long as they are not aggregated), and the
masked variants of the element-wise operations agree with the plain ones. -/
def Arr.aggsUnmasked (sqrt : α → α) (cast : Nat → α → α) : Arr α → Prop
  | .adapter _ _ _ => True
  | .const _ _ _ => True
  | .newAxes a _ => a.aggsUnmasked sqrt cast
  | .bcast a _ _ => a.aggsUnmasked sqrt cast
  | .transposed a _ => a.aggsUnmasked sqrt cast
  | .stack ss items => ∀ i, InB ss i → (items i).aggsUnmasked sqrt cast
  | .mosaic n tiles _ => ∀ i, i < n → (tiles i).aggsUnmasked sqrt cast
  | .asType a _ => a.aggsUnmasked sqrt cast
  | .maskVal a _ => a.aggsUnmasked sqrt cast
  | .agg a _ _ => a.aggsUnmasked sqrt cast ∧ (a.den (maMode sqrt cast)).unmaskedAll
  | .elem1 a op => a.aggsUnmasked sqrt cast ∧ op.ma.isSome = true ∧ op.Agrees
  | .elem2 a b op => a.aggsUnmasked sqrt cast ∧ b.aggsUnmasked sqrt cast ∧ op.ma.isSome = true ∧ op.Agrees

/-- An aggregation of `n` values none of which is masked has a value. -/
def AggKind.hasValue (n : Nat) : AggKind α → Prop
  | .count => True
  | .min | .max | .sum => n ≠ 0
  | .mean mdtol => n ≠ 0 ∧ 0 ≤ mdtol
  | .std ddof => n ≠ 0 ∧ ddof < n
  | .var ddof => n ≠ 0 ∧ ddof < n

/-- Nothing in the expression masks anything: no source element is masked, no value is declared missing, every aggregation has a
value, and the masked variants of the element-wise operations mask none of the values they are applied to. -/
def Arr.maskless (sqrt : α → α) (cast : Nat → α → α) : Arr α → Prop
  | .adapter _ c _ => c.data.unmaskedAll
  | .const _ _ _ => True
  | .newAxes a _ => a.maskless sqrt cast
  | .bcast a _ _ => a.maskless sqrt cast
  | .transposed a _ => a.maskless sqrt cast
  | .stack ss items => ∀ i, InB ss i → (items i).maskless sqrt cast
  | .mosaic n tiles _ => ∀ i, i < n → (tiles i).maskless sqrt cast
  | .asType a _ => a.maskless sqrt cast
  | .maskVal _ _ => False
  | .agg a axis k => a.maskless sqrt cast ∧ ∀ s, a.shape = .ok s → k.hasValue (s.getD axis 0)
  | .elem1 a op => a.maskless sqrt cast ∧ ∃ g, op.ma = some g ∧
      ∀ idx, InB (a.den (ndMode sqrt cast)).shape idx →
        g (some ((a.den (ndMode sqrt cast)).get idx)) = some (op.np ((a.den (ndMode sqrt cast)).get idx))
  | .elem2 a b op => a.maskless sqrt cast ∧ b.maskless sqrt cast ∧ ∃ g, op.ma = some g ∧
      ∀ idx, InB (a.den (ndMode sqrt cast)).shape idx →
        g (some ((a.den (ndMode sqrt cast)).get idx)) (some ((b.den (ndMode sqrt cast)).get idx)) =
          some (op.np ((a.den (ndMode sqrt cast)).get idx) ((b.den (ndMode sqrt cast)).get idx))

end Biggus

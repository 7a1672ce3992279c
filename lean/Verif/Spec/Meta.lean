import Verif.Model.Meta
/-
SPECIFICATION SIDE.  When the parts of an expression have consistent dtypes, and what agreement of fill values means.
-/
namespace Biggus

variable {α : Type}

/-- Every stack and every mosaic in the expression has at least one part, and its parts have all the same dtype: what the constructors
check. -/
def Arr.DtypeOk (T : DTypes α) : Arr α → Prop
  | .adapter _ _ _ => True
  | .const _ _ _ => True
  | .newAxes a _ => a.DtypeOk T
  | .bcast a _ _ => a.DtypeOk T
  | .transposed a _ => a.DtypeOk T
  | .stack ss items => ss.prod ≠ 0 ∧
      (∀ i j, InB ss i → InB ss j → (items i).dtype T = (items j).dtype T) ∧ ∀ i, InB ss i → (items i).DtypeOk T
  | .mosaic n tiles _ => 0 < n ∧
      (∀ i j, i < n → j < n → (tiles i).dtype T = (tiles j).dtype T) ∧ ∀ i, i < n → (tiles i).DtypeOk T
  | .asType a _ => a.DtypeOk T
  | .maskVal a _ => a.DtypeOk T
  | .agg a _ _ => a.DtypeOk T
  | .elem1 a _ => a.DtypeOk T
  | .elem2 a b _ => a.DtypeOk T ∧ b.DtypeOk T

/-- The dtype documented for an aggregation of data of dtype `source`: `int` for `count`, the data's own for `min`, `max` and `sum`, that of a true
division for `mean`, `std` and `var`. -/
inductive AggDtype (T : DTypes α) (source : Nat) : AggKind α → Nat → Prop
  | count : AggDtype T source .count T.int
  | min : AggDtype T source .min source
  | max : AggDtype T source .max source
  | sum : AggDtype T source .sum source
  | mean (x) : AggDtype T source (.mean x) (T.trueDiv source)
  | std (x) : AggDtype T source (.std x) (T.trueDiv source)
  | var (x) : AggDtype T source (.var x) (T.trueDiv source)

/-- The expression is not (a reshaped view of) one single masked element of a data source. -/
def Arr.NotMaskedScalar : Arr α → Prop
  | .adapter _ c keys => ∀ r, npIndex c.data keys = .ok r → r.shape = [] → (r.get []).isSome = true
  | .newAxes a _ => a.NotMaskedScalar
  | .bcast a _ _ => a.NotMaskedScalar
  | .transposed a _ => a.NotMaskedScalar
  | .maskVal a _ => a.NotMaskedScalar
  | _ => True

/-- Two fill values agree: they are equal or, for a floating-point dtype, both are NaN. -/
def Fills.Agree (F : Fills α) (dtype : Nat) (f g : α) : Prop :=
  F.eq f g = true ∨ (F.floating dtype = true ∧ F.isnan f = true ∧ F.isnan g = true)

/-- What is known about `==` on fill values: symmetric and transitive, and false for a NaN. -/
structure Fills.Laws (F : Fills α) : Prop where
  symm : ∀ x y, F.eq x y = true → F.eq y x = true
  trans : ∀ x y z, F.eq x y = true → F.eq y z = true → F.eq x z = true
  nan : ∀ x y, F.isnan x = true → F.eq x y = false

/-- `r` is the right fill value for parts with the fill values `fs`: the common one (that of the first part) if any two of them agree, the
dtype's default otherwise. -/
def Fills.IsCommon (F : Fills α) (dtype : Nat) (fs : List α) (r : α) : Prop :=
  ((∀ f ∈ fs, ∀ g ∈ fs, F.Agree dtype f g) → fs.head? = some r) ∧
  (¬ (∀ f ∈ fs, ∀ g ∈ fs, F.Agree dtype f g) → r = F.default dtype)

end Biggus

import Verif.Spec.Built
import Verif.Spec.Agg
/-
SPECIFICATION SIDE.  Programs: sequences of public biggus operations side by side with the NumPy operations they stand for.
-/
namespace Biggus
open Spec

variable {α V : Type}

/-- Keys a step of a program indexes with, for an array of shape `s`: every dimension gets an integer in range or a slice that selects something (`:` if
the user wrote none for it), with `arr` also a tuple or array of distinct non-negative indices; any number of `newaxis` besides, but none with `arr`.
With `fwd` no negative integers and steps. -/
def StepKeys (fwd arr : Bool) (ks : List Key) (s : List Nat) : Prop :=
  ∃ fk, expandKeys ks s.length = .ok fk ∧ List.Forall₂ (SimpleKey fwd arr) (dropNew fk) s ∧ (arr = true → dropNew fk = fk)

/-- `v` is the aggregate `k` of the column `col`; a variance is not negative and the square of its square root (it is computed that way). -/
def TheAgg [Field α] [LinearOrder α] (sqrt : α → α) (k : AggKind α) (col : List α) (v : α) : Prop :=
  IsAgg sqrt k col v ∧ ∀ d, k = .var d → 0 ≤ var d col ∧ sqrt (var d col) * sqrt (var d col) = var d col

/-- The same for masked data. -/
def TheAggMasked [Field α] [LinearOrder α] (sqrt : α → α) (k : AggKind α) (col : List (Option α)) (v : Option α) : Prop :=
  IsAggMasked sqrt k col v ∧ ∀ d, k = .var d → 0 ≤ var d (valid col) → sqrt (var d (valid col)) * sqrt (var d (valid col)) = var d (valid col)

/-- `a.Program … ix arr cut x`: `a` is the biggus array after some sequence of public operations, `x` the NumPy array after the same sequence of NumPy
operations.  Every constructor is one operation: on the left what the user does with biggus, on the right (last argument) what NumPy computes.
* `isAgg k col v`: `v` is the aggregate `k` of the column `col`
* `ix`: the array may still be indexed (by a later step); `arr`: also with tuples and arrays of indices; `fwd`: with non-negative indices and steps only
  (needed as soon as a mosaic is indexed)
* `cut`: how the engine is going to cut the array: `whole` at top level, `sliced` if it is going to be an argument of an aggregation or element-wise
  operation
An array that is not going to be indexed any more (`ix = false`) may be, also as an argument of an aggregation or element-wise operation, a stack or a mosaic of
anything.  What remains excluded are the cases in which the code is wrong or fails, see the notes of C04 - C12, C22, C24, C27, C30. -/
inductive Arr.Program [Inhabited α] (m : Mode α V) (limit : Nat) (isAgg : AggKind α → List V → V → Prop) (fwd : Bool) :
    Bool → Bool → Cut → Arr α → NDA V → Prop
  /-- `biggus.NumpyArrayAdapter(data)` or `biggus.OrthoArrayAdapter(data)`; NumPy: `data` -/
  | source (ix arr cut o c) : m.sourceSafe c → (ix = true → arr = true → o = true) →
      Program m limit isAgg fwd ix arr cut (.adapter o c []) (c.data.map (m.leaf c.fill))
  /-- `biggus.ConstantArray(s, v)`; NumPy: `np.full(s, v)` -/
  | const (ix arr cut s v dt) : Program m limit isAgg fwd ix arr cut (.const s v dt) ⟨s, fun _ => m.const v⟩
  /-- `biggus.NewAxesArray(a, na)`; NumPy: `x[np.newaxis, ...]` -/
  | newAxes {ix arr cut a x na b} : cut ≠ .arrays → (ix = true → arr = false) → Program m limit isAgg fwd ix arr cut a x →
      mkNewAxes a na = .ok b → Program m limit isAgg fwd ix arr cut b (x.insertAxes na)
  /-- `biggus.BroadcastArray(a, d, lead)`; NumPy: repeating along axes of length one and new leading axes -/
  | bcast {ix arr cut a x d lead b} : cut ≠ .arrays → (ix = true → arr = false) → Program m limit isAgg fwd ix arr cut a x →
      a.noLead → (d.map Prod.fst).Nodup → (∀ p ∈ d, x.shape[p.1]? = some 1) → (∀ l ∈ lead, 1 ≤ l) →
      mkBcast a d lead = .ok b → Program m limit isAgg fwd ix arr cut b (x.stretch d lead)
  /-- `a.transpose(axes)`; NumPy: `x.transpose(axes)` -/
  | transposed {ix arr cut a x axes b} : Program m limit isAgg fwd ix arr cut a x → axes.Perm (List.range x.shape.length) →
      mkTransposed a axes = .ok b → Program m limit isAgg fwd ix arr cut b (x.permute axes)
  /-- `biggus.ArrayStack(items)`; NumPy: stacking -/
  | stack {ix arr cut ss items b} {x : List Nat → NDA V} : (ix = true ∧ arr = true ∨ cut = .arrays → ss.length ≤ 1) → (cut ≠ .whole → ss ≠ []) →
      (ix = true → cut ≠ .whole → ∀ i, InB ss i → (items i).isProd = true) →
      (∀ i, InB ss i → Program m limit isAgg fwd ix arr cut (items i) (x i)) → mkStack ss items = .ok b →
      Program m limit isAgg fwd ix arr cut b (NDA.stacked ss x)
  /-- `biggus.LinearMosaic(tiles, axis)`; NumPy: `np.concatenate(tiles, axis)` -/
  | mosaic {ix arr cut axis b} {tiles : List (Arr α)} {x : Nat → NDA V} : (ix = true → fwd = true) →
      (ix = true → cut ≠ .whole → ∀ t ∈ tiles, t.isProd = true) →
      (∀ i, i < tiles.length → Program m limit isAgg fwd ix true (if cut = .whole then .whole else .arrays) (tiles.getD i default) (x i)) →
      mkMosaic tiles axis = .ok b → (ix = true ∨ cut ≠ .whole → 0 < (NDA.concat tiles.length x axis).shape.getD axis 0) →
      Program m limit isAgg fwd ix arr cut b (NDA.concat tiles.length x axis)
  /-- `AsDataTypeArray(a, dt)`, which is `a.astype(dt)` unless `a` is itself the result of an `astype` (see C15); NumPy: `x.astype(dt)` -/
  | asType {ix arr cut a x} (dt) : Program m limit isAgg fwd ix arr cut a x → Program m limit isAgg fwd ix arr cut (.asType a dt) (x.map (m.cast dt))
  /-- `biggus.masked_equal(a, v)`; NumPy: `np.ma.masked_equal(x, v)`, whose `ndarray` is `x` -/
  | maskVal {ix arr cut a x} (v) : Program m limit isAgg fwd ix arr cut a x →
      Program m limit isAgg fwd ix arr cut (.maskVal a v) (x.map (m.maskEq v))
  /-- `biggus.mean(a, axis)` and so on; NumPy: the same over the whole array -/
  | agg {ix arr cut a x axis k r} : Program m limit isAgg fwd ix arr cut.streamed a x → axis < x.shape.length → x.shape.getD axis 0 ≠ 0 →
      a.cutSafe limit axis (m.handler k) → AggregateOf (isAgg k) x axis r → Program m limit isAgg fwd ix arr cut (.agg a axis k) r
  /-- unary operations; NumPy: the same for every element -/
  | elem1 {ix arr cut a x op f} : Program m limit isAgg fwd ix arr cut.streamed a x → m.op1 op = some f →
      Program m limit isAgg fwd ix arr cut (.elem1 a op) (x.map f)
  /-- binary operations on arrays of the same shape; NumPy: the same for every element -/
  | elem2 {ix arr cut a x b y op f} : Program m limit isAgg fwd ix arr cut.streamed a x → Program m limit isAgg fwd ix arr cut.streamed b y →
      m.op2 op = some f → x.shape = y.shape → (cut = .whole ∨ a.skel = b.skel ∨ a.skel.fits limit ∧ b.skel.fits limit) →
      Program m limit isAgg fwd ix arr cut (.elem2 a b op) (x.zip y f)
  /-- `a[ks]`; NumPy: `x[ks]` -/
  | index {arr cut a x ks b r} : Program m limit isAgg fwd true arr cut a x → StepKeys fwd arr ks x.shape → (cut = .arrays → arr = true) →
      a.getitem ks = .ok b → npIndex x ks = .ok r → Program m limit isAgg fwd true arr cut b r
  /-- NumPy arrays with the same shape and the same elements are the same -/
  | same {ix arr cut a x y} : Program m limit isAgg fwd ix arr cut a x → x ≈ₐ y → Program m limit isAgg fwd ix arr cut a y
  /-- the array is not going to be indexed any more -/
  | keep {arr arr' cut a x} : Program m limit isAgg fwd true arr cut a x → Program m limit isAgg fwd false arr' cut a x

end Biggus

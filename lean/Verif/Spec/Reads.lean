import Verif.Model.Eval
import Mathlib.Algebra.Order.Group.Multiset
/-
SPECIFICATION SIDE.  Which elements of the data sources an expression needs, and which expressions are claimed to read
each of them exactly once.

Elements are values of the type `Option α`.  To see which elements are read think of sources all of whose elements are
different (names of elements): a list of elements is then a list of places, and a permutation of all of them contains
each place exactly once.
-/
namespace Biggus

variable {α : Type}

/-- The elements of data sources an expression stands for: of a data source the elements it selects (all of them if it
has not been indexed); of anything else what its parts stand for. -/
def Arr.needed : Arr α → List (Option α)
  | .adapter _ c keys => match npIndex c.data keys with
    | .ok r => r.toList
    | .error _ => []
  | .const _ _ _ => []
  | .newAxes a _ => a.needed
  | .bcast a _ _ => a.needed
  | .transposed a _ => a.needed
  | .stack ss items => (ndindex ss).flatMap (fun i => (items i).needed)
  | .mosaic n tiles _ => (List.range n).flatMap (fun i => (tiles i).needed)
  | .asType a _ => a.needed
  | .maskVal a _ => a.needed
  | .agg a _ _ => a.needed
  | .elem1 a _ => a.needed
  | .elem2 a b _ => a.needed ++ b.needed

/-- Expressions that read no source element twice, and none in vain.  `cuts` is how often the expression is going to be
cut into chunks; `streamed` says that the engine is already streaming it.
* no broadcast: a broadcast cut into chunks reads its array for every chunk
* a data source: orthogonal, or (NumPy) evaluated with at most one tuple among its keys, or (NumPy) cut once and indexed
  before in at most one dimension by something other than an integer: with several tuples `_apply_keys` reads everything
  along the dimensions of the tuples (_init.py:1526-1541), and slices that are cut become tuples (1440-1441)
* the tiles of a mosaic that is cut are given index arrays: orthogonal sources only -/
def Arr.thrifty : Bool → Nat → Arr α → Prop
  | _, cuts, .adapter o _ keys => o = true ∨ (cuts = 0 ∧ (keys.filter Key.isTuple).length ≤ 1) ∨
      (cuts = 1 ∧ (keys.filter (fun k => !k.isScalar)).length ≤ 1)
  | _, _, .const _ _ _ => True
  | _, cuts, .newAxes a _ => a.thrifty false cuts
  | _, _, .bcast _ _ _ => False
  | _, cuts, .transposed a _ => a.thrifty false cuts
  | _, cuts, .stack ss items => ∀ i, InB ss i → (items i).thrifty false cuts
  | _, cuts, .mosaic n tiles _ => ∀ i, i < n → (tiles i).thrifty false (if cuts = 0 then 0 else 2)
  | _, cuts, .asType a _ => a.thrifty false cuts
  | _, cuts, .maskVal a _ => a.thrifty false cuts
  | streamed, cuts, .agg a _ _ => a.thrifty true (if streamed then cuts else cuts + 1)
  | streamed, cuts, .elem1 a _ => a.thrifty true (if streamed then cuts else cuts + 1)
  | streamed, cuts, .elem2 a b _ => a.thrifty true (if streamed then cuts else cuts + 1) ∧
      b.thrifty true (if streamed then cuts else cuts + 1)

/-- The same expression with other data sources: every source `c` is replaced by `f c`. -/
def Arr.withSources (f : Concrete α → Concrete α) : Arr α → Arr α
  | .adapter o c keys => .adapter o (f c) keys
  | .const s v dt => .const s v dt
  | .newAxes a na => .newAxes (a.withSources f) na
  | .bcast a d lead => .bcast (a.withSources f) d lead
  | .transposed a axes => .transposed (a.withSources f) axes
  | .stack ss items => .stack ss (fun i => (items i).withSources f)
  | .mosaic n tiles axis => .mosaic n (fun i => (tiles i).withSources f) axis
  | .asType a dt => .asType (a.withSources f) dt
  | .maskVal a v => .maskVal (a.withSources f) v
  | .agg a axis k => .agg (a.withSources f) axis k
  | .elem1 a op => .elem1 (a.withSources f) op
  | .elem2 a b op => .elem2 (a.withSources f) (b.withSources f) op

/-- `f` changes nothing but the data: what is known of a source without reading it (shape, fill value, dtype) stays. -/
def OnlyData (f : Concrete α → Concrete α) : Prop :=
  ∀ c, (f c).data.shape = c.data.shape ∧ (f c).fill = c.fill ∧ (f c).dtype = c.dtype

/-- All data sources are orthogonal (netCDF variables and the like) and nothing is broadcast. -/
def Arr.orthoOnly : Arr α → Prop
  | .adapter o _ _ => o = true
  | .const _ _ _ => True
  | .newAxes a _ => a.orthoOnly
  | .bcast _ _ _ => False
  | .transposed a _ => a.orthoOnly
  | .stack ss items => ∀ i, InB ss i → (items i).orthoOnly
  | .mosaic n tiles _ => ∀ i, i < n → (tiles i).orthoOnly
  | .asType a _ => a.orthoOnly
  | .maskVal a _ => a.orthoOnly
  | .agg a _ _ => a.orthoOnly
  | .elem1 a _ => a.orthoOnly
  | .elem2 a b _ => a.orthoOnly ∧ b.orthoOnly

/-- Expressions of which `save` reads no source element twice, and none in vain.  `save` indexes the expression with integers
and slices and then evaluates the pieces.
* no broadcast: each piece of a broadcast reads its array
* a data source: orthogonal, or (NumPy) not indexed yet and, if `strict`, not at all.  `strict` says that index arrays may reach
  the source (below a mosaic) or that the engine cuts the piece again (below an aggregation or an element-wise operation). -/
def Arr.saveThrifty : Bool → Arr α → Prop
  | strict, .adapter o _ keys => o = true ∨ (strict = false ∧ keys = [])
  | _, .const _ _ _ => True
  | strict, .newAxes a _ => a.saveThrifty strict
  | _, .bcast _ _ _ => False
  | strict, .transposed a _ => a.saveThrifty strict
  | strict, .stack ss items => ∀ i, InB ss i → (items i).saveThrifty strict
  | _, .mosaic n tiles _ => ∀ i, i < n → (tiles i).saveThrifty true
  | strict, .asType a _ => a.saveThrifty strict
  | strict, .maskVal a _ => a.saveThrifty strict
  | _, .agg a _ _ => a.saveThrifty true
  | _, .elem1 a _ => a.saveThrifty true
  | _, .elem2 a b _ => a.saveThrifty true ∧ b.saveThrifty true

/-- Every element of a data source stands for itself, and everything computed from elements for all of them. -/
def usesMode (α : Type) : Mode α (Multiset (Option α)) where
  leaf _ x := {x}
  leaf0 _ x := {x}
  const _ := 0
  cast _ := id
  maskEq _ := id
  handler _ := { σ := Multiset (Option α), boot := 0, step := fun s col => s + col.sum, fin := fun _ s => s, emptyErr := none }
  op1 _ := some id
  op2 _ := some (· + ·)

/-- The source elements on which the element at `idx` of an expression depends, each as often as it is used. -/
def Arr.dependsOn (a : Arr α) (idx : List Nat) : Multiset (Option α) := (a.den (usesMode α)).get idx

end Biggus

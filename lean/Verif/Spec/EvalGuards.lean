import Verif.Spec.Guards
import Verif.Model.Eval
/-
SPECIFICATION SIDE.  For which expressions evaluation is claimed to give the NumPy array they stand for (`Arr.Ok`).
-/
namespace Biggus

variable {α V : Type}

/-- Stored keys a `NumpyArrayAdapter` reads orthogonally: NumPy's fancy indexing is orthogonal for them (at most one
index array, adjacent to all integers), or there are several tuples and this holds for the others. -/
def takeSafe (keys : List Key) : Prop :=
  if 1 < (keys.filter Key.isTuple).length then fancySafe (cutKeys keys) else fancySafe keys

/-- How the chunks of a streamed array arise: a data producer of the given shape, or an aggregation over an axis. -/
inductive Skel
  | prod (shape : List Nat)
  | agg (s : Skel) (axis : Nat)

/-- How an array is streamed by the engine: aggregations and element-wise operations are computed from the chunks of
their sources (the first source), everything else is read in chunks. -/
def Arr.skel : Arr α → Skel
  | .agg a axis _ => .agg a.skel axis
  | .elem1 a _ => a.skel
  | .elem2 a _ _ => a.skel
  | a => .prod (okOr a.shape [])

/-- Not computed from streams. -/
def Arr.isProd : Arr α → Bool
  | .agg _ _ _ | .elem1 _ _ | .elem2 _ _ _ => false
  | _ => true

/-- Into which slices every dimension of a streamed array is cut. -/
def Skel.cuts (limit : Nat) : Skel → List (List Key)
  | .prod s => allSlicesInner limit true s
  | .agg s axis => (s.cuts limit).eraseIdx axis

/-- Everything is read in one chunk: no dimension needs to be split for chunks of at most `limit` elements. -/
def Skel.fits (limit : Nat) : Skel → Prop
  | .prod s => ∀ i, (s.drop i).prod ≤ limit
  | .agg s _ => s.fits limit

/-- A handler whose answer does not depend on how the column is cut into (non-empty) pieces. -/
def Handler.Lawful (h : Handler V) : Prop :=
  ∀ n (chunks : List (List V)), chunks ≠ [] → (∀ c ∈ chunks, c ≠ []) → h.run n chunks = h.run n [chunks.flatten]

/-- A handler whose answer does not depend on how the column is cut, provided the first piece has at least two values. -/
def Handler.LawfulTwo (h : Handler V) : Prop :=
  ∀ n (c : List V) (cs : List (List V)), 2 ≤ c.length → (∀ d ∈ cs, d ≠ []) → h.run n (c :: cs) = h.run n [(c :: cs).flatten]

/-- The dimension of the source of an aggregation over `axis` that becomes dimension `i` of the result. -/
def skipAxis (axis i : Nat) : Nat := if i < axis then i else i + 1

/-- The number of elements that are read for one value along dimension `i`: the product of the dimensions to the right, in the shape of the data producer. -/
def Skel.right : Skel → Nat → Nat
  | .prod s, i => (s.drop (i + 1)).prod
  | .agg s axis, i => s.right (skipAxis axis i)

/-- A chunk of at most `limit` elements has room for `r` consecutive values along dimension `i`, with all of the dimensions to the right. -/
def Skel.holds (limit r : Nat) (sk : Skel) (i : Nat) : Prop := r * sk.right i ≤ limit

/-- The answer of the handler does not depend on how the engine cuts `a` along the axis: it never depends on the cutting; or the axis is not cut, since it has
one element only or fits into a chunk; or the first piece is all that matters, and it has two elements. -/
def Arr.cutSafe (limit : Nat) (a : Arr α) (axis : Nat) (h : Handler V) : Prop :=
  h.Lawful ∨ (okOr a.shape []).getD axis 0 = 1 ∨ a.skel.holds limit ((okOr a.shape []).getD axis 0) axis ∨
    h.LawfulTwo ∧ a.skel.holds limit 2 axis

/-- How an expression may be cut when a larger one is evaluated: not at all, by slices (chunks), or by slices and
index arrays (tiles of a mosaic that is cut). -/
inductive Cut
  | whole
  | sliced
  | arrays
deriving DecidableEq

/-- Streaming means cutting by slices. -/
def Cut.streamed : Cut → Cut
  | .whole => .sliced
  | c => c

/-- Streams that can be combined or aggregated: an aggregation whose answer may depend on how the data is cut needs
columns that are not cut, an aggregation that fails on nothing needs a non-empty axis; element-wise operations need
sources cut in the same way. -/
def Arr.streamOk (m : Mode α V) (limit : Nat) : Arr α → Prop
  | .agg a axis k => ((okOr a.shape []).getD axis 0 ≠ 0 ∨ (m.handler k).emptyErr = none) ∧
      a.cutSafe limit axis (m.handler k) ∧ a.streamOk m limit
  | .elem1 a op => (m.op1 op).isSome = true ∧ a.streamOk m limit
  | .elem2 a b op => (m.op2 op).isSome = true ∧ a.streamOk m limit ∧ b.streamOk m limit ∧
      (a.skel = b.skel ∨ a.skel.fits limit ∧ b.skel.fits limit)
  | _ => True

/-- Reading a single element of the data source shows the same as reading it together with others: always so for
`masked_array()`, and for `ndarray()` of a source without masked elements (or whose fill value is 0). -/
def Mode.sourceSafe (m : Mode α V) (c : Concrete α) : Prop :=
  ∀ i, InB c.data.shape i → m.leaf0 c.fill (c.data.get i) = m.leaf c.fill (c.data.get i)

/-- The keys do not select a single element, unless that makes no difference. -/
def Mode.zeroDimSafe (m : Mode α V) (c : Concrete α) (keys : List Key) : Prop :=
  slicedShape c.data.shape keys ≠ .ok [] ∨ m.sourceSafe c

/-- Expressions whose evaluation is claimed to be right.
* an adapter: not a single, possibly masked element (`zeroDimSafe`); no boolean mask among its keys (unless evaluated as it is); for a NumPy source `takeSafe`, and, if it can
  be given index arrays, either all its dimensions have been indexed or none by an integer
* a mosaic that is cut: not empty along its axis, and its tiles can be cut with index arrays
* new axes and broadcasts cannot be cut with index arrays, stacks only if one-dimensional; 0-dimensional stacks cannot be
  cut
* aggregations and element-wise operations: their sources are streamed (`Arr.streamOk`), hence cut by slices -/
def Arr.Ok (m : Mode α V) (limit : Nat) : Cut → Arr α → Prop
  | cut, .adapter o c keys => m.zeroDimSafe c keys ∧ (cut ≠ .whole → ∀ l, Key.barr l ∉ keys) ∧ (o = false → takeSafe keys ∧
      (cut = .arrays → keys.length = c.data.shape.length ∨ ∀ i, Key.int i ∉ keys))
  | _, .const _ _ _ => True
  | cut, .newAxes a _ => cut ≠ .arrays ∧ a.Ok m limit cut
  | cut, .bcast a _ _ => cut ≠ .arrays ∧ a.Ok m limit cut
  | cut, .transposed a _ => a.Ok m limit cut
  | cut, .stack ss items => (cut = .arrays → ss.length ≤ 1) ∧ (cut ≠ .whole → ss ≠ []) ∧ ∀ i, InB ss i → (items i).Ok m limit cut
  | cut, .mosaic n tiles axis => if cut = .whole then ∀ i, i < n → (tiles i).Ok m limit .whole
      else 0 < ((List.range n).map (fun i => (okOr (tiles i).shape []).getD axis 0)).sum ∧
        ∀ i, i < n → (tiles i).Ok m limit .arrays
  | cut, .asType a _ => a.Ok m limit cut
  | cut, .maskVal a _ => a.Ok m limit cut
  | cut, .agg a axis k => (Arr.agg a axis k).streamOk m limit ∧ a.Ok m limit cut.streamed
  | cut, .elem1 a op => (m.op1 op).isSome = true ∧ a.streamOk m limit ∧ a.Ok m limit cut.streamed
  | cut, .elem2 a b op => (m.op2 op).isSome = true ∧ a.streamOk m limit ∧ b.streamOk m limit ∧
      a.Ok m limit cut.streamed ∧ b.Ok m limit cut.streamed

end Biggus

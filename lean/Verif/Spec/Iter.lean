import Mathlib.Data.List.Forall2
import Verif.Model.Arrays
/-
SPECIFICATION SIDE.  Iteration over an array with Python's `for`, `list(a)`, `tuple(a)`, unpacking, ...

The array classes define `__getitem__` but neither `__iter__` nor `__len__`, so CPython falls back to the sequence protocol: `a[0]`,
`a[1]`, ... are taken until `IndexError` is raised; any other exception propagates.
-/
namespace Biggus

/-- `iter` of an object with `__getitem__` only, from index `i` on: `xs` are all the items. -/
inductive IterFrom {β : Type} (get : Nat → Res β) : Nat → List β → Prop
  | stop {i} : get i = .error .index → IterFrom get i []
  | next {i x xs} : get i = .ok x → IterFrom get (i + 1) xs → IterFrom get i (x :: xs)

variable {α : Type}

/-- `list(a)` returns `xs`. -/
def Arr.Iterates [Inhabited α] (a : Arr α) (xs : List (Arr α)) : Prop := IterFrom (fun i => a.getitem [.int i]) 0 xs

/-- Keys with one integer: `a[:, ..., :, i, :, ..., :]` with `p` and `q` full slices. -/
def oneInt (p : Nat) (i : Int) (q : Nat) : List Key := List.replicate p Key.full ++ .int i :: List.replicate q Key.full

/-- The dimension `p` of an array is checked when it is indexed: it comes from a data source (not indexed with a boolean array before), from a stack, is a new
or stretched dimension, ...; it is not a dimension of a `ConstantArray` or a leading dimension of a broadcast.  (A dimension of a mosaic
after the one along which the tiles are put together is left out here.)  The second operand of an element-wise operation is relevant if the
first is a constant, or a broadcast such as `1` in `1 + x`. -/
def Arr.checks : Arr α → Nat → Prop
  | .adapter _ _ keys, _ => ∀ l, Key.barr l ∉ keys
  | .const _ _ _, _ => False
  | .newAxes a na, p => match (naInsert true na (List.replicate (na.length - 1) false))[p]? with
      | some true => True
      | some false => a.checks (((naInsert true na (List.replicate (na.length - 1) false)).take p).count false)
      | none => False
  | .bcast a d lead, p => lead.length ≤ p ∧ ((∃ l, (p - lead.length, l) ∈ d) ∨ a.checks (p - lead.length))
  | .transposed a axes, p => ∃ q, axes[p]? = some q ∧ a.checks q
  | .stack ss items, p => p < ss.length ∨ ∀ i, InB ss i → (items i).checks (p - ss.length)
  | .mosaic n tiles axis, p => p ≤ axis ∧ ∀ i, i < n → (tiles i).checks p
  | .asType a _, p => a.checks p
  | .maskVal a _, p => a.checks p
  | .agg a axis _, p => a.checks (if p < axis then p else p + 1)
  | .elem1 a _, p => a.checks p
  | .elem2 a b _, p => a.checks p ∨ b.checks p ∧ ((∃ s v dt, a = .const s v dt) ∨ ∃ c lead, a = .bcast c [] lead ∧ p < lead.length)

/-- An array in which every dimension is checked, and stays so when the array is indexed with integers and slices: made of sources, stacks, new axes, stretched
axes, transpositions, casts, masked values, aggregations and element-wise operations; without constants, leading dimensions of broadcasts and mosaics
(except in the second operand of an operation, as in `x + 1`). -/
def Arr.firm : Arr α → Prop
  | .adapter _ _ _ => True
  | .const _ _ _ => False
  | .newAxes a _ => a.firm
  | .bcast a _ lead => lead = [] ∧ a.firm
  | .transposed a _ => a.firm
  | .stack ss items => ∀ i, InB ss i → (items i).firm
  | .mosaic _ _ _ => False
  | .asType a _ => a.firm
  | .maskVal a _ => a.firm
  | .agg a _ _ => a.firm
  | .elem1 a _ => a.firm
  | .elem2 a _ _ => a.firm

/-- The same for arrays that are only iterated over, row by row: mosaics (also of mosaics, ...) are allowed on the outside. -/
def Arr.deep : Arr α → Prop
  | .mosaic n tiles _ => ∀ i, i < n → (tiles i).deep
  | .asType a _ => a.deep
  | .maskVal a _ => a.deep
  | .elem1 a _ => a.deep
  | .elem2 a _ _ => a.deep
  | a => a.firm

/-- `d` nested loops, `for x1 in a: for x2 in x1: ... for xd in ...: visit(xd)`, visit the arrays `ls`, in this order. -/
def Arr.Loops [Inhabited α] : Nat → Arr α → List (Arr α) → Prop
  | 0, a, ls => ls = [a]
  | d + 1, a, ls => ∃ xs yss, a.Iterates xs ∧ List.Forall₂ (fun x ys => x.Loops d ys) xs yss ∧ ls = yss.flatten

end Biggus

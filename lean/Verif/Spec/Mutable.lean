import Verif.Model.Mutable
import Mathlib.Logic.Relation
/-
SPECIFICATION SIDE of mutable stacks: which immutable expression an object is at the moment, which stacks it is made of, and which of its memory cells a
program touches.
-/
namespace Biggus

variable {α V : Type}

/-- At this moment the object `o` is the array expression `a`: an `ArrayStack` is the stack of what its items are (which all have the shape
it announces), an object of another class is that class applied to what its parts are.  Its object arrays satisfy `P`; stacks are nested at most
`n` deep. -/
inductive Heap.IsIn (H : Heap α) (P : Nat → Prop) : Nat → ArrRef α → Arr α → Prop
  | arr (n : Nat) (a : Arr α) : IsIn H P n (.arr a) a
  | stack {n id : Nat} {s : StackObj} {c : Cell α} {f : List Nat → Arr α} : H.stackObjs[id]? = some s → H.cells[s.cell]? = some c → P s.cell →
      c.shape.prod ≠ 0 → (∀ i, InB c.shape i → (f i).shape = .ok s.itemShape) → (∀ i, InB c.shape i → IsIn H P n (c.items i) (f i)) →
      IsIn H P (n + 1) (.stack id) (.stack c.shape f)
  | asType {n : Nat} {o : ArrRef α} {a : Arr α} (dt : Nat) : IsIn H P n o a → IsIn H P n (.asType o dt) (.asType a dt)
  | maskVal {n : Nat} {o : ArrRef α} {a : Arr α} (v : α) : IsIn H P n o a → IsIn H P n (.maskVal o v) (.maskVal a v)
  | newAxes {n : Nat} {o : ArrRef α} {a : Arr α} (na : List Nat) : IsIn H P n o a → IsIn H P n (.newAxes o na) (.newAxes a na)
  | bcast {n : Nat} {o : ArrRef α} {a : Arr α} (d : List (Nat × Nat)) (lead : List Nat) : IsIn H P n o a → IsIn H P n (.bcast o d lead) (.bcast a d lead)
  | transposed {n : Nat} {o : ArrRef α} {a : Arr α} (axes : List Nat) : IsIn H P n o a → IsIn H P n (.transposed o axes) (.transposed a axes)
  | mosaic {n k : Nat} {tiles : Fin (k + 1) → ArrRef α} {f : Nat → Arr α} (axis : Nat) : (∀ i : Fin (k + 1), IsIn H P n (tiles i) (f i)) →
      IsIn H P n (.mosaic k tiles axis) (.mosaic (k + 1) f axis)
  | agg {n : Nat} {o : ArrRef α} {a : Arr α} (axis : Nat) (k : AggKind α) : IsIn H P n o a → IsIn H P n (.agg o axis k) (.agg a axis k)
  | elem1 {n : Nat} {o : ArrRef α} {a : Arr α} (op : Op1 α) : IsIn H P n o a → IsIn H P n (.elem1 o op) (.elem1 a op)
  | elem2 {n : Nat} {o o' : ArrRef α} {a a' : Arr α} (op : Op2 α) : IsIn H P n o a → IsIn H P n o' a' → IsIn H P n (.elem2 o o' op) (.elem2 a a' op)

/-- At this moment the object `o` is the array expression `a`. -/
def Heap.Is (H : Heap α) (o : ArrRef α) (a : Arr α) : Prop := ∃ n, H.IsIn (fun _ => True) n o a

/-- `o'` is an immediate part of the object `o`: the array it wraps, an operand, a tile, an item of its object array. -/
inductive Heap.Part (H : Heap α) : ArrRef α → ArrRef α → Prop
  | item {id : Nat} {s : StackObj} {c : Cell α} {i : List Nat} : H.stackObjs[id]? = some s → H.cells[s.cell]? = some c → InB c.shape i →
      Part H (.stack id) (c.items i)
  | asType (o : ArrRef α) (dt : Nat) : Part H (.asType o dt) o
  | maskVal (o : ArrRef α) (v : α) : Part H (.maskVal o v) o
  | newAxes (o : ArrRef α) (na : List Nat) : Part H (.newAxes o na) o
  | bcast (o : ArrRef α) (d : List (Nat × Nat)) (lead : List Nat) : Part H (.bcast o d lead) o
  | transposed (o : ArrRef α) (axes : List Nat) : Part H (.transposed o axes) o
  | tile {n : Nat} (tiles : Fin (n + 1) → ArrRef α) (axis : Nat) (i : Fin (n + 1)) : Part H (.mosaic n tiles axis) (tiles i)
  | agg (o : ArrRef α) (axis : Nat) (k : AggKind α) : Part H (.agg o axis k) o
  | elem1 (o : ArrRef α) (op : Op1 α) : Part H (.elem1 o op) o
  | left (o o' : ArrRef α) (op : Op2 α) : Part H (.elem2 o o' op) o
  | right (o o' : ArrRef α) (op : Op2 α) : Part H (.elem2 o o' op) o'

/-- `o'` is the object `o`, or a part of it, or a part of a part, ... -/
def Heap.Within (H : Heap α) (o o' : ArrRef α) : Prop := Relation.ReflTransGen H.Part o o'

/-- The stack `k` is used by an object. -/
def Heap.Uses (H : Heap α) (o : ArrRef α) (k : Nat) : Prop := H.Within o (.stack k)

/-- The object array `k` belongs to a stack used by the object. -/
def Heap.Reaches (H : Heap α) (o : ArrRef α) (k : Nat) : Prop := ∃ id s, H.Uses o id ∧ H.stackObjs[id]? = some s ∧ s.cell = k

/-- The object array `k` belongs to a stack that is used inside a `BroadcastArray` within the object. -/
def Heap.UnderBcast (H : Heap α) (o : ArrRef α) (k : Nat) : Prop := ∃ o' d lead, H.Within o (.bcast o' d lead) ∧ H.Reaches o' k

/-- Every `ArrayStack` has its object array. -/
def Heap.Valid (H : Heap α) : Prop := ∀ (id : Nat) (s : StackObj), H.stackObjs[id]? = some s → s.cell < H.cells.length

/-- What came into being between `H` and `H'`. -/
def Heap.newCells (H H' : Heap α) (k : Nat) : Prop := H.cells.length ≤ k ∧ k < H'.cells.length

@[inherit_doc Heap.newCells]
def Heap.newStacks (H H' : Heap α) (id : Nat) : Prop := H.stackObjs.length ≤ id ∧ id < H'.stackObjs.length

/-- The operation assigns no item of the `ArrayStack`s in `S` and does not use the object arrays in `C`. -/
def Op.Avoids (C S : Nat → Prop) : Op α → Prop
  | .put cell _ _ => ¬ C cell
  | .wrap cell => ¬ C cell
  | .assign id _ _ => ¬ S id
  | _ => True

/-- The stacks whose object arrays are in `C`. -/
def Heap.stacksOf (H : Heap α) (C : Nat → Prop) (id : Nat) : Prop := ∃ s, H.stackObjs[id]? = some s ∧ C s.cell

/-- `o.ndarray()` (or `o.masked_array()`, according to the mode) returns the array `r`. -/
def Heap.Returns [Inhabited α] [Inhabited V] (m : Mode α V) (limit : Nat) (H : Heap α) (o : ArrRef α) (r : NDA V) : Prop :=
  ∃ N, ∀ n, N ≤ n → ∃ r', H.eval m limit n n o = .ok r' ∧ r' ≈ₐ r

/-- `biggus.ndarrays([o])` (or `masked_arrays`, according to the mode) returns the array `r`. -/
def Heap.EngineReturns [Inhabited α] [Inhabited V] (m : Mode α V) (limit : Nat) (H : Heap α) (o : ArrRef α) (r : NDA V) : Prop :=
  ∃ N, ∀ n, N ≤ n → ∃ r', H.engineOne m limit n (Arr.eval m limit n) (fun G o => Heap.eval m limit n n G o) o = .ok r' ∧ r' ≈ₐ r

/-- The same object with other stacks: each stack `id` replaced by `φ id`. -/
def ArrRef.rename (φ : Nat → Nat) : ArrRef α → ArrRef α
  | .arr a => .arr a
  | .stack id => .stack (φ id)
  | .asType o dt => .asType (o.rename φ) dt
  | .maskVal o v => .maskVal (o.rename φ) v
  | .newAxes o na => .newAxes (o.rename φ) na
  | .bcast o d lead => .bcast (o.rename φ) d lead
  | .transposed o axes => .transposed (o.rename φ) axes
  | .mosaic n tiles axis => .mosaic n (fun i => (tiles i).rename φ) axis
  | .agg o axis k => .agg (o.rename φ) axis k
  | .elem1 o op => .elem1 (o.rename φ) op
  | .elem2 o o' op => .elem2 (o.rename φ) (o'.rename φ) op

end Biggus

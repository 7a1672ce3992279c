import Verif.Model.Eval
/-
MODEL of an `ArrayStack` that is evaluated by one thread while other threads assign to its items (`ArrayStack.__setitem__`, _init.py:1817-1822).

What the evaluating thread does with the stack is a sequence of *accesses* to its object array; other threads run in between.  `other k` are the
assignments made just before access number `k` (and after access number `k - 1`), in order.  An access is one NumPy operation, during which no other
thread runs: `self._stack[index]` (1827, 1834) when the stack is evaluated directly, `np.array(self._stack[keys])` (1806-1808) when the engine
indexes it.  The items themselves never change (no nested mutable stacks; they are in Model/Mutable, without concurrency).
-/
namespace Biggus

variable {α V : Type}

/-- An assignment `stack[index] = value` (_init.py:1817-1822); negative indices are taken as already normalised. -/
structure Assignment (α : Type) where
  index : List Nat
  value : Arr α

/-- `self._stack[keys] = value` (_init.py:1822). -/
def assignItem (items : List Nat → Arr α) (w : Assignment α) : List Nat → Arr α :=
  fun i => if i = w.index then w.value else items i

/-- The loop of `ArrayStack.ndarray` / `.masked_array` (_init.py:1826-1827, 1832-1835) from access `k` on: before each access others may assign. -/
def raceLoop [Inhabited α] [Inhabited V] (m : Mode α V) (limit n : Nat) (other : Nat → List (Assignment α)) :
    Nat → (List Nat → Arr α) → List (List Nat) → NDA V → Res (NDA V)
  | _, _, [], data => .ok data
  | k, items, i :: rest, data => do
      let items' := (other k).foldl assignItem items
      let d ← (items' i).eval m limit n
      let data' ← stackStore data i d
      raceLoop m limit n other (k + 1) items' rest data'

/-- `ArrayStack.ndarray` / `.masked_array` (_init.py:1824-1836) of a stack of shape `ss` with items of shape `s` (`self._item_shape`, 1755). -/
def stackRacing [Inhabited α] [Inhabited V] (m : Mode α V) (limit n : Nat) (other : Nat → List (Assignment α)) (ss s : List Nat)
    (items : List Nat → Arr α) : Res (NDA V) :=
  raceLoop m limit n other 0 items (ndindex ss) ⟨ss ++ s, fun _ => default⟩

/-- The loop of `ProducerNode.run` over the stack (_init.py:175-204) from chunk `k` on: `self.array[key]` is the access (1799-1815), the result is a
new stack, which nobody else knows (C44). -/
def raceChunks [Inhabited α] [Inhabited V] (m : Mode α V) (limit n : Nat) (other : Nat → List (Assignment α)) (ss : List Nat) :
    Nat → (List Nat → Arr α) → List (List Key) → Res (List (Chunk V))
  | _, _, [] => .ok []
  | k, items, key :: rest => do
      let items' := (other k).foldl assignItem items
      let b ← (Arr.stack ss items').getitem key
      let d ← b.eval m limit n
      let cs ← raceChunks m limit n other ss (k + 1) items' rest
      return (key, d) :: cs

/-- `engine.ndarrays(stack)` / `engine.masked_arrays(stack)` (_init.py:387-446), as a sequential program (C25). -/
def engineRacing [Inhabited α] [Inhabited V] (m : Mode α V) (limit n : Nat) (other : Nat → List (Assignment α)) (ss s : List Nat)
    (items : List Nat → Arr α) : Res (NDA V) := do
  let cs ← raceChunks m limit n other ss 0 items (chunkIndexGen limit (ss ++ s) (List.range (ss ++ s).length))
  assemble (ss ++ s) cs

/-! ### `save` -/

/-- The loop of `save([stack], [target])` (_init.py:2190-2196) from block `k` on, with `keys` from `saveKeys` (2189-2191): `array[keys]` (2193, 2195) is the
access to the stack, `.masked_array()` / `.ndarray()` evaluate the new array it returns, and the block is assigned to the target. -/
def saveRacing [Inhabited α] [Inhabited V] (m : Mode α V) (limit n : Nat) (other : Nat → List (Assignment α)) (ss : List Nat) :
    Nat → (List Nat → Arr α) → List (List Key) → NDA V → Res (NDA V)
  | _, _, [], t => .ok t
  | k, items, keys :: rest, t => do
      let items' := (other k).foldl assignItem items
      let b ← (Arr.stack ss items').getitem keys
      let d ← b.eval m limit n
      let w ← npAssignments t.shape keys d
      saveRacing m limit n other ss (k + 1) items' rest (w.foldl NDA.update t)

end Biggus

import Verif.Model.Group
/-
MODEL of `.ndarray()` / `.masked_array()` with the threaded engine: the operands of an element-wise operation are evaluated by one
call of the engine, as a group, and the result of a call of the engine is whatever an execution of its threads gives
(`Spec/Threads.lean`).
-/
namespace Biggus

variable {α V : Type}

/-- `result, = engine.ndarrays(...)` (_init.py:2662-2668): the result of a call of the engine with one array. -/
def theOne (r : Res (List (NDA V))) : Res (NDA V) :=
  match r with
  | .ok [x] => .ok x
  | .ok _ => .error .value
  | .error e => .error e

/-- `.ndarray()` / `.masked_array()` of every class, as in `Arr.evalWith` (same lines of _init.py), but with the calls of the engine
as they are in the code: `engine.ndarrays(self)` for an aggregation (2662-2668), `ndarrays(self.sources)` - one group of one or two
arrays - for an element-wise operation (3028-3038).  `engs xs` is `engine.ndarrays(*xs)` / `engine.masked_arrays(*xs)`. -/
def Arr.evalBy [Inhabited α] [Inhabited V] (m : Mode α V) (engs : List (Arr α) → Res (List (NDA V))) : Arr α → Res (NDA V)
  | .adapter o c keys => do
      let r ← applyKeys o c.data keys
      return r.map (if r.shape = [] then m.leaf0 c.fill else m.leaf c.fill)
  | .const s v _ => .ok ⟨s, fun _ => m.const v⟩
  | .newAxes a na => do
      let s ← a.shape
      let r ← a.evalBy m engs
      npIndex r (naInsert Key.newaxis na (List.replicate s.length Key.full))
  | .bcast a d lead => do
      let r ← a.evalBy m engs
      bcastNumpy r d lead
  | .transposed a axes => do
      let r ← a.evalBy m engs
      npTranspose r axes
  | .stack ss items => do
      let s ← (Arr.stack ss items).shape
      (ndindex ss).foldlM (fun data i => do
        let d ← (items i).evalBy m engs
        stackStore data i d) ⟨s, fun _ => default⟩
  | .mosaic n tiles axis => do
      let s ← (Arr.mosaic n tiles axis).shape
      let r ← (List.range n).foldlM (fun (st : NDA V × Nat) i => do
        let ts ← (tiles i).shape
        let d ← (tiles i).evalBy m engs
        let data ← mosaicStore axis st.1 st.2 (ts.getD axis 0) d
        return (data, st.2 + ts.getD axis 0)) (⟨s, fun _ => default⟩, 0)
      return r.1
  | .asType a dt => do
      let r ← a.evalBy m engs
      return r.map (m.cast dt)
  | .maskVal a v => do
      let r ← a.evalBy m engs
      return r.map (m.maskEq v)
  | .agg a axis k => theOne (engs [.agg a axis k])
  | .elem1 a op =>
      match m.op1 op with
      | none => .error .type
      | some f => do
        let r ← theOne (engs [a])
        return r.map f
  | .elem2 a b op =>
      match m.op2 op with
      | none => .error .type
      | some f => match engs [a, b] with
        | .ok [ra, rb] => npOp2 f ra rb
        | .ok _ => .error .type
        | .error e => .error e

end Biggus

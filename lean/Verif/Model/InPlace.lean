import Verif.Model.Eval
/-
MODEL of `save` when the array being saved reads the very array it is saved to: every block is read from the current content of the
target.
-/
namespace Biggus

/-- The loop of `save` (_init.py:2190-2196): `target[keys] = array[keys].ndarray()` (or `.masked_array()`) for one block after the
other.  `read t keys` is what `array[keys].ndarray()` gives while the target holds `t`. -/
def saveInto {β : Type} (read : NDA β → List Key → Res (NDA β)) : List (List Key) → NDA β → Res (NDA β)
  | [], t => .ok t
  | ks :: rest, t => do
    let d ← read t ks
    let ws ← npAssignments t.shape ks d
    saveInto read rest (ws.foldl NDA.update t)

/-- `save([array], [target], masked)` (_init.py:2163-2196) of an array that reads the target; `shape` is that of the array, by which
the blocks are chosen once, before anything is written (2189). -/
def saveInPlace {β : Type} (limit : Nat) (shape : List Nat) (read : NDA β → List Key → Res (NDA β)) (target : NDA β) : Res (NDA β) :=
  saveInto read (saveKeys limit shape) target

/-- The loop of `saveInto` as it changes the target (_init.py:2190-2196): the target and the exception that ended the loop, if any; see
`saveRun`. -/
def saveIntoRun {β : Type} (read : NDA β → List Key → Res (NDA β)) : List (List Key) → NDA β → NDA β × Option PyErr
  | [], t => (t, none)
  | ks :: rest, t =>
    match read t ks with
    | .error e => (t, some e)
    | .ok d =>
      match npAssignments t.shape ks d with
      | .error e => (t, some e)
      | .ok w => saveIntoRun read rest (w.foldl NDA.update t)

end Biggus

import Verif.Spec.NDArray
/-
MODEL of the key helpers of biggus/_init.py.
-/
namespace Biggus

/-- `_is_scalar` (_init.py:49-50). -/
def Key.isScalar : Key → Bool
  | .int _ => true
  | _ => false

/-- The `while keys:` loop of `_full_keys` (_init.py:3266-3282): pop from the left until an Ellipsis is
seen, then from the right until the next one, and so on; each Ellipsis is replaced by `slice(None)`.
Returns `(lh_keys, rh_keys)`, `rh_keys` with the last key first. -/
def fullKeysLoop (takeFromLeft : Bool) (keys lh rh : List Key) : List Key × List Key :=
  if takeFromLeft then
    match keys with
    | [] => (lh, rh)
    | k :: ks =>
      if k.isEllipsis then fullKeysLoop false ks (lh ++ [Key.full]) rh
      else fullKeysLoop true ks (lh ++ [k]) rh
  else if h : keys = [] then (lh, rh)
  else
    let k := keys.getLast h
    if k.isEllipsis then fullKeysLoop true keys.dropLast lh (rh ++ [Key.full])
    else fullKeysLoop false keys.dropLast lh (rh ++ [k])
termination_by keys.length
decreasing_by
  all_goals first
    | (simp; done)
    | (have := List.length_pos_iff.mpr h
       simp [List.length_dropLast]; omega)

/-- `_full_keys(keys, ndim)` (_init.py:3235-3285) for a key *tuple* (a lone key is wrapped in a 1-tuple
by the caller, _init.py:3245-3246). -/
def fullKeys (keys : List Key) (ndim : Nat) : Res (List Key) :=
  -- n_keys_non_newaxis (3252)
  let n0 := nConsuming keys
  -- remove the left-most Ellipsis if it must stand for nothing (3257-3261).
  -- Python: `n - 1 >= ndim`; with naturals `ndim + 1 ≤ n`.
  let drop := decide (ndim + 1 ≤ n0) && keys.any Key.isEllipsis
  let keys' := if drop then keys.eraseP Key.isEllipsis else keys
  let n := if drop then n0 - 1 else n0
  if ndim < n then .error .index              -- 3263-3264
  else
    let (lh, rh) := fullKeysLoop true keys' [] []
    .ok (lh ++ List.replicate (ndim - n) Key.full ++ rh.reverse)   -- 3284-3285

/-- The loop of `_sliced_shape` (_init.py:3211-3229).  The remaining suffix of `shape` plays the role of
`shape_dim`: every key except `newaxis` advances it. -/
def slicedShapeLoop : List Key → List Nat → Res (List Nat)
  | [], _ => .ok []
  | .int _ :: ks, sh => slicedShapeLoop ks sh.tail
  | .slice s :: ks, sh =>
      match sh with
      | [] => .error .index
      | n :: ns => do
          let r ← s.range n
          let rest ← slicedShapeLoop ks ns
          return r.length :: rest
  | .barr l :: ks, sh => do                     -- builtins.sum(key)
      let rest ← slicedShapeLoop ks sh.tail
      return l.count true :: rest
  | .tuple l :: ks, sh | .iarr l :: ks, sh => do
      let rest ← slicedShapeLoop ks sh.tail
      return l.length :: rest
  | .newaxis :: ks, sh => do
      let rest ← slicedShapeLoop ks sh
      return 1 :: rest
  | .list _ :: _, _ | .ellipsis :: _, _ | .bad :: _, _ => .error .value

/-- `_sliced_shape(shape, keys)` (_init.py:3198-3232). -/
def slicedShape (shape : List Nat) (keys : List Key) : Res (List Nat) := do
  let fk ← fullKeys keys shape.length
  slicedShapeLoop fk shape

end Biggus

import Verif.Model.Meta
/-
MODEL of the constructors as a user calls them: with arbitrary (also negative) integers, and with the dtype checks.
Arguments that are not integers or arrays at all are not modelled.
-/
namespace Biggus

variable {α : Type}

/-- `NewAxesArray(array, new_axes)` (_init.py:730-757). -/
def newAxesCtor (a : Arr α) (na : List Int) : Res (Arr α) := do
  let s ← a.shape
  if s.length + 1 ≠ na.length then throw .value          -- 747-750
  else if na.any (· < 0) then throw .value               -- 753-755
  else mkNewAxes a (na.map Int.toNat)

/-- The checks of `_shape_from_broadcast_dict` on the given integers (_init.py:1079-1089); the length of the axis is checked by
`shapeFromDict`. -/
def dictChecks (ndim : Nat) (dict : List (Int × Int)) : Bool :=
  dict.all (fun p => decide (0 ≤ p.1 ∧ p.1 < ndim) && decide (0 ≤ p.2))

/-- Number of dimensions of the array that is broadcast: without the leading ones of a broadcast that is flattened (_init.py:888-893). -/
def bcastNdim (a : Arr α) (ndim : Nat) : Nat :=
  match a with
  | .bcast _ _ l => ndim - l.length
  | _ => ndim

/-- `BroadcastArray(array, broadcast, leading_shape)` (_init.py:866-905): the checks apply to the dictionary merged with that of a broadcast
that is flattened (885-893), whose own entries have been checked already.  Negative leading lengths are rejected like 0 (900-902). -/
def bcastCtor (a : Arr α) (dict : List (Int × Int)) (lead : List Int) : Res (Arr α) := do
  let s ← a.shape
  if ¬ dictChecks (bcastNdim a s.length) dict then throw .value
  else if lead.any (· < 1) then throw .value
  else mkBcast a (dict.map (fun p => (p.1.toNat, p.2.toNat))) (lead.map Int.toNat)

/-- `TransposedArray(array, axes)` (_init.py:1610-1630): only the number of axes is checked.  A negative axis is represented by one that is
out of range (`axes.length`): like that one it is not a key of the axes maps (1629-1630), so that using the array raises `KeyError`. -/
def transposedCtor (a : Arr α) (axes : List Int) : Res (Arr α) :=
  mkTransposed a (axes.map (fun i => if 0 ≤ i then i.toNat else axes.length))

/-- `LinearMosaic(tiles, axis)` (_init.py:1913-1954): the axis is compared with the first tile (1922). -/
def mosaicCtor [Inhabited α] (T : DTypes α) (tiles : List (Arr α)) (axis : Int) : Res (Arr α) :=
  match tiles with
  | [] => .error .index                                   -- tiles[0] (1919)
  | _ :: _ => if axis < 0 then .error .value else mkMosaicD T tiles axis.toNat

end Biggus

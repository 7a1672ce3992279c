import Verif.Model.Meta
/-
MODEL of the fill value of what `.masked_array()` returns.  (`Concrete.fill` is what `_ArrayAdapter.fill_value` gives for a data source: its own, or
the default of its dtype.)
-/
namespace Biggus

variable {α : Type}

/-- The fill value set on the masked array that `.masked_array()` returns, `none` if none has been set (NumPy then uses the default of the dtype).
1484-1491 (adapter: a masked source keeps its fill value when indexed, otherwise it is set to `self.fill_value`), 1260-1263 (constant: `np.ma.empty`),
859-861 and 1713-1715 (new axes, transposition: views keep it), 1110-1118 (broadcast: a new masked array of the data and the mask), 1155-1157 (astype:
converted; `cast dt` converts to the dtype), 1179-1181 (`np.ma.masked_equal` sets it to the value), 1830-1832 and 2068-2070 (stack, mosaic: `self.fill_value`),
2666-2668 with 311-313 (aggregation: the result node of the engine is `np.ma.empty`), 3033-3039 (element-wise: NumPy takes that of the operands,
which come from the engine). -/
def Arr.setFill (T : DTypes α) (F : Fills α) (cast : Nat → α → α) : Arr α → Option α
  | .adapter _ c _ => some c.fill
  | .const _ _ _ => none
  | .newAxes a _ => a.setFill T F cast
  | .bcast _ _ _ => none
  | .transposed a _ => a.setFill T F cast
  | .stack ss items => some ((Arr.stack ss items).fillValue T F)
  | .mosaic n tiles axis => some ((Arr.mosaic n tiles axis).fillValue T F)
  | .asType a dt => (a.setFill T F cast).map (cast dt)
  | .maskVal _ v => some v
  | .agg _ _ _ => none
  | .elem1 _ _ => none
  | .elem2 _ _ _ => none

/-- `a.masked_array().fill_value`. -/
def Arr.evalFill (T : DTypes α) (F : Fills α) (cast : Nat → α → α) (a : Arr α) : α := (a.setFill T F cast).getD (F.default (a.evalDtype T))

/-- `biggus.masked_arrays([a])[0].fill_value`: results of the engine are allocated with `np.ma.empty` (_init.py:311-313). -/
def Arr.engineFill (T : DTypes α) (F : Fills α) (a : Arr α) : α := F.default (a.dtype T)

end Biggus

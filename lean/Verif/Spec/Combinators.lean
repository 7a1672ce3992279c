import Verif.Spec.NDArray
/-
SPECIFICATION SIDE.  What NumPy computes for new axes, broadcasting, transposing, stacking, concatenating and
reducing along an axis, as operations on `NDA`.  Nothing in this file models biggus code.
-/
namespace Biggus

variable {β : Type}

/-- Shape with `na[i]` length-1 dimensions inserted before dimension `i` (the last entry: at the end). -/
def naShape : List Nat → List Nat → List Nat
  | [], s => s
  | n :: ns, s :: ss => List.replicate n 1 ++ s :: naShape ns ss
  | n :: _, [] => List.replicate n 1

/-- Drop the coordinates of the inserted dimensions. -/
def naStrip : List Nat → List Nat → List Nat
  | [], idx => idx
  | [_], _ => []
  | n :: ns, idx => match idx.drop n with
    | [] => []
    | i :: r => i :: naStrip ns r

/-- `x[np.newaxis, ..., :, np.newaxis, ...]`. -/
def NDA.insertAxes (a : NDA β) (na : List Nat) : NDA β :=
  ⟨naShape na a.shape, fun idx => a.get (naStrip na idx)⟩

/-- Sizes after stretching axis `p` to `len` for every `(p, len)` of `d` (axes numbered from `p`). -/
def bcShape (d : List (Nat × Nat)) : Nat → List Nat → List Nat
  | _, [] => []
  | p, n :: ns => (d.lookup p).getD n :: bcShape d (p + 1) ns

/-- Coordinates in the array before stretching: 0 on the stretched axes. -/
def bcIdx (d : List (Nat × Nat)) : Nat → List Nat → List Nat
  | _, [] => []
  | p, i :: is => (if (d.lookup p).isSome then 0 else i) :: bcIdx d (p + 1) is

/-- Repeat the data along the axes of `d` and along new leading dimensions `lead`. -/
def NDA.stretch (a : NDA β) (d : List (Nat × Nat)) (lead : List Nat) : NDA β :=
  ⟨lead ++ bcShape d 0 a.shape, fun idx => a.get (bcIdx d 0 (idx.drop lead.length))⟩

/-- `x.transpose(axes)`: dimension `i` of the result is dimension `axes[i]` of `x`. -/
def NDA.permute (a : NDA β) (axes : List Nat) : NDA β :=
  ⟨axes.map (fun j => a.shape.getD j 0),
   fun idx => a.get ((List.range axes.length).map (fun j => idx.getD (axes.idxOf j) 0))⟩

/-- Stack of equally shaped arrays: element `[i..., j...]` is element `[j...]` of item `[i...]`. -/
def NDA.stacked (ss : List Nat) (items : List Nat → NDA β) : NDA β :=
  ⟨ss ++ (items (ss.map (fun _ => 0))).shape, fun idx => (items (idx.take ss.length)).get (idx.drop ss.length)⟩

/-- Rank of an index in column-major (Fortran) order: the first coordinate varies fastest. -/
def colIndex : List Nat → List Nat → Nat
  | n :: ns, i :: is => i + n * colIndex ns is
  | _, _ => 0

/-- Which piece, and where in it, position `i` of a concatenation of pieces of the given lengths is. -/
def locate : List Nat → Nat → Nat × Nat
  | [], i => (0, i)
  | l :: ls, i => if i < l then (0, i) else let (t, j) := locate ls (i - l); (t + 1, j)

/-- `np.concatenate(tiles, axis)`. -/
def NDA.concat (n : Nat) (tiles : Nat → NDA β) (axis : Nat) : NDA β :=
  let lens := (List.range n).map (fun i => (tiles i).shape.getD axis 0)
  ⟨(tiles 0).shape.set axis lens.sum, fun idx =>
    let (t, j) := locate lens (idx.getD axis 0)
    (tiles t).get (idx.set axis j)⟩

/-- The values along `axis` above the output position `idx`. -/
def NDA.column (a : NDA β) (axis : Nat) (idx : List Nat) : List β :=
  (List.range (a.shape.getD axis 0)).map (fun j => a.get (idx.insertIdx axis j))

/-- Reduce along `axis` with `f`. -/
def NDA.reduce (a : NDA β) (axis : Nat) (f : List β → β) : NDA β :=
  ⟨a.shape.eraseIdx axis, fun idx => f (a.column axis idx)⟩

/-- Element-wise combination (shape of the first operand). -/
def NDA.zip {γ δ : Type} (a : NDA β) (b : NDA γ) (f : β → γ → δ) : NDA δ :=
  ⟨a.shape, fun idx => f (a.get idx) (b.get idx)⟩

end Biggus

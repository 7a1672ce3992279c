import Verif.Proofs.Refuse
import Verif.Props.Iter
/-
C78: indices that do not exist are never accepted.
-/
namespace Biggus

open Spec

variable {α V : Type} [Inhabited α] [Inhabited V] {m : Mode α V} {limit : Nat}

/-- C78.  Index any well-formed array with any keys (`fk` once `...` is expanded; `newaxis` apart, the `p`-th of them is for dimension `p`).  If the key `k`
for dimension `p`, of length `n`, is an integer out of range, or a sequence containing one, indexing never succeeds - whatever the other keys are - provided
`p` is a dimension whose indices are checked (`Arr.refuses`). -/
theorem C78_never_accepted (seq : Bool) (a : Arr α) (hwf : a.WF) {s : List Nat} (hs : a.shape = .ok s) (keys fk : List Key)
    (hfk : expandKeys keys s.length = .ok fk) {p n : Nat} {k : Key} (hp : s[p]? = some n) (hk : (dropNew fk)[p]? = some k) (ho : k.outside seq n)
    (hc : a.refuses seq p) : ∃ e, a.getitem keys = .error e := by
  cases h : a.getitem keys with
  | ok b => exact (getitem_refuses seq a hwf hs hc hp hfk hk ho h).elim
  | error e => exact ⟨e, rfl⟩

/-- C78 for everything a user builds with the constructors, beside what NumPy does with the values of the array: it accepts such keys for no dimension. -/
theorem C78_built (fwd : Bool) (seq : Bool) (a : Arr α) (hb : a.Built m limit fwd false .whole) (x : NDA V) (hx : a.Yields m limit x)
    (keys fk : List Key) (hfk : expandKeys keys x.shape.length = .ok fk) {p n : Nat} {k : Key} (hp : x.shape[p]? = some n)
    (hk : (dropNew fk)[p]? = some k) (ho : k.outside seq n) :
    (∀ r, npIndex x keys ≠ .ok r) ∧ (a.refuses seq p → ∃ e, a.getitem keys = .error e) := by
  refine ⟨fun r hr => ?_, C78_never_accepted seq a hb.fine.1 hx.1 keys fk hfk hp hk ho⟩
  obtain ⟨fk', τ, hfk', hτ, _⟩ := npIndex_ok_iff.mp hr
  rw [hfk] at hfk'
  cases hfk'
  exact outside_resolve_new (expandKeys_spec hfk).1 hτ hk hp ho

/-- C78: more keys than dimensions (`newaxis` and `...` not counted) raise `IndexError`, whatever the array is and whatever the keys are. -/
theorem C78_too_many_keys (a : Arr α) (hwf : a.WF) {s : List Nat} (hs : a.shape = .ok s) (keys : List Key)
    (h : s.length < ((keys.filter fun k => !k.isNewaxis).filter fun k => !k.isEllipsis).length) :
    a.getitem keys = .error .index :=
  getitem_too_many a hwf hs (fullKeys_too_many h)

/-- A source sliced, transposed, put beside itself in a mosaic and given a new axis. -/
def exRefuse : Arr ℚ := .newAxes (.mosaic 2 (fun _ => .transposed (.adapter false exSource []) [2, 0, 1]) 0) [1, 0, 0, 0]

example : exRefuse.shape = .ok [1, 8, 2, 3] := by decide +kernel

/-- The hypotheses are met, with keys on every dimension and the index out of range behind the axis of the mosaic. -/
example : exRefuse.refuses true 3 ∧ expandKeys [.newaxis, .ellipsis, .tuple [1, 0], .tuple [0, 3]] 4 = .ok [.newaxis, .full, .full, .tuple [1, 0], .tuple [0, 3]] ∧
    (Key.tuple [0, 3]).outside true 3 ∧
    (exRefuse.getitem [.newaxis, .ellipsis, .tuple [1, 0], .tuple [0, 3]]).map (fun a => a.shape) = .error .index ∧
    (exRefuse.getitem [.newaxis, .ellipsis, .tuple [1, 0], .tuple [0, 2]]).map (fun a => a.shape) = .ok (.ok [1, 1, 8, 2, 2]) := by
  refine ⟨?_, by decide +kernel, Or.inr ⟨rfl, [0, 3], Or.inl rfl, 3, by simp, by simp⟩, by decide +kernel, by decide +kernel⟩
  refine ⟨fun h => absurd h (by decide), fun i _ => ⟨1, rfl, trivial⟩⟩

example : (exRefuse.getitem [.int 0, .int 0, .ellipsis, .int 0, .int 0, .newaxis, .int 0]).map (fun a => a.shape) = .error .index := by decide +kernel

/-- C78 fails of the code for a sequence on the axis of a mosaic: a mosaic of two tiles of length 2 indexed with `(0, 9)` gives one element, where NumPy
raises `IndexError` (an index alone in its tile becomes a slice, and slices are clipped). -/
theorem C78_mosaic_sequence_accepted :
    ∃ a : Arr ℚ, Res.view (a.eval exMode 100 1) = .ok ([4], [0, 1, 10, 11]) ∧
      Res.view (npIndex (⟨[4], fun _ => (0 : ℚ)⟩ : NDA ℚ) [.tuple [0, 9]]) = .error .index ∧
      Res.view (a.getitem [.tuple [0, 9]] >>= fun b => b.eval exMode 100 1) = .ok ([1], [0]) :=
  ⟨.mosaic 2 (fun i => .adapter false ⟨⟨[2], fun idx => some (10 * i + (flatIndex [2] idx : Nat))⟩, 0, 0⟩ []) 0, by decide +kernel, by decide +kernel,
    by decide +kernel⟩

end Biggus

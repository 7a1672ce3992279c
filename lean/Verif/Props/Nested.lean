import Verif.Proofs.StreamKeys
import Verif.Props.Elementwise
/-
C29: the chunks of one output region arrive one after the other, however deeply aggregations are nested.
-/
namespace Biggus

variable {α V : Type} [Inhabited α] [Inhabited V]

/-- C29.  `agg(a, axis)` for any streamed expression `a` (sources, aggregations of aggregations, element-wise operations in between;
`samePace`: operands of an element-wise operation are cut alike), any chunk limit, any order in which its chunks are asked for, and whatever
the data and the reads of the sources (`evalP`) give.  If `a` delivers its chunks `cs`, then there are output regions, all different, such that
`cs` are, region by region, the chunks of that region (one for each part of the aggregated axis, in the order of the axis); every element of
the result lies in exactly one output region; and the aggregation emits exactly one chunk for every output region, in this order. -/
theorem C29_nested_aggregations (m : Mode α V) (limit : Nat) (evalP : Arr α → Res (NDA V)) (a : Arr α) (axis : Nat) (k : AggKind α) (shape order : List Nat)
    (cs : List (Chunk V)) (hwf : (Arr.agg a axis k).WF) (hpace : a.samePace) (hs : a.shape = .ok shape) (hp : order.Perm (List.range (shape.length - 1)))
    (hcs : a.stream m limit evalP (aggOrder axis order) = .ok cs) :
    ∃ (regions : List (List Key)) (parts : List Key),
      cs.map Prod.fst = regions.flatMap (fun region => parts.map (fun part => region.insertIdx axis part)) ∧
      regions.Nodup ∧ parts ≠ [] ∧ parts.flatMap (fun part => keyPos part (shape.getD axis 0)) = List.range (shape.getD axis 0) ∧
      (∀ idx, InB (shape.eraseIdx axis) idx → (regions.filter (fun region => inRegion region (shape.eraseIdx axis) idx)).length = 1) ∧
      ∀ out, (Arr.agg a axis k).stream m limit evalP order = .ok out → out.map Prod.fst = regions := by
  obtain ⟨w1, w2⟩ := skel_shape m _ hwf
  have hwa : a.WF := hwf.1
  obtain ⟨v1, v2⟩ := skel_shape m _ hwa
  have hsh : a.skel.shape = shape := by
    rw [hwa.shape_eq m] at hs
    cases hs
    exact v2
  have hax : axis < a.skel.shape.length := w1.2
  have hc := a.skel.cutsOk limit v1
  rw [hsh] at hc hax
  have hcl := hc.length
  have hce := hc.eraseIdx axis
  have helen : (shape.eraseIdx axis).length = shape.length - 1 := by rw [List.length_eraseIdx, if_pos hax]
  have hpe : order.Perm (List.range (shape.eraseIdx axis).length) := by rw [helen]; exact hp
  have hperm := chunkKeysOf_perm_cart (n := (shape.eraseIdx axis).length) hpe _ hce.length hce.nodup
  have hcut := forall₂_getD hc axis (by omega) [] 0
  have hkeys := stream_keys m limit evalP a (aggOrder axis order) cs hwa hpace (by rw [hsh]; exact aggOrder_perm' hax hp) hcs
  refine ⟨chunkKeysOf ((a.skel.cuts limit).eraseIdx axis) order, (a.skel.cuts limit).getD axis [], ?_, hperm.2, hcut.ne, hcut.tile, ?_, ?_⟩
  · rw [hkeys]
    unfold aggOrder
    exact chunkKeysOf_agg _ axis order (by omega) (by rw [hcl]; exact hp)
  · intro idx hidx
    rw [← List.countP_eq_length_filter, hperm.1.countP_eq]
    exact cart_covers_once _ _ hce.tiles idx hidx
  · intro out ho
    simp only [Arr.stream] at ho
    obtain ⟨s, _, ho⟩ := bind_ok.mp ho
    obtain ⟨ca, h1, ho⟩ := bind_ok.mp ho
    rw [hcs] at h1
    cases h1
    exact aggStream_keys _ _ hc hax hp hkeys ho

/-- A 2 x 3 x 2 source. -/
def exCube : Concrete ℚ := ⟨⟨[2, 3, 2], fun i => match i with
  | [i, j, k] => some (6 * i + 2 * j + k)
  | _ => none⟩, 0, 0⟩

/-- The hypotheses are met by `sum(sum(cube, axis=1), axis=0)` in chunks of one or two elements: the inner sum delivers the chunks of the two
output regions of the outer sum one region after the other, and the outer sum one chunk for each. -/
example : (Arr.agg (.agg (.adapter false exCube []) 1 .sum) 0 .sum : Arr ℚ).WF ∧ (Arr.agg (.adapter false exCube []) 1 .sum : Arr ℚ).samePace ∧
    (Arr.agg (.adapter false exCube []) 1 .sum : Arr ℚ).shape = .ok [2, 2] ∧
    ((Arr.agg (.adapter false exCube []) 1 .sum).stream exMode 1 (fun a => a.eval exMode 1 3) (aggOrder 0 [0])).map (fun cs => cs.map Prod.fst) =
      .ok [[.span 0 1, .span 0 1], [.span 1 2, .span 0 1], [.span 0 1, .span 1 2], [.span 1 2, .span 1 2]] ∧
    ((Arr.agg (.agg (.adapter false exCube []) 1 .sum) 0 .sum).stream exMode 1 (fun a => a.eval exMode 1 3) [0]).map (fun cs => cs.map (fun c => (c.1, c.2.toList))) =
      .ok [([.span 0 1], [30]), ([.span 1 2], [36])] := by
  refine ⟨?_, ?_, by decide +kernel, by decide +kernel, by decide +kernel⟩
  · exact ⟨⟨⟨fun _ h => (by cases h), _, rfl⟩, [2, 3, 2], by decide +kernel, by decide⟩, [2, 2], by decide +kernel, by decide⟩
  · trivial

end Biggus

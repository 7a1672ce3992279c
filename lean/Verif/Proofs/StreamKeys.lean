import Verif.Proofs.DaskMake
import Verif.Spec.Groups
/-
The keys of the chunks in a stream, whatever the data.
-/
namespace Biggus

variable {α V : Type}

theorem dropRepeats_replicate (k : List Key) (l : List (List Key)) : ∀ n, dropRepeats (List.replicate (n + 1) k ++ l) = dropRepeats (k :: l)
  | 0 => rfl
  | n + 1 => by
    rw [List.replicate_succ, List.replicate_succ, List.cons_append, List.cons_append, dropRepeats, if_pos rfl]
    have := dropRepeats_replicate k l n
    rw [List.replicate_succ, List.cons_append] at this
    exact this

theorem dropRepeats_blocks (n : Nat) : ∀ (l : List (List Key)), l.Nodup → dropRepeats (l.flatMap (fun o => List.replicate (n + 1) o)) = l
  | [], _ => rfl
  | [k], _ => by
    have := dropRepeats_replicate k [] n
    simpa [dropRepeats] using this
  | k :: k' :: l, h => by
    have ih := dropRepeats_blocks n (k' :: l) (List.nodup_cons.mp h).2
    rw [List.flatMap_cons, dropRepeats_replicate]
    rw [List.flatMap_cons] at ih ⊢
    rw [List.replicate_succ, List.cons_append] at ih ⊢
    rw [dropRepeats, if_neg, ih]
    rintro rfl
    exact (List.nodup_cons.mp h).1 (by simp)

theorem aggLoop_keys (h : Handler V) (axis n : Nat) : ∀ (cs : List (Chunk V)) (st : AggState V h) (out : List (Chunk V)), aggLoop h axis n st cs = .ok out →
    out.map Prod.fst = dropRepeats ((match st with | some (cur, _) => [cur] | none => []) ++ cs.map (fun c => c.1.eraseIdx axis))
  | [], some (cur, s), out, hr => by
    simp only [aggLoop] at hr
    cases hr
    simp [aggFinalise, dropRepeats]
  | [], none, out, hr => by cases hr
  | c :: cs, st, out, hr => by
    simp only [aggLoop] at hr
    obtain ⟨⟨st', o1⟩, h1, hr⟩ := bind_ok.mp hr
    obtain ⟨rest, h2, hr⟩ := bind_ok.mp hr
    cases hr
    have ih := aggLoop_keys h axis n cs st' rest h2
    rw [List.map_append, ih]
    unfold aggProcessChunk at h1
    cases st with
    | none =>
      obtain ⟨s', _, h1⟩ := bind_ok.mp h1
      cases h1
      simp
    | some p =>
      obtain ⟨cur, s⟩ := p
      simp only at h1
      split at h1
      · rename_i hne
        obtain ⟨s', _, h1⟩ := bind_ok.mp h1
        cases h1
        simp only [List.map_cons, List.map_nil, List.cons_append, List.nil_append, aggFinalise]
        rw [dropRepeats, if_neg (fun e => hne e.symm)]
      · rename_i he
        obtain ⟨s', _, h1⟩ := bind_ok.mp h1
        cases h1
        have he : c.1.eraseIdx axis = cur := by simpa using he
        simp only [List.map_cons, List.map_nil, List.cons_append, List.nil_append]
        rw [he, dropRepeats, if_pos rfl]

theorem elem2Stream_keys (f : V → V → V) : ∀ (ca cb out : List (Chunk V)), elem2Stream f ca cb = .ok out → ca.map Prod.fst = cb.map Prod.fst →
    out.map Prod.fst = ca.map Prod.fst
  | [], cb, out, h, _ => by
    simp only [elem2Stream] at h
    cases h; rfl
  | c1 :: ca, [], out, h, e => by cases e
  | c1 :: ca, c2 :: cb, out, h, e => by
    simp only [elem2Stream] at h
    obtain ⟨d, _, h⟩ := bind_ok.mp h
    obtain ⟨rest, h2, h⟩ := bind_ok.mp h
    cases h
    simp only [List.map_cons, List.cons.injEq] at e
    simp [elem2Stream_keys f ca cb rest h2 e.2]

/-- The keys an aggregation goes through, without repetitions. -/
theorem agg_keys {shape : List Nat} {axis : Nat} {cuts : List (List Key)} {order : List Nat}
    (hc : CutsOk cuts shape) (hax : axis < shape.length) (hp : order.Perm (List.range (shape.length - 1))) :
    dropRepeats ((chunkKeysOf cuts (aggOrder axis order)).map (fun k => k.eraseIdx axis)) = chunkKeysOf (cuts.eraseIdx axis) order := by
  have hcl := hc.length
  unfold aggOrder
  rw [chunkKeysOf_agg cuts axis order (by omega) (by rw [hcl]; exact hp), List.map_flatMap]
  have hce := hc.eraseIdx axis
  have helen : (shape.eraseIdx axis).length = shape.length - 1 := by rw [List.length_eraseIdx, if_pos hax]
  have hpe : order.Perm (List.range (shape.eraseIdx axis).length) := by rw [helen]; exact hp
  have hnd : (chunkKeysOf (cuts.eraseIdx axis) order).Nodup := (chunkKeysOf_perm_cart (n := (shape.eraseIdx axis).length) hpe _ hce.length hce.nodup).2
  have hcut := forall₂_getD hc axis (by omega) [] 0
  obtain ⟨k, hk1⟩ : ∃ k, (cuts.getD axis []).length = k + 1 := ⟨_, (Nat.succ_pred_eq_of_ne_zero (by simpa using hcut.ne)).symm⟩
  rw [← dropRepeats_blocks k _ hnd]
  congr 1
  rw [dropRepeats_blocks k _ hnd]
  apply List.flatMap_congr
  intro o ho
  rw [List.map_map, ← hk1]
  rw [List.eq_replicate_iff]
  refine ⟨by simp, ?_⟩
  intro x hx
  obtain ⟨c, _, rfl⟩ := List.mem_map.mp hx
  have hol : axis ≤ o.length := by
    have := (chunkKeys_ok hce hpe ho).length_eq
    omega
  simp [List.eraseIdx_insertIdx_self]

/-- What an aggregation emits, given the chunks of its source in the order it asks for. -/
theorem aggStream_keys (h : Handler V) {shape : List Nat} {axis : Nat} {cuts : List (List Key)} {order : List Nat} (n : Nat)
    {cs out : List (Chunk V)} (hc : CutsOk cuts shape) (hax : axis < shape.length) (hp : order.Perm (List.range (shape.length - 1)))
    (hk : cs.map Prod.fst = chunkKeysOf cuts (aggOrder axis order)) (hr : aggStream h axis n cs = .ok out) :
    out.map Prod.fst = chunkKeysOf (cuts.eraseIdx axis) order := by
  rw [aggLoop_keys h axis n cs none out hr, ← agg_keys hc hax hp, ← hk, List.map_map]
  rfl

variable [Inhabited α] [Inhabited V]

theorem prodStream_keys (m : Mode α V) (limit : Nat) (evalP : Arr α → Res (NDA V)) (a : Arr α) (s order : List Nat) (cs : List (Chunk V))
    (h : (chunkIndexGen limit s order).mapM (fun key => do
        let b ← a.getitem key
        let d ← evalP b
        return (key, d)) = .ok cs) : cs.map Prod.fst = chunkIndexGen limit s order := by
  have := mapM_ok_iff.mp h
  clear h
  generalize chunkIndexGen limit s order = l at this
  induction this with
  | nil => rfl
  | cons hr _ ih =>
    obtain ⟨b, _, hr⟩ := bind_ok.mp hr
    obtain ⟨d, _, hr⟩ := bind_ok.mp hr
    cases hr
    simp [ih]

/-- The keys of the chunks of a stream depend only on how the array is streamed. -/
theorem stream_keys (m : Mode α V) (limit : Nat) (evalP : Arr α → Res (NDA V)) : ∀ (a : Arr α) (order : List Nat) (cs : List (Chunk V)), a.WF → a.samePace →
    order.Perm (List.range a.skel.shape.length) → a.stream m limit evalP order = .ok cs → cs.map Prod.fst = chunkKeysOf (a.skel.cuts limit) order := by
  intro a
  induction a with
  | agg a axis k ih =>
    intro order cs hwf hpace hp hr
    obtain ⟨w1, w2⟩ := skel_shape m _ hwf
    have hwa : a.WF := hwf.1
    simp only [Arr.stream] at hr
    obtain ⟨s, hs, hr⟩ := bind_ok.mp hr
    obtain ⟨ca, h1, hr⟩ := bind_ok.mp hr
    have hax : axis < a.skel.shape.length := w1.2
    have hp' : order.Perm (List.range (a.skel.shape.length - 1)) := by
      have : (Arr.agg a axis k).skel.shape.length = a.skel.shape.length - 1 := by
        show (a.skel.shape.eraseIdx axis).length = _
        rw [List.length_eraseIdx, if_pos hax]
      rwa [this] at hp
    have := ih (aggOrder axis order) ca hwa hpace (aggOrder_perm' hax hp') h1
    exact aggStream_keys _ _ (a.skel.cutsOk limit w1.1) hax hp' this hr
  | elem1 a op ih =>
    intro order cs hwf hpace hp hr
    simp only [Arr.stream] at hr
    split at hr
    · cases hr
    · obtain ⟨ca, h1, hr⟩ := bind_ok.mp hr
      cases hr
      rw [List.map_map]
      exact ih order ca hwf hpace hp h1
  | elem2 a b op iha ihb =>
    intro order cs hwf hpace hp hr
    simp only [Arr.stream] at hr
    split at hr
    · cases hr
    · obtain ⟨ca, h1, hr⟩ := bind_ok.mp hr
      obtain ⟨cb, h2, hr⟩ := bind_ok.mp hr
      obtain ⟨p1, p2, p3⟩ := hpace
      have ka := iha order ca hwf.1 p1 hp h1
      have kb := ihb order cb hwf.2.1 p2 (by rw [← p3]; exact hp) h2
      rw [elem2Stream_keys _ ca cb cs hr (by rw [ka, kb, p3])]
      exact ka
  | _ =>
    intro order cs hwf _ hp hr
    simp only [Arr.stream] at hr
    obtain ⟨s, hs, hr⟩ := bind_ok.mp hr
    have := prodStream_keys m limit evalP _ s order cs hr
    rw [this]
    unfold Arr.skel
    rw [hs]
    rfl

end Biggus

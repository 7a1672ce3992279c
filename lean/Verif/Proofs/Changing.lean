import Verif.Spec.Changing
import Verif.Proofs.Racing
namespace Biggus

variable {α V : Type}

section
variable {S : Nat → Arr α} {T : Nat → NDA V} {s : Nat → List Nat}

theorem over_shape [Inhabited V] (m : Mode α V) (hT : ∀ i, (T i).shape = s i) (hS : ∀ i, ((S i).den m).shape = s i) :
    ∀ (e : Over α), (e.value m T).shape = ((e.plug S).den m).shape
  | .src i => (hT i).trans (hS i).symm
  | .agg e axis k => by
    have ih := over_shape m hT hS e
    have hsl : (((Over.agg e axis k).plug S).den m).shape = ((e.plug S).den m).shape.eraseIdx axis := rfl
    rw [hsl, ← ih]; rfl
  | .elem1 e _ => over_shape m hT hS e
  | .elem2 e _ _ => over_shape m hT hS e

/-- `stream_ok` for expressions whose sources are read by `read`. -/
theorem over_stream [Inhabited α] [Inhabited V] (m : Mode α V) (limit : Nat) (G : Arr α → Prop) (read : Nat → List Nat → Res (List (Chunk V)))
    (hT : ∀ i, (T i).shape = s i) (hS : ∀ i, ((S i).den m).shape = s i) (hSp : ∀ i, (S i).skel = .prod (s i)) :
    ∀ (e : Over α), (e.plug S).WF → (e.plug S).streamGood m limit G → ∀ order, order.Perm (List.range ((e.plug S).den m).shape.length) →
    (∀ p ∈ e.asks order, p.2.Perm (List.range (s p.1).length) → ∃ cs, read p.1 p.2 = .ok cs ∧ StreamOk (T p.1) (allSlicesInner limit true (s p.1)) p.2 cs) →
    ∃ cs, e.stream m read S order = .ok cs ∧ StreamOk (e.value m T) ((e.plug S).skel.cuts limit) order cs ∧
      CutsOk ((e.plug S).skel.cuts limit) ((e.plug S).den m).shape
  | .src i, hwf, hg, order, hp, hread => by
    rw [show ((Over.src i).plug S) = S i from rfl, hS] at hp ⊢
    obtain ⟨cs, h1, h2⟩ := hread (i, order) (by simp [Over.asks]) hp
    rw [hSp]
    exact ⟨cs, h1, h2, allSlices_ok limit (s i)⟩
  | .agg e axis k, hwf, hg, order, hp, hread => by
    obtain ⟨hwa, sa, hsa, hax⟩ := hwf
    obtain ⟨g1, g2, g3⟩ := hg
    have hden := hwa.den_shape m hsa
    have hsl : (((Over.agg e axis k).plug S).den m).shape = ((e.plug S).den m).shape.eraseIdx axis := rfl
    have hax' : axis < ((e.plug S).den m).shape.length := by rw [hden]; exact hax
    rw [hsl, List.length_eraseIdx, if_pos hax'] at hp
    have hp' := aggOrder_perm' hax' hp
    have hv := over_shape m hT hS e
    obtain ⟨cs, h1, h2, h3⟩ := over_stream m limit G read hT hS hSp e hwa g3 (aggOrder axis order) hp' hread
    rw [hsa] at g1 g2
    obtain ⟨out, o1, o2⟩ := aggStream_ok (m.handler k) (by rw [hv]; exact h3) (by rw [hv]; exact hax') (by rw [hv]; exact hp) h2
      (by rw [hv, hden]; exact g2) (by rw [hv, hden]; exact g1)
    refine ⟨out, ?_, o2, h3.eraseIdx axis⟩
    rw [Over.stream, hsa]
    simp only [h1, bind, Except.bind]
    rw [← hden, ← hv]; exact o1
  | .elem1 e op, hwf, hg, order, hp, hread => by
    obtain ⟨g1, g2⟩ := hg
    obtain ⟨f, hf⟩ := Option.isSome_iff_exists.mp g1
    obtain ⟨cs, h1, h2, h3⟩ := over_stream m limit G read hT hS hSp e hwf g2 order hp hread
    refine ⟨cs.map (fun c => (c.1, c.2.map f)), ?_, ?_, h3⟩
    · rw [Over.stream, hf, h1]; rfl
    · have := elem1Stream_ok f h2
      rw [Over.value, hf]; exact this
  | .elem2 e e' op, hwf, hg, order, hp, hread => by
    obtain ⟨hwa, hwb, hab⟩ := hwf
    obtain ⟨g1, g2, g3, g4⟩ := hg
    obtain ⟨f, hf⟩ := Option.isSome_iff_exists.mp g1
    have hsh : ((e.plug S).den m).shape = ((e'.plug S).den m).shape := by
      have h1 := hwa.shape_eq m
      rw [hab, hwb.shape_eq m] at h1
      injection h1 with h1
      exact h1.symm
    have hp2 : order.Perm (List.range ((e'.plug S).den m).shape.length) := by rw [← hsh]; exact hp
    obtain ⟨ca, h1, h2, h3⟩ := over_stream m limit G read hT hS hSp e hwa g2 order hp (fun p h => hread p (List.mem_append_left _ h))
    obtain ⟨cb, k1, k2, k3⟩ := over_stream m limit G read hT hS hSp e' hwb g3 order hp2 (fun p h => hread p (List.mem_append_right _ h))
    have hv : (e.value m T).shape = (e'.value m T).shape := by
      rw [over_shape m hT hS e, over_shape m hT hS e', hsh]
    obtain ⟨out, o1, o2, o3⟩ := elem2Stream_ok f hv (chunkKeysOf ((e.plug S).skel.cuts limit) order) ca cb h2.keys
      (by rw [g4]; exact k2.keys) h2.data k2.data
    refine ⟨out, ?_, ?_, h3⟩
    · rw [Over.stream, hf]
      simp only [h1, k1, bind, Except.bind]
      exact o1
    · rw [Over.value, hf]
      exact ⟨o2, o3⟩

end

/-- Reading the chunks: chunk number `j` is cut from the array as it is at that moment. -/
theorem readChanging_ok [Inhabited α] [Inhabited V] (m : Mode α V) (limit n : Nat) (A : Nat → Arr α) (s : List Nat) (x : Nat → NDA V) :
    ∀ (keys : List (List Key)) (k : Nat),
    (∀ j, j < keys.length → ∃ b σ d, (A (k + j)).getitem (keys.getD j []) = .ok b ∧
      resolve (keys.getD j []) s = .ok σ ∧ b.eval m limit n = .ok d ∧ d ≈ₐ (x (k + j)).ortho σ) →
    ∃ cs, readChanging m limit n A k keys = .ok cs ∧ cs.map Prod.fst = keys ∧
      ∀ j (hj : j < cs.length), ∃ σ, resolve (cs[j]).1 s = .ok σ ∧ (cs[j]).2 ≈ₐ (x (k + j)).ortho σ := by
  intro keys
  induction keys with
  | nil => intro k _; exact ⟨[], rfl, rfl, fun j hj => absurd hj (by simp)⟩
  | cons key keys ih =>
    intro k h
    obtain ⟨b, σ, d, h1, h2, h3, h4⟩ := h 0 (by simp)
    obtain ⟨cs, g1, g2, g3⟩ := ih (k + 1) (fun j hj => by
      have := h (j + 1) (by simpa using hj)
      rw [show k + (j + 1) = k + 1 + j by omega] at this
      exact this)
    simp only [List.getD_cons_zero, Nat.add_zero] at h1 h2 h4
    refine ⟨(key, d) :: cs, ?_, by rw [List.map_cons, g2], ?_⟩
    · rw [readChanging]
      simp only [h1, h3, g1, bind, Except.bind, pure, Except.pure]
    · intro j hj
      match j with
      | 0 => exact ⟨σ, h2, h4⟩
      | j + 1 =>
        obtain ⟨σ', k1, k2⟩ := g3 j (by simpa using hj)
        rw [show k + (j + 1) = k + 1 + j by omega]
        exact ⟨σ', k1, k2⟩

/-- What the reader of one array delivers: chunks of the array that has each element from the chunk that contains it. -/
theorem changing_reader_ok [Inhabited α] [Inhabited V] (m : Mode α V) (limit : Nat) {A : Nat → Arr α} {s : List Nat} {x : Nat → NDA V} {order : List Nat}
    (hp : order.Perm (List.range s.length)) (hA : ∀ k, (A k).WF ∧ (A k).Ok m limit .sliced ∧ (A k).Yields m limit (x k) ∧ (x k).shape = s)
    (hone : ∀ idx, InB s idx → ((chunkIndexGen limit s order).filter (fun ks => inRegion ks s idx)).length = 1) :
    ∃ N, ∀ n, N ≤ n → ∃ cs, readChanging m limit n A 0 (chunkIndexGen limit s order) = .ok cs ∧
      StreamOk (mixed s (chunkIndexGen limit s order) x) (allSlicesInner limit true s) order cs := by
  set keys := chunkIndexGen limit s order with hkeys
  have hso : ∀ key ∈ keys, List.Forall₂ SliceOk key s := fun key hk => chunkKeys_ok (allSlices_ok limit s) hp hk
  obtain ⟨N, hN⟩ := common_bound (List.range keys.length)
    (fun j n => ∃ b σ d, (A (0 + j)).getitem (keys.getD j []) = .ok b ∧
      resolve (keys.getD j []) s = .ok σ ∧ b.eval m limit n = .ok d ∧ d ≈ₐ (x (0 + j)).ortho σ) (by
    intro j hj
    rw [List.mem_range] at hj
    have hk : keys.getD j [] ∈ keys := by rw [List.getD_eq_getElem _ _ hj]; exact List.getElem_mem hj
    obtain ⟨hwf, hok, hy, hs⟩ := hA (0 + j)
    obtain ⟨b, σ, g1, g2, g3⟩ := chunk_yields m limit hwf hok hy (by rw [hs]; exact hso _ hk)
    rw [hs] at g2
    obtain ⟨M, hM⟩ := g3.2
    refine ⟨M, fun n hn => ?_⟩
    obtain ⟨d, e1, e2⟩ := hM n hn
    exact ⟨b, σ, d, g1, g2, e1, e2⟩)
  refine ⟨N, fun n hn => ?_⟩
  obtain ⟨cs, c1, c2, c3⟩ := readChanging_ok m limit n A s x keys 0 (fun j hj => hN n hn j (List.mem_range.mpr hj))
  refine ⟨cs, c1, c2, fun c hc => ?_⟩
  obtain ⟨j, hj, rfl⟩ := List.getElem_of_mem hc
  obtain ⟨σ, k1, k2⟩ := c3 j hj
  have hlen : cs.length = keys.length := by rw [← c2, List.length_map]
  have hkj : (cs[j]).1 = keys[j]'(hlen ▸ hj) := by simp only [← c2, List.getElem_map]
  refine ⟨σ, k1, k2.trans ?_⟩
  rw [Nat.zero_add]
  exact mixed_chunk hone (j := j) (hlen ▸ hj) (sliceOk_exact (hso _ (List.getElem_mem _))) (hkj ▸ k1)

/-! ### Other arrays of the same shapes in the place of the sources -/

section
variable {S S' : Nat → Arr α}

theorem plug_shape (h : ∀ i, (S i).shape = (S' i).shape) : ∀ e : Over α, (e.plug S).shape = (e.plug S').shape
  | .src i => h i
  | .agg e axis k => by simp only [Over.plug, Arr.shape, plug_shape h e]
  | .elem1 e _ => by simp only [Over.plug, Arr.shape, plug_shape h e]
  | .elem2 e e' op => by simp only [Over.plug, Arr.shape, plug_shape h e]

theorem plug_skel (h : ∀ i, (S i).skel = (S' i).skel) : ∀ e : Over α, (e.plug S).skel = (e.plug S').skel
  | .src i => h i
  | .agg e axis k => by simp only [Over.plug, Arr.skel, plug_skel h e]
  | .elem1 e op => by simp only [Over.plug, Arr.skel, plug_skel h e]
  | .elem2 e e' op => by simp only [Over.plug, Arr.skel, plug_skel h e]

theorem plug_WF (h : ∀ i, (S i).shape = (S' i).shape) (hw : ∀ i, (S' i).WF) : ∀ e : Over α, (e.plug S).WF → (e.plug S').WF
  | .src i, _ => hw i
  | .agg e axis k, hh => by
    obtain ⟨h1, s, h2, h3⟩ := hh
    exact ⟨plug_WF h hw e h1, s, by rw [← plug_shape h e]; exact h2, h3⟩
  | .elem1 e op, hh => plug_WF h hw e hh
  | .elem2 e e' op, hh => ⟨plug_WF h hw e hh.1, plug_WF h hw e' hh.2.1, by rw [← plug_shape h e, ← plug_shape h e']; exact hh.2.2⟩

theorem plug_streamOk (m : Mode α V) (limit : Nat) (h : ∀ i, (S i).shape = (S' i).shape) (hk : ∀ i, (S i).skel = (S' i).skel)
    (hw : ∀ i, (S' i).streamOk m limit) : ∀ e : Over α, (e.plug S).streamOk m limit → (e.plug S').streamOk m limit
  | .src i, _ => hw i
  | .agg e axis k, hh => by
    obtain ⟨h1, h2, h3⟩ := hh
    refine ⟨?_, ?_, plug_streamOk m limit h hk hw e h3⟩
    · rw [← plug_shape h e]; exact h1
    · unfold Arr.cutSafe at h2 ⊢
      rw [← plug_shape h e, ← plug_skel hk e]; exact h2
  | .elem1 e op, hh => ⟨hh.1, plug_streamOk m limit h hk hw e hh.2⟩
  | .elem2 e e' op, hh => ⟨hh.1, plug_streamOk m limit h hk hw e hh.2.1, plug_streamOk m limit h hk hw e' hh.2.2.1, by
      rw [← plug_skel hk e, ← plug_skel hk e']; exact hh.2.2.2⟩

theorem plug_Ok (m : Mode α V) (limit : Nat) (h : ∀ i, (S i).shape = (S' i).shape) (hk : ∀ i, (S i).skel = (S' i).skel)
    (hw : ∀ i, (S' i).streamOk m limit) (ho : ∀ i, (S' i).Ok m limit .sliced) :
    ∀ e : Over α, (e.plug S).Ok m limit .sliced → (e.plug S').Ok m limit .sliced
  | .src i, _ => ho i
  | .agg e axis k, hh => ⟨plug_streamOk m limit h hk hw (.agg e axis k) hh.1, plug_Ok m limit h hk hw ho e hh.2⟩
  | .elem1 e op, hh => ⟨hh.1, plug_streamOk m limit h hk hw e hh.2.1, plug_Ok m limit h hk hw ho e hh.2.2⟩
  | .elem2 e e' op, hh => ⟨hh.1, plug_streamOk m limit h hk hw e hh.2.1, plug_streamOk m limit h hk hw e' hh.2.2.1,
      plug_Ok m limit h hk hw ho e hh.2.2.2.1, plug_Ok m limit h hk hw ho e' hh.2.2.2.2⟩

end

/-! ### The value of an expression -/

section
variable [Inhabited V]

theorem value_den (m : Mode α V) (S : Nat → Arr α) : ∀ (e : Over α), e.value m (fun i => (S i).den m) = (e.plug S).den m
  | .src _ => rfl
  | .agg e axis k => by simp only [Over.value, Over.plug, Arr.den, value_den m S e]
  | .elem1 e op => by simp only [Over.value, Over.plug, Arr.den, value_den m S e]
  | .elem2 e e' op => by simp only [Over.value, Over.plug, Arr.den, value_den m S e, value_den m S e']

theorem value_congr (m : Mode α V) {S : Nat → Arr α} {T T' : Nat → NDA V} {s : Nat → List Nat} (hT : ∀ i, (T i).shape = s i)
    (hS : ∀ i, ((S i).den m).shape = s i) : ∀ (e : Over α) order, (e.plug S).WF → (∀ p ∈ e.asks order, T p.1 ≈ₐ T' p.1) →
    e.value m T ≈ₐ e.value m T'
  | .src i, order, _, h => h (i, order) (by simp [Over.asks])
  | .agg e axis k, order, hwf, h => by
    obtain ⟨hwa, sa, hsa, hax⟩ := hwf
    have ih := value_congr m hT hS e (aggOrder axis order) hwa h
    simp only [Over.value]
    rw [← ih.1]
    exact reduce_congr ih (by rw [over_shape m hT hS e, hwa.den_shape m hsa]; exact hax)
  | .elem1 e op, order, hwf, h => by
    have ih := value_congr m hT hS e order hwf h
    exact ⟨ih.1, fun idx hi => congrArg _ (ih.2 idx hi)⟩
  | .elem2 e e' op, order, hwf, h => by
    obtain ⟨hwa, hwb, hab⟩ := hwf
    have ih := value_congr m hT hS e order hwa (fun p hp => h p (List.mem_append_left _ hp))
    have ih' := value_congr m hT hS e' order hwb (fun p hp => h p (List.mem_append_right _ hp))
    have hsh : (e.value m T).shape = (e'.value m T).shape := by
      rw [over_shape m hT hS e, over_shape m hT hS e']
      have h1 := hwa.shape_eq m
      rw [hab, hwb.shape_eq m] at h1
      injection h1 with h1
      exact h1.symm
    refine ⟨ih.1, fun idx hi => ?_⟩
    have hi' : InB (e.value m T).shape idx := hi
    show ((m.op2 op).getD (fun x _ => x)) _ _ = ((m.op2 op).getD (fun x _ => x)) _ _
    rw [ih.2 idx hi', ih'.2 idx (hsh ▸ hi')]

/-- The orders in which the sources are asked for are permutations of their dimensions. -/
theorem asks_perm (m : Mode α V) {S : Nat → Arr α} {s : Nat → List Nat} (hS : ∀ i, ((S i).den m).shape = s i) : ∀ (e : Over α) (order : List Nat),
    (e.plug S).WF → order.Perm (List.range ((e.plug S).den m).shape.length) → ∀ p ∈ e.asks order, p.2.Perm (List.range (s p.1).length)
  | .src i, order, _, hp, p, h => by
    simp only [Over.asks, List.mem_singleton] at h
    subst h
    rw [← hS i]; exact hp
  | .agg e axis k, order, hwf, hp, p, h => by
    obtain ⟨hwa, sa, hsa, hax⟩ := hwf
    have hax' : axis < ((e.plug S).den m).shape.length := by rw [hwa.den_shape m hsa]; exact hax
    have hsl : (((Over.agg e axis k).plug S).den m).shape = ((e.plug S).den m).shape.eraseIdx axis := rfl
    rw [hsl, List.length_eraseIdx, if_pos hax'] at hp
    exact asks_perm m hS e _ hwa (aggOrder_perm' hax' hp) p h
  | .elem1 e _, order, hwf, hp, p, h => asks_perm m hS e order hwf hp p h
  | .elem2 e e' op, order, hwf, hp, p, h => by
    obtain ⟨hwa, hwb, hab⟩ := hwf
    rcases List.mem_append.mp h with h | h
    · exact asks_perm m hS e order hwa hp p h
    · have hsh : ((e.plug S).den m).shape = ((e'.plug S).den m).shape := by
        have h1 := hwa.shape_eq m
        rw [hab, hwb.shape_eq m] at h1
        injection h1 with h1
        exact h1.symm
      exact asks_perm m hS e' order hwb (by rw [← hsh]; exact hp) p h

end

end Biggus

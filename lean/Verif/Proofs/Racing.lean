import Verif.Spec.Racing
import Verif.Proofs.Compose
import Verif.Proofs.Built
namespace Biggus

variable {α V : Type}

theorem foldl_assign (ws : List (Assignment α)) (items : List Nat → Arr α) (i : List Nat) :
    ws.foldl assignItem items i = (ws.reverse.find? (fun w => w.index == i)).elim (items i) Assignment.value := by
  induction ws generalizing items with
  | nil => rfl
  | cons w ws ih =>
    rw [List.foldl_cons, ih, List.reverse_cons, List.find?_append]
    cases h : ws.reverse.find? (fun w => w.index == i) with
    | some v => simp
    | none =>
      by_cases hi : w.index = i
      · simp [List.find?_cons, hi, assignItem]
      · simp [List.find?_cons, hi, assignItem, Ne.symm hi]

theorem heldAfter_succ (other : Nat → List (Assignment α)) (items : List Nat → Arr α) (k : Nat) :
    heldAfter other items (k + 1) = (other k).foldl assignItem (heldAfter other items k) := by
  funext i
  rw [foldl_assign]
  rfl

theorem raceLoop_eq [Inhabited α] [Inhabited V] (m : Mode α V) (limit n : Nat) (other : Nat → List (Assignment α)) (items : List Nat → Arr α)
    (l : List (List Nat)) (hl : l.Nodup) : ∀ (rest pre : List (List Nat)) (data : NDA V), l = pre ++ rest →
    raceLoop m limit n other pre.length (heldAfter other items pre.length) rest data =
      rest.foldlM (fun data i => do
        let d ← (heldAfter other items (l.idxOf i + 1) i).eval m limit n
        stackStore data i d) data := by
  intro rest
  induction rest with
  | nil => intro pre data _; rfl
  | cons i rest ih =>
    intro pre data h
    have hidx : l.idxOf i = pre.length := by
      subst h
      have hni : i ∉ pre := fun hi => (List.nodup_append.mp hl).2.2 _ hi _ (List.mem_cons_self) rfl
      rw [List.idxOf_append_of_notMem hni, List.idxOf_cons_self]; rfl
    rw [raceLoop, List.foldlM_cons, hidx, ← heldAfter_succ]
    simp only [bind, Except.bind]
    cases (heldAfter other items (pre.length + 1) i).eval m limit n with
    | error e => rfl
    | ok d =>
      cases hs : stackStore data i d with
      | error e => simp only [hs]
      | ok data' =>
        have := ih (pre ++ [i]) data' (by simpa using h)
        simp only [List.length_append, List.length_singleton] at this
        simp only [hs]
        simpa only [bind, Except.bind] using this

theorem chunk_yields [Inhabited α] [Inhabited V] (m : Mode α V) (limit : Nat) {a : Arr α} {x : NDA V} (hwf : a.WF) (hok : a.Ok m limit .sliced)
    (hx : a.Yields m limit x) {key : List Key} (hk : List.Forall₂ SliceOk key x.shape) :
    ∃ b σ, a.getitem key = .ok b ∧ resolve key x.shape = .ok σ ∧ b.Yields m limit (x.ortho σ) := by
  have hd : a.den m ≈ₐ x := (hx.2.den_eqv hwf (hok.mono m limit a _ _ (Or.inr (Or.inr rfl)))).symm
  have hck : List.Forall₂ (ChunkKey .sliced) key (a.den m).shape := by
    rw [hd.1]; exact hk.imp (fun _ _ h => h.chunkKey _)
  obtain ⟨b, σ, h1, h2, h3, h4⟩ := chunk_getitem m limit a .sliced hwf hok (by decide) (expand_chunk hck) hck
  have hc := chunk_closed m limit a .sliced hwf hok (by decide) key key b (expand_chunk hck) hck h1
  rw [hd.1] at h3
  refine ⟨b, σ, h1, h3, (Arr.Yields.of_den h2 (Arr.Ok.mono m limit b _ _ (Or.inr (Or.inr rfl)) hc.ok)).congr (h4.trans ?_)⟩
  exact ortho_congr hd (by rw [hd.1]; exact h3)

/-- Reading the chunks: chunk number `j` is cut from the stack as it stands at that moment. -/
theorem raceChunks_ok [Inhabited α] [Inhabited V] (m : Mode α V) (limit n : Nat) (other : Nat → List (Assignment α)) (ss s : List Nat)
    (items : List Nat → Arr α) (x : Nat → NDA V) : ∀ (keys : List (List Key)) (k : Nat),
    (∀ j, j < keys.length → ∃ b σ d, (Arr.stack ss (heldAfter other items (k + j + 1))).getitem (keys.getD j []) = .ok b ∧
      resolve (keys.getD j []) s = .ok σ ∧ b.eval m limit n = .ok d ∧ d ≈ₐ (x (k + j)).ortho σ) →
    ∃ cs, raceChunks m limit n other ss k (heldAfter other items k) keys = .ok cs ∧ cs.map Prod.fst = keys ∧
      ∀ j (hj : j < cs.length), ∃ σ, resolve (cs[j]).1 s = .ok σ ∧ (cs[j]).2 ≈ₐ (x (k + j)).ortho σ := by
  intro keys
  induction keys with
  | nil => intro k _; exact ⟨[], rfl, rfl, fun j hj => absurd hj (by simp)⟩
  | cons key keys ih =>
    intro k h
    obtain ⟨b, σ, d, h1, h2, h3, h4⟩ := h 0 (by simp)
    obtain ⟨cs, g1, g2, g3⟩ := ih (k + 1) (fun j hj => by
      have := h (j + 1) (by simpa using hj)
      rw [show k + (j + 1) = k + 1 + j by omega] at this
      exact this)
    simp only [List.getD_cons_zero, Nat.add_zero] at h1 h2 h4
    refine ⟨(key, d) :: cs, ?_, by rw [List.map_cons, g2], ?_⟩
    · rw [raceChunks, ← heldAfter_succ]
      simp only [h1, h3, g1, bind, Except.bind, pure, Except.pure]
    · intro j hj
      match j with
      | 0 => exact ⟨σ, h2, h4⟩
      | j + 1 =>
        obtain ⟨σ', k1, k2⟩ := g3 j (by simpa using hj)
        rw [show k + (j + 1) = k + 1 + j by omega]
        exact ⟨σ', k1, k2⟩

/-- Storing chunks that are cut from different arrays: every element comes from the array of a chunk that contains it. -/
theorem store_mixed [Inhabited V] (s : List Nat) (x : Nat → NDA V) (hx : ∀ k, (x k).shape = s) : ∀ (cs : List (Chunk V)) (k : Nat) (t : NDA V),
    t.shape = s → (∀ c ∈ cs, Exact c.1) →
    (∀ j (hj : j < cs.length), ∃ σ, resolve (cs[j]).1 s = .ok σ ∧ (cs[j]).2 ≈ₐ (x (k + j)).ortho σ) →
    ∃ r, cs.foldlM storeChunk t = .ok r ∧ r.shape = s ∧ ∀ idx,
      (∃ j, ∃ hj : j < cs.length, inRegion (cs[j]).1 s idx = true ∧ r.get idx = (x (k + j)).get idx) ∨
      ((∀ c ∈ cs, inRegion c.1 s idx = false) ∧ r.get idx = t.get idx) := by
  intro cs
  induction cs with
  | nil => intro k t ht _ _; exact ⟨t, rfl, ht, fun idx => Or.inr ⟨by simp, rfl⟩⟩
  | cons c cs ih =>
    intro k t ht he h
    obtain ⟨σ, h1, h2⟩ := h 0 (by simp)
    simp only [List.getElem_cons_zero, Nat.add_zero] at h1 h2
    obtain ⟨r1, k1, k2, k3⟩ := storeChunk_ok (A := x k) (by rw [ht, hx]) (he c (by simp)) (by rw [hx]; exact h1) h2
    rw [hx] at k2 k3
    obtain ⟨r, g1, g2, g3⟩ := ih (k + 1) r1 k2 (fun c hc => he c (by simp [hc])) (fun j hj => by
      have := h (j + 1) (by simpa using hj)
      rw [show k + (j + 1) = k + 1 + j by omega] at this
      exact this)
    refine ⟨r, ?_, g2, fun idx => ?_⟩
    · rw [List.foldlM_cons, k1]; exact g1
    · rcases g3 idx with ⟨j, hj, e1, e2⟩ | ⟨e1, e2⟩
      · left
        refine ⟨j + 1, by simpa using hj, e1, ?_⟩
        rw [e2, show k + (j + 1) = k + 1 + j by omega]
      · by_cases hr : inRegion c.1 s idx = true
        · left
          refine ⟨0, by simp, hr, ?_⟩
          rw [e2, k3, if_pos hr]; rfl
        · right
          refine ⟨?_, by rw [e2, k3, if_neg hr]⟩
          intro c' hc'
          rcases List.mem_cons.mp hc' with rfl | hc'
          · simpa using hr
          · exact e1 c' hc'

/-- Only one chunk contains an element. -/
theorem only_one {β : Type} (l : List β) (p : β → Bool) (h : (l.filter p).length = 1) {i j : Nat} (hi : i < l.length) (hj : j < l.length)
    (h1 : p l[i] = true) (h2 : p l[j] = true) : i = j := by
  have key : ∀ {i j : Nat} (hi : i < l.length) (hj : j < l.length), p l[i] = true → p l[j] = true → ¬ i < j := by
    intro i j hi hj h1 h2 hij
    rw [← List.take_append_drop (i + 1) l, List.filter_append, List.length_append] at h
    have e1 : 0 < ((l.take (i + 1)).filter p).length := by
      apply List.length_pos_of_mem (a := l[i])
      rw [List.mem_filter]
      exact ⟨List.mem_take_iff_getElem.mpr ⟨i, by omega, rfl⟩, h1⟩
    have e2 : 0 < ((l.drop (i + 1)).filter p).length := by
      apply List.length_pos_of_mem (a := l[j])
      rw [List.mem_filter]
      exact ⟨List.mem_drop_iff_getElem.mpr ⟨j - (i + 1), by omega, by congr 1; omega⟩, h2⟩
    omega
  have a1 := key hi hj h1 h2
  have a2 := key hj hi h2 h1
  omega

/-- The array that a reader of the stack delivers: each element from the chunk that contains it. -/
def mixed (s : List Nat) (keys : List (List Key)) (x : Nat → NDA V) : NDA V :=
  ⟨s, fun idx => (x (keys.findIdx (fun ks => inRegion ks s idx))).get idx⟩

theorem mixed_chunk {s : List Nat} {keys : List (List Key)} {x : Nat → NDA V}
    (hone : ∀ idx, InB s idx → (keys.filter (fun ks => inRegion ks s idx)).length = 1) {j : Nat} (hj : j < keys.length) (he : Exact keys[j])
    {σ : List Sel} (hσ : resolve keys[j] s = .ok σ) : (x j).ortho σ ≈ₐ (mixed s keys x).ortho σ := by
  refine ⟨rfl, fun i hi => ?_⟩
  have hi' : InB (selShape σ) i := hi
  show (x j).get (selSrc σ i) = (x (keys.findIdx (fun ks => inRegion ks s (selSrc σ i)))).get (selSrc σ i)
  have hin := selSrc_inB hσ i hi'
  have hreg : inRegion keys[j] s (selSrc σ i) = true := by
    rw [← mem_cart_keyPos keys[j] s _ (resolve_length he hσ).1,
      ← ndindex_selSrc keys[j] s σ (fun k hk e => by have := (he k hk).1; subst e; simp [Key.isNewaxis] at this) hσ]
    exact List.mem_map_of_mem ((mem_ndindex _ _).mpr hi')
  have hlt : keys.findIdx (fun ks => inRegion ks s (selSrc σ i)) < keys.length :=
    List.findIdx_lt_length_of_exists ⟨keys[j], List.getElem_mem hj, hreg⟩
  rw [only_one keys _ (hone _ hin) hlt hj (List.findIdx_getElem (w := hlt)) hreg]

end Biggus

import Mathlib.Data.List.Permutation
import Verif.Proofs.Racing
import Verif.Props.Compute
import Verif.Props.Chunks
import Verif.Props.Save
import Verif.Props.Changing
/-
C86: a stack that is evaluated by one thread while other threads assign to its items.
-/
namespace Biggus
open Spec

variable {α V : Type} [Inhabited α] [Inhabited V] {m : Mode α V} {limit : Nat}

/-- Nobody assigns: the model of this file is the model of evaluation (Model/Eval), for the stack and for the engine. -/
theorem C86_quiet (limit n : Nat) (ss s : List Nat) (items : List Nat → Arr α) (hs : (Arr.stack ss items).shape = .ok (ss ++ s)) :
    stackRacing m limit n (fun _ => []) ss s items = (Arr.stack ss items).eval m limit n ∧
    engineRacing m limit n (fun _ => []) ss s items = engineEval m limit n (Arr.stack ss items) := by
  constructor
  · obtain ⟨eng, he⟩ := eval_with m limit n
    have h : ∀ (l : List (List Nat)) (k : Nat) (data : NDA V), raceLoop m limit n (fun _ => []) k items l data =
        l.foldlM (fun data i => do
          let d ← (items i).evalWith m eng
          stackStore data i d) data := by
      intro l
      induction l with
      | nil => intro k data; rfl
      | cons i l ih =>
        intro k data
        rw [raceLoop, List.foldlM_cons]
        simp only [List.foldl_nil, ih, he, bind, Except.bind]
        cases (items i).evalWith m eng <;> rfl
    rw [stackRacing, h, he, Arr.evalWith, hs]
    rfl
  · have h : ∀ (l : List (List Key)) (k : Nat), raceChunks m limit n (fun _ => []) ss k items l =
        l.mapM (fun key => do
          let b ← (Arr.stack ss items).getitem key
          let d ← b.eval m limit n
          return (key, d)) := by
      intro l
      induction l with
      | nil => intro k; rfl
      | cons key l ih =>
        intro k
        rw [raceChunks, List.mapM_cons]
        simp only [List.foldl_nil, ih, bind, Except.bind, pure, Except.pure]
        cases (Arr.stack ss items).getitem key with
        | error e => rfl
        | ok b =>
          simp only
          cases b.eval m limit n <;> rfl
    rw [engineRacing, h, engineEval, engineOne, hs]
    simp only [bind, Except.bind, Arr.stream, hs]

/-- C86, direct evaluation.  Other threads assign any items of the right shape, at any moments.  The evaluation succeeds, and the item of the result at each
position is the complete item that the stack held there at the moment when the loop came to that position. -/
theorem C86_items_are_whole (other : Nat → List (Assignment α)) (ss s : List Nat) (items : List Nat → Arr α) (x : Nat → List Nat → NDA V) (h0 : ss.prod ≠ 0)
    (h : ∀ k i, InB ss i → (heldAfter other items k i).Yields m limit (x k i) ∧ (x k i).shape = s) :
    ∃ N, ∀ n, N ≤ n → ∃ r, stackRacing m limit n other ss s items = .ok r ∧
      r ≈ₐ NDA.stacked ss (fun i => x ((ndindex ss).idxOf i + 1) i) := by
  obtain ⟨N, hN⟩ := common_bound (ndindex ss)
    (fun i n => ∃ d, (heldAfter other items ((ndindex ss).idxOf i + 1) i).eval m limit n = .ok d ∧ d ≈ₐ x ((ndindex ss).idxOf i + 1) i)
    (fun i hi => (h _ i ((mem_ndindex ss i).mp hi)).1.2)
  refine ⟨N, fun n hn => ?_⟩
  have he := raceLoop_eq m limit n other items (ndindex ss) (nodup_ndindex ss) (ndindex ss) [] ⟨ss ++ s, fun _ => default⟩ rfl
  obtain ⟨r, k1, k2⟩ := stack_eval (ss := ss) (s := s) (items := fun i => x ((ndindex ss).idxOf i + 1) i)
    (ev := fun i => (heldAfter other items ((ndindex ss).idxOf i + 1) i).eval m limit n) h0
    (fun i hi => (h _ i hi).2) (fun i hi => hN n hn i ((mem_ndindex ss i).mpr hi))
  exact ⟨r, by rw [stackRacing]; exact he.trans k1, k2⟩

/-- C86, direct evaluation, all assignments to one item.  Whatever the moments, the result is the evaluation of the stack as it stood at one of them. -/
theorem C86_one_item (other : Nat → List (Assignment α)) (ss s p : List Nat) (items : List Nat → Arr α) (x : Nat → List Nat → NDA V) (h0 : ss.prod ≠ 0)
    (hp : ∀ k, ∀ w ∈ other k, w.index = p)
    (h : ∀ k i, InB ss i → (heldAfter other items k i).Yields m limit (x k i) ∧ (x k i).shape = s) :
    ∃ k y, (Arr.stack ss (heldAfter other items k)).Yields m limit y ∧
      ∃ N, ∀ n, N ≤ n → ∃ r, stackRacing m limit n other ss s items = .ok r ∧ r ≈ₐ y := by
  have hother : ∀ k i, i ≠ p → heldAfter other items k i = items i := by
    intro k
    induction k with
    | zero => intro i _; rfl
    | succ k ih =>
      intro i hi
      have : (other k).reverse.find? (fun w => w.index == i) = none := by
        rw [List.find?_eq_none]
        intro w hw
        rw [List.mem_reverse] at hw
        simpa [hp k w hw] using (Ne.symm hi)
      show ((other k).reverse.find? (fun w => w.index == i)).elim _ _ = _
      rw [this]
      exact ih i hi
  set K := (ndindex ss).idxOf p + 1 with hK
  obtain ⟨N, hN⟩ := C86_items_are_whole other ss s items x h0 h
  refine ⟨K, NDA.stacked ss (fun i => x K i), yields_stack h0 (fun i hi => h K i hi), N, fun n hn => ?_⟩
  obtain ⟨r, h1, h2⟩ := hN n hn
  refine ⟨r, h1, h2.trans ?_⟩
  have hsame : ∀ i, InB ss i → x ((ndindex ss).idxOf i + 1) i ≈ₐ x K i := by
    intro i hi
    by_cases hip : i = p
    · subst hip; exact ⟨rfl, fun _ _ => rfl⟩
    · have e1 := (h ((ndindex ss).idxOf i + 1) i hi).1
      have e2 := (h K i hi).1
      rw [hother _ i hip] at e1 e2
      exact e1.unique e2
  refine ⟨?_, ?_⟩
  · have hz := inB_zeros ss h0
    simp only [NDA.stacked]
    rw [(h _ _ hz).2, (h _ _ hz).2]
  · intro idx hidx
    have hz := inB_zeros ss h0
    simp only [NDA.stacked] at hidx ⊢
    rw [(h _ _ hz).2] at hidx
    obtain ⟨t1, t2⟩ := inB_split hidx
    exact (hsame _ t1).2 _ (by rw [(h _ _ t1).2]; exact t2)

/-- C86, direct evaluation, one assignment during the evaluation: the result is that of an evaluation before the assignment, or after it. -/
theorem C86_before_or_after (k : Nat) (w : Assignment α) (ss s : List Nat) (items : List Nat → Arr α) (x : List Nat → NDA V) (y : NDA V) (h0 : ss.prod ≠ 0)
    (h : ∀ i, InB ss i → (items i).Yields m limit (x i) ∧ (x i).shape = s) (hw : w.value.Yields m limit y) (hy : y.shape = s) :
    ∃ z, ((Arr.stack ss items).Yields m limit z ∨ (Arr.stack ss (assignItem items w)).Yields m limit z) ∧
      ∃ N, ∀ n, N ≤ n → ∃ r, stackRacing m limit n (fun j => if j = k then [w] else []) ss s items = .ok r ∧ r ≈ₐ z := by
  have hheld : ∀ j, heldAfter (fun j => if j = k then [w] else []) items j = if j ≤ k then items else assignItem items w := by
    intro j
    induction j with
    | zero => simp [heldAfter]
    | succ j ih =>
      rw [heldAfter_succ, ih]
      rcases Nat.lt_trichotomy j k with hj | hj | hj
      · rw [if_neg (show ¬ j = k by omega), if_pos (show j ≤ k by omega), if_pos (show j + 1 ≤ k by omega)]; rfl
      · subst hj; rw [if_pos rfl, if_pos (le_refl j), if_neg (show ¬ j + 1 ≤ j by omega)]; rfl
      · rw [if_neg (show ¬ j = k by omega), if_neg (show ¬ j ≤ k by omega), if_neg (show ¬ j + 1 ≤ k by omega)]; rfl
  have hx' : ∀ i, InB ss i → (assignItem items w i).Yields m limit (if i = w.index then y else x i) ∧ (if i = w.index then y else x i).shape = s := by
    intro i hi
    unfold assignItem
    split
    · exact ⟨hw, hy⟩
    · exact h i hi
  obtain ⟨K, z, hz, hr⟩ := C86_one_item (m := m) (limit := limit) (fun j => if j = k then [w] else []) ss s w.index items
    (fun j i => if j ≤ k then x i else if i = w.index then y else x i) h0 (by
      intro j w' hw'
      split at hw'
      · rw [List.mem_singleton.mp hw']
      · cases hw') (by
      intro j i hi
      rw [hheld]
      by_cases hj : j ≤ k
      · simp only [if_pos hj]; exact h i hi
      · simp only [if_neg hj]; exact hx' i hi)
  refine ⟨z, ?_, hr⟩
  rw [hheld] at hz
  split at hz
  · exact Or.inl hz
  · exact Or.inr hz

/-- C86, the engine.  Other threads assign any items of the right shape, at any moments.  The evaluation succeeds, and every element of the result is the
stack's element at that position at some moment: when the chunk that contains it was read. -/
theorem C86_engine_elements (fwd : Bool) (other : Nat → List (Assignment α)) (ss s : List Nat) (items : List Nat → Arr α) (x : Nat → List Nat → NDA V)
    (h0 : ss.prod ≠ 0) (h1 : ss ≠ [])
    (h : ∀ k i, InB ss i → (heldAfter other items k i).Built m limit fwd false .sliced ∧ (heldAfter other items k i).isProd = true ∧
      (heldAfter other items k i).Yields m limit (x k i) ∧ (x k i).shape = s) :
    ∃ N, ∀ n, N ≤ n → ∃ r, engineRacing m limit n other ss s items = .ok r ∧ r.shape = ss ++ s ∧
      ∀ idx, InB (ss ++ s) idx → ∃ j, ∃ key, (chunkIndexGen limit (ss ++ s) (List.range (ss ++ s).length))[j]? = some key ∧
        inRegion key (ss ++ s) idx = true ∧ r.get idx = (NDA.stacked ss (x (j + 1))).get idx := by
  have hz := inB_zeros ss h0
  have hshape : ∀ k, (NDA.stacked ss (x k)).shape = ss ++ s := fun k => by simp only [NDA.stacked]; rw [(h k _ hz).2.2.2]
  have hb : ∀ k, (Arr.stack ss (heldAfter other items k)).Built m limit fwd false .sliced := by
    intro k
    refine Arr.Built.stack (ss := ss) (items := heldAfter other items k) (fun hh => by rcases hh with hh | hh <;> cases hh)
      (fun _ => ⟨h1, fun i hi => (h k i hi).2.1⟩) (fun i hi => (h k i hi).1) ?_
    rw [mkStack_iff]
    exact ⟨h0, ⟨s, fun i hi => by rw [(h k i hi).2.2.1.1, (h k i hi).2.2.2]⟩, rfl⟩
  have hy : ∀ k, (Arr.stack ss (heldAfter other items k)).Yields m limit (NDA.stacked ss (x k)) :=
    fun k => yields_stack h0 (fun i hi => ⟨(h k i hi).2.2.1, (h k i hi).2.2.2⟩)
  set keys := chunkIndexGen limit (ss ++ s) (List.range (ss ++ s).length) with hkeys
  have hso : ∀ key ∈ keys, List.Forall₂ SliceOk key (ss ++ s) := fun key hk => chunkKeys_ok (allSlices_ok limit (ss ++ s)) (List.Perm.refl _) hk
  obtain ⟨N, hN⟩ := common_bound (List.range keys.length)
    (fun j n => ∃ b σ d, (Arr.stack ss (heldAfter other items (0 + j + 1))).getitem (keys.getD j []) = .ok b ∧
      resolve (keys.getD j []) (ss ++ s) = .ok σ ∧ b.eval m limit n = .ok d ∧ d ≈ₐ (NDA.stacked ss (x (0 + j + 1))).ortho σ) (by
    intro j hj
    rw [List.mem_range] at hj
    have hk : keys.getD j [] ∈ keys := by rw [List.getD_eq_getElem _ _ hj]; exact List.getElem_mem hj
    obtain ⟨hwf, hok, _, _⟩ := (hb (0 + j + 1)).fine
    obtain ⟨b, σ, g1, g2, g3⟩ := chunk_yields m limit hwf hok (hy (0 + j + 1)) (by rw [hshape]; exact hso _ hk)
    rw [hshape] at g2
    obtain ⟨M, hM⟩ := g3.2
    refine ⟨M, fun n hn => ?_⟩
    obtain ⟨d, e1, e2⟩ := hM n hn
    exact ⟨b, σ, d, g1, g2, e1, e2⟩)
  refine ⟨N, fun n hn => ?_⟩
  obtain ⟨cs, c1, c2, c3⟩ := raceChunks_ok m limit n other ss (ss ++ s) items (fun k => NDA.stacked ss (x (k + 1))) keys 0
    (fun j hj => hN n hn j (List.mem_range.mpr hj))
  obtain ⟨r, r1, r2, r3⟩ := store_mixed (ss ++ s) (fun k => NDA.stacked ss (x (k + 1))) (fun k => hshape _) cs 0 ⟨ss ++ s, fun _ => default⟩ rfl
    (fun c hc => sliceOk_exact (hso _ (c2 ▸ List.mem_map_of_mem hc))) c3
  refine ⟨r, ?_, r2, fun idx hidx => ?_⟩
  · rw [engineRacing, ← hkeys]
    have : raceChunks m limit n other ss 0 items keys = .ok cs := c1
    rw [this]
    exact r1
  · rcases r3 idx with ⟨j, hj, e1, e2⟩ | ⟨e1, _⟩
    · refine ⟨j, (cs[j]).1, ?_, e1, by rw [e2, Nat.zero_add]⟩
      rw [← c2, List.getElem?_map, List.getElem?_eq_getElem hj]; rfl
    · exfalso
      have hone := C16_each_element_in_exactly_one_chunk limit (ss ++ s) (List.range (ss ++ s).length) idx (List.Perm.refl _) hidx
      rw [← hkeys] at hone
      obtain ⟨key, hkey⟩ := List.exists_mem_of_length_pos (by rw [hone]; decide)
      rw [List.mem_filter] at hkey
      obtain ⟨c, hc, rfl⟩ := List.mem_map.mp (c2 ▸ hkey.1)
      rw [e1 c hc] at hkey
      exact absurd hkey.2 (by decide)

/-- Array 0 is the stack, the others are given. -/
def withStack (S : Arr α) (B : Nat → Arr α) : Nat → Arr α
  | 0 => S
  | i + 1 => B i

omit [Inhabited α] in
/-- The engine's reader of the stack (`raceChunks`) is the reader of an array that changes as the stack does. -/
theorem C86_reader [Inhabited α] (limit n : Nat) (other : Nat → List (Assignment α)) (ss : List Nat) (items : List Nat → Arr α) : ∀ (keys : List (List Key)) (k : Nat),
    raceChunks m limit n other ss k (heldAfter other items k) keys =
      readChanging m limit n (fun k => Arr.stack ss (heldAfter other items (k + 1))) k keys := by
  intro keys
  induction keys with
  | nil => intro k; rfl
  | cons key keys ih =>
    intro k
    rw [raceChunks, readChanging, ← heldAfter_succ, ih]

/-- C86, expressions over the stack (object 0) and other arrays `B i`, which do not change, evaluated by the engine.  The result is exactly the value of the expression for an array `T` in the
place of the stack whose elements are elements the stack had at their positions when the chunk with this element was read. -/
theorem C86_expressions (fwd tile : Bool) (other : Nat → List (Assignment α)) (ss s : List Nat) (items : List Nat → Arr α) (x : Nat → List Nat → NDA V)
    (B : Nat → Arr α) (y : Nat → NDA V) (e : Over α) (h0 : ss.prod ≠ 0) (h1 : ss ≠ [])
    (h : ∀ k i, InB ss i → (heldAfter other items k i).Built m limit fwd false .sliced ∧ (heldAfter other items k i).isProd = true ∧
      (heldAfter other items k i).Yields m limit (x k i) ∧ (x k i).shape = s)
    (hB : ∀ i, (B i).Built m limit fwd false .sliced ∧ (B i).isProd = true ∧ (B i).Yields m limit (y i))
    (he : (e.plug (withStack (Arr.stack ss (heldAfter other items 1)) B)).Built m limit fwd tile .sliced) {sh : List Nat}
    (hsh : (e.plug (withStack (Arr.stack ss (heldAfter other items 1)) B)).shape = .ok sh) (hask : e.oneOrder (List.range sh.length)) :
    ∃ T : NDA V, T.shape = ss ++ s ∧
      (∀ order, (0, order) ∈ e.asks (List.range sh.length) → ∀ idx, InB (ss ++ s) idx → ∃ j, ∃ key, (chunkIndexGen limit (ss ++ s) order)[j]? = some key ∧
        inRegion key (ss ++ s) idx = true ∧ T.get idx = (NDA.stacked ss (x (j + 1))).get idx) ∧
      ∃ N, ∀ n, N ≤ n → ∃ r, engineReading m limit n (fun i k => withStack (Arr.stack ss (heldAfter other items (k + 1))) B i) e = .ok r ∧
        r ≈ₐ e.value m (fun i => if i = 0 then T else y (i - 1)) := by
  have hz := inB_zeros ss h0
  have hshape : ∀ k, (NDA.stacked ss (x k)).shape = ss ++ s := fun k => by simp only [NDA.stacked]; rw [(h k _ hz).2.2.2]
  have hb : ∀ k, (Arr.stack ss (heldAfter other items k)).Built m limit fwd false .sliced := by
    intro k
    refine Arr.Built.stack (ss := ss) (items := heldAfter other items k) (fun hh => by rcases hh with hh | hh <;> cases hh)
      (fun _ => ⟨h1, fun i hi => (h k i hi).2.1⟩) (fun i hi => (h k i hi).1) ?_
    rw [mkStack_iff]
    exact ⟨h0, ⟨s, fun i hi => by rw [(h k i hi).2.2.1.1, (h k i hi).2.2.2]⟩, rfl⟩
  have hy : ∀ k, (Arr.stack ss (heldAfter other items k)).Yields m limit (NDA.stacked ss (x k)) :=
    fun k => yields_stack h0 (fun i hi => ⟨(h k i hi).2.2.1, (h k i hi).2.2.2⟩)
  obtain ⟨T, hTs, hT, N, hN⟩ := C87_expressions fwd tile (fun i k => withStack (Arr.stack ss (heldAfter other items (k + 1))) B i)
    (fun i k => if i = 0 then NDA.stacked ss (x (k + 1)) else y (i - 1)) (fun i => if i = 0 then ss ++ s else (y (i - 1)).shape) e
    (fun i k => by
      match i with
      | 0 => exact ⟨hb _, rfl, hy _, hshape _⟩
      | i + 1 => exact ⟨(hB i).1, (hB i).2.1, (hB i).2.2, rfl⟩) he hsh hask
  obtain ⟨hwf, -, -, -⟩ := he.fine
  have hden : ∀ i, ((withStack (Arr.stack ss (heldAfter other items 1)) B i).den m).shape = if i = 0 then ss ++ s else (y (i - 1)).shape := by
    intro i
    match i with
    | 0 => exact (hb 1).fine.1.den_shape m (by have := (hy 1).1; rw [hshape] at this; exact this)
    | i + 1 => exact (hB i).1.fine.1.den_shape m (hB i).2.2.1
  refine ⟨T 0, hTs 0, fun order ho idx hidx => hT 0 order ho idx hidx, N, fun n hn => ?_⟩
  obtain ⟨r, r1, r2⟩ := hN n hn
  refine ⟨r, r1, r2.trans (value_congr m hTs hden e (List.range sh.length) hwf (fun p hp => ?_))⟩
  obtain ⟨i, o⟩ := p
  match i with
  | 0 => exact NDA.Eqv.refl _
  | i + 1 =>
    refine ⟨hTs (i + 1), fun idx hidx => ?_⟩
    rw [hTs] at hidx
    obtain ⟨j, key, _, _, k3⟩ := hT (i + 1) o hp idx hidx
    exact k3

/-- Nobody assigns: the model is the model of `save`. -/
theorem C86_quiet_save (limit n : Nat) (ss s : List Nat) (items : List Nat → Arr α) (target : NDA V) (ht : target.shape = ss ++ s) :
    saveRacing m limit n (fun _ => []) ss 0 items (saveKeys limit (ss ++ s)) target =
      save limit (ss ++ s) (fun ks => (Arr.stack ss items).getitem ks >>= fun b => b.eval m limit n) target := by
  obtain ⟨read, hread⟩ : ∃ read, read = fun ks => (Arr.stack ss items).getitem ks >>= fun b => b.eval m limit n := ⟨_, rfl⟩
  have h : ∀ (l : List (List Key)) (k : Nat) (t : NDA V), t.shape = ss ++ s → saveRacing m limit n (fun _ => []) ss k items l t =
      (saveLoop (ss ++ s) read l).map (fun ws => ws.foldl NDA.update t) := by
    intro l
    induction l with
    | nil => intro k t _; rfl
    | cons ks l ih =>
      intro k t ht
      have hr : saveRacing m limit n (fun _ => []) ss k items (ks :: l) t = (do
          let d ← read ks
          let w ← npAssignments (ss ++ s) ks d
          saveRacing m limit n (fun _ => []) ss (k + 1) items l (w.foldl NDA.update t)) := by
        rw [saveRacing, hread, ← ht]
        simp only [List.foldl_nil, bind, Except.bind]
        cases (Arr.stack ss items).getitem ks <;> rfl
      rw [hr, saveLoop]
      simp only [bind, Except.bind, pure, Except.pure]
      cases read ks with
      | error e => rfl
      | ok d =>
        simp only
        cases npAssignments (ss ++ s) ks d with
        | error e => rfl
        | ok w =>
          simp only
          rw [ih (k + 1) _ (by rw [foldl_update_shape, ht])]
          cases saveLoop (ss ++ s) read l with
          | error e => rfl
          | ok ws => simp only [Except.map, List.foldl_append]
  rw [h _ _ _ ht, ← hread]
  unfold save saveWrites
  rw [ht]
  cases saveLoop (ss ++ s) read (saveKeys limit (ss ++ s)) <;> rfl

theorem saveRacing_eq (limit n : Nat) (other : Nat → List (Assignment α)) (ss : List Nat) : ∀ (l : List (List Key)) (k : Nat) (items : List Nat → Arr α)
    (cs : List (Chunk V)) (t : NDA V), raceChunks m limit n other ss k items l = .ok cs → saveRacing m limit n other ss k items l t = cs.foldlM storeChunk t := by
  intro l
  induction l with
  | nil => intro k items cs t h; cases h; rfl
  | cons ks l ih =>
    intro k items cs t h
    rw [raceChunks] at h
    obtain ⟨b, hb, h⟩ := bind_ok.mp h
    obtain ⟨d, hd, h⟩ := bind_ok.mp h
    obtain ⟨cs', hcs, h⟩ := bind_ok.mp h
    cases h
    rw [saveRacing, List.foldlM_cons, storeChunk]
    simp only [hb, hd, bind, Except.bind, pure, Except.pure]
    cases npAssignments t.shape ks d with
    | error e => rfl
    | ok w => exact ih _ _ _ _ hcs

/-- C86, `save`.  The stack is saved to a target while other threads assign to its items: the call succeeds, and every element of the target is an element that the stack
had at its position at the moment when the block with this element was cut out. -/
theorem C86_save (other : Nat → List (Assignment α)) (ss s : List Nat) (items : List Nat → Arr α) (x : Nat → List Nat → NDA V)
    (target : NDA V) (h0 : ss.prod ≠ 0)
    (h : ∀ k i, InB ss i → (heldAfter other items k i).Built m limit true false .whole ∧
      (heldAfter other items k i).Yields m limit (x k i) ∧ (x k i).shape = s) (ht : target.shape = ss ++ s) :
    ∃ N, ∀ n, N ≤ n → ∃ r, saveRacing m limit n other ss 0 items (saveKeys limit (ss ++ s)) target = .ok r ∧ r.shape = ss ++ s ∧
      ∀ idx, InB (ss ++ s) idx → ∃ j, ∃ key, (saveKeys limit (ss ++ s))[j]? = some key ∧
        inRegion key (ss ++ s) idx = true ∧ r.get idx = (NDA.stacked ss (x (j + 1))).get idx := by
  have hz := inB_zeros ss h0
  have hshape : ∀ k, (NDA.stacked ss (x k)).shape = ss ++ s := fun k => by simp only [NDA.stacked]; rw [(h k _ hz).2.2]
  have hb : ∀ k, (Arr.stack ss (heldAfter other items k)).Built m limit true false .whole := by
    intro k
    refine Arr.Built.stack (ss := ss) (items := heldAfter other items k) (fun hh => by rcases hh with hh | hh <;> cases hh)
      (fun hh => absurd rfl hh) (fun i hi => (h k i hi).1) ?_
    rw [mkStack_iff]
    exact ⟨h0, ⟨s, fun i hi => by rw [(h k i hi).2.1.1, (h k i hi).2.2]⟩, rfl⟩
  have hy : ∀ k, (Arr.stack ss (heldAfter other items k)).Yields m limit (NDA.stacked ss (x k)) :=
    fun k => yields_stack h0 (fun i hi => ⟨(h k i hi).2.1, (h k i hi).2.2⟩)
  set keys := saveKeys limit (ss ++ s) with hkeys
  have hcart : keys = cart (allSlicesInner limit false (ss ++ s)) := by rw [hkeys]; unfold saveKeys; rw [ndindex_pickCuts]
  have hex : ∀ key ∈ keys, Exact key := fun key hk k hkk => (cart_resolve limit false (ss ++ s) key (hcart ▸ hk)).2.1 k hkk
  obtain ⟨N, hN⟩ := common_bound (List.range keys.length)
    (fun j n => ∃ b σ d, (Arr.stack ss (heldAfter other items (0 + j + 1))).getitem (keys.getD j []) = .ok b ∧
      resolve (keys.getD j []) (ss ++ s) = .ok σ ∧ b.eval m limit n = .ok d ∧ d ≈ₐ (NDA.stacked ss (x (0 + j + 1))).ortho σ) (by
    intro j hj
    rw [List.mem_range] at hj
    have hk : keys.getD j [] ∈ keys := by rw [List.getD_eq_getElem _ _ hj]; exact List.getElem_mem hj
    have hs : SimpleKeys true (keys.getD j []) (NDA.stacked ss (x (0 + j + 1))).shape := by rw [hshape]; exact saveKeys_simple limit (ss ++ s) _ hk
    obtain ⟨hwf, hok, _, hpl⟩ := (hb (0 + j + 1)).fine
    obtain ⟨b, r, g1, g2, g3, _⟩ := C06_simple_keys true [keys.getD j []] _ _ hwf hok hpl (hy (0 + j + 1)) ⟨hs, fun _ _ _ _ => trivial⟩
    rw [List.foldlM_cons] at g1
    obtain ⟨b', hb', g1⟩ := bind_ok.mp g1
    cases g1
    unfold indexAll at g2
    rw [List.foldlM_cons] at g2
    obtain ⟨r', hr', g2⟩ := bind_ok.mp g2
    cases g2
    obtain ⟨fk, σ, f1, f2, f3⟩ := npIndex_ok_iff.mp hr'
    obtain ⟨l1, l2, _⟩ := cart_resolve limit false (ss ++ s) (keys.getD j []) (hcart ▸ hk)
    rw [hshape, ← l1, expandKeys_exact _ l2] at f1
    cases f1
    rw [hshape] at f2
    obtain ⟨M, hM⟩ := g3.2
    refine ⟨M, fun n hn => ?_⟩
    obtain ⟨d, e1, e2⟩ := hM n hn
    exact ⟨b, σ, d, hb', f2, e1, f3 ▸ e2⟩)
  refine ⟨N, fun n hn => ?_⟩
  obtain ⟨cs, c1, c2, c3⟩ := raceChunks_ok m limit n other ss (ss ++ s) items (fun k => NDA.stacked ss (x (k + 1))) keys 0
    (fun j hj => hN n hn j (List.mem_range.mpr hj))
  obtain ⟨r, r1, r2, r3⟩ := store_mixed (ss ++ s) (fun k => NDA.stacked ss (x (k + 1))) (fun k => hshape _) cs 0 target ht
    (fun c hc => hex _ (c2 ▸ List.mem_map_of_mem hc)) c3
  refine ⟨r, ?_, r2, fun idx hidx => ?_⟩
  · rw [saveRacing_eq limit n other ss keys 0 items cs target c1]
    exact r1
  · rcases r3 idx with ⟨j, hj, e1, e2⟩ | ⟨e1, _⟩
    · refine ⟨j, (cs[j]).1, ?_, e1, by rw [e2, Nat.zero_add]⟩
      rw [← c2, List.getElem?_map, List.getElem?_eq_getElem hj]; rfl
    · exfalso
      have hone := cart_covers_once _ _ (allSlices_tiles limit false (ss ++ s)) idx hidx
      rw [← hcart] at hone
      obtain ⟨key, hkey, hreg⟩ := List.countP_pos_iff.mp (by rw [hone]; decide)
      obtain ⟨c, hc, rfl⟩ := List.mem_map.mp (c2 ▸ hkey)
      rw [e1 c hc] at hreg
      exact absurd hreg (by decide)

/-! ### Examples -/

/-- Two items of shape (2,): `[0, 0]` and `[1, 1]`. -/
def exHeld : List Nat → Arr ℚ := fun i => .const [2] (i.getD 0 0 : Nat) 0

/-- Just before access `k`, the other thread assigns constants to item 0, and then to item 1. -/
def exOther (k : Nat) : Nat → List (Assignment ℚ) :=
  fun j => if j = k then [⟨[0], .const [2] 10 0⟩, ⟨[1], .const [2] 11 0⟩] else []

theorem exHeld_const (k j : Nat) (i : List Nat) : ∃ v, heldAfter (exOther k) exHeld j i = .const [2] v 0 := by
  induction j generalizing i with
  | zero => exact ⟨_, rfl⟩
  | succ j ih =>
    rw [heldAfter_succ]
    unfold exOther
    split
    · show ∃ v, (if i = [1] then _ else if i = [0] then _ else _) = _
      split
      · exact ⟨_, rfl⟩
      · split
        · exact ⟨_, rfl⟩
        · exact ih i
    · exact ih i

/-- The hypotheses of `C86_items_are_whole` and `C86_engine_elements` are met by this stack, whatever the moment of the assignments. -/
example (k : Nat) : ∀ j i, InB [2] i → (heldAfter (exOther k) exHeld j i).Built exMode 1 true false .sliced ∧
    (heldAfter (exOther k) exHeld j i).isProd = true ∧
    (heldAfter (exOther k) exHeld j i).Yields exMode 1 ((heldAfter (exOther k) exHeld j i).den exMode) ∧
    ((heldAfter (exOther k) exHeld j i).den exMode).shape = [2] := by
  intro j i _
  obtain ⟨v, hv⟩ := exHeld_const k j i
  rw [hv]
  have hb : (Arr.const [2] v 0).Built exMode 1 true false .whole := .const _ _ _ _ _
  exact ⟨.const _ _ _ _ _, rfl, Arr.Yields.of_den hb.fine.1 hb.fine.2.1, rfl⟩

/-- The hypotheses of `C86_save` are met by this stack, whatever the moment of the assignments. -/
example (k : Nat) : ∀ j i, InB [2] i → (heldAfter (exOther k) exHeld j i).Built exMode 1 true false .whole ∧
    (heldAfter (exOther k) exHeld j i).Yields exMode 1 ((heldAfter (exOther k) exHeld j i).den exMode) ∧
    ((heldAfter (exOther k) exHeld j i).den exMode).shape = [2] := by
  intro j i _
  obtain ⟨v, hv⟩ := exHeld_const k j i
  rw [hv]
  have hb : (Arr.const [2] v 0).Built exMode 1 true false .whole := .const _ _ _ _ _
  exact ⟨hb, Arr.Yields.of_den hb.fine.1 hb.fine.2.1, rfl⟩

/-- Both assignments between the two accesses of a direct evaluation: the result has the old item 0 and the new item 1.  The stack was never like that:
it was `[0, 0, 1, 1]`, then `[10, 10, 1, 1]`, then `[10, 10, 11, 11]`.  (With one assignment this is impossible, `C86_before_or_after`.) -/
theorem C86_two_assignments_mix : Res.view (stackRacing exMode 8 0 (exOther 1) [2] [2] exHeld) = .ok ([2, 2], [0, 0, 11, 11]) ∧
    Res.view ((Arr.stack [2] exHeld).eval exMode 8 0) = .ok ([2, 2], [0, 0, 1, 1]) ∧
    Res.view ((Arr.stack [2] (assignItem exHeld ⟨[0], .const [2] 10 0⟩)).eval exMode 8 0) = .ok ([2, 2], [10, 10, 1, 1]) ∧
    Res.view ((Arr.stack [2] (heldAfter (exOther 1) exHeld 2)).eval exMode 8 0) = .ok ([2, 2], [10, 10, 11, 11]) := by
  refine ⟨by decide +kernel, by decide +kernel, by decide +kernel, by decide +kernel⟩

/-- The engine, with one element per chunk, and one assignment (item 0) before the second chunk: the item comes out torn, `[0, 10]`.  It was `[0, 0]` and
then `[10, 10]`; a direct evaluation gives one of the two, at any moment of the assignment. -/
theorem C86_engine_tears_items :
    Res.view (engineRacing exMode 1 1 (fun j => if j = 1 then [⟨[0], .const [2] 10 0⟩] else []) [2] [2] exHeld) = .ok ([2, 2], [0, 10, 1, 1]) ∧
    Res.view (stackRacing exMode 1 1 (fun j => if j = 1 then [⟨[0], .const [2] 10 0⟩] else []) [2] [2] exHeld) = .ok ([2, 2], [0, 0, 1, 1]) ∧
    Res.view (stackRacing exMode 1 1 (fun j => if j = 0 then [⟨[0], .const [2] 10 0⟩] else []) [2] [2] exHeld) = .ok ([2, 2], [10, 10, 1, 1]) := by
  refine ⟨by decide +kernel, by decide +kernel, by decide +kernel⟩

/-- The hypotheses of `C86_expressions` are met by the sum of this stack along its items. -/
example (k : Nat) : ((Over.agg (.src 0) 0 .sum).plug (withStack (Arr.stack [2] (heldAfter (exOther k) exHeld 1)) (fun _ => .const [2] 0 0))).Built
    exMode 1 true false .sliced ∧ (Over.agg (.src 0) 0 (.sum : AggKind ℚ)).oneOrder [0] := by
  have hsh : ∀ i, (heldAfter (exOther k) exHeld 1 i).shape = .ok [2] := fun i => by
    obtain ⟨v, hv⟩ := exHeld_const k 1 i; rw [hv]; rfl
  have hst : (Arr.stack [2] (heldAfter (exOther k) exHeld 1)).Built exMode 1 true false .sliced := by
    refine Arr.Built.stack (ss := [2]) (items := heldAfter (exOther k) exHeld 1) (fun hh => by rcases hh with hh | hh <;> cases hh)
      (fun _ => ⟨by simp, fun i _ => ?_⟩) (fun i _ => ?_) (mkStack_iff.mpr ⟨by decide, ⟨[2], fun i _ => hsh i⟩, rfl⟩)
    · obtain ⟨v, hv⟩ := exHeld_const k 1 i; rw [hv]; rfl
    · obtain ⟨v, hv⟩ := exHeld_const k 1 i; rw [hv]; exact .const _ _ _ _ _
  refine ⟨.agg (s := [2, 2]) hst ?_ (by decide) (Or.inl (by decide)) (Or.inl sumH_lawful), ?_⟩
  · show (Arr.stack [2] _).shape = _
    unfold Arr.shape
    rw [hsh]; rfl
  · intro i o o' h h'
    simp only [Over.asks, List.mem_singleton, Prod.mk.injEq] at h h'
    rw [h.2, h'.2]

/-- The sum of the stack along its items, one element per chunk (the engine reads the elements in the order (0,0), (1,0), (0,1), (1,1)): both assignments before the second
chunk give the sums 0 + 11 and 10 + 11. -/
example : Res.view (engineReading exMode 1 2 (fun i k => withStack (Arr.stack [2] (heldAfter (exOther 1) exHeld (k + 1))) (fun _ => .const [2] 0 0) i)
    (.agg (.src 0) 0 .sum)) = .ok ([2], [11, 21]) := by decide +kernel

/-- `save` of this stack to a target full of nines, one element per block, and one assignment (item 0) before the second block: item 0 is saved torn. -/
example : Res.view (saveRacing exMode 1 1 (fun j => if j = 1 then [⟨[0], .const [2] 10 0⟩] else []) [2] 0 exHeld (saveKeys 1 [2, 2])
    ⟨[2, 2], fun _ => 9⟩) = .ok ([2, 2], [0, 10, 1, 1]) := by decide +kernel

end Biggus

import Verif.Proofs.Changing
import Verif.Props.Compute
import Verif.Props.Chunks
import Verif.Props.Adapters
import Verif.Props.Save
/-
C87: sources whose contents change while the engine evaluates an expression over them.
-/
namespace Biggus
open Spec

variable {α V : Type} [Inhabited α] [Inhabited V] {m : Mode α V} {limit : Nat}

/-- Nothing changes: the model is the model of the engine. -/
theorem C87_quiet (limit n : Nat) (S : Nat → Arr α) (hS : ∀ i, (S i).isProd = true) (e : Over α) :
    engineReading m limit n (fun i _ => S i) e = engineEval m limit n (e.plug S) := by
  have h : ∀ (i : Nat) (l : List (List Key)) (k : Nat), readChanging m limit n (fun _ => S i) k l =
      l.mapM (fun key => do
        let b ← (S i).getitem key
        let d ← b.eval m limit n
        return (key, d)) := by
    intro i l
    induction l with
    | nil => intro k; rfl
    | cons key l ih =>
      intro k
      rw [readChanging, List.mapM_cons]
      simp only [ih, bind, Except.bind, pure, Except.pure]
      cases (S i).getitem key with
      | error e => rfl
      | ok b =>
        simp only
        cases b.eval m limit n <;> rfl
  have hst : ∀ (e : Over α) (order : List Nat), e.stream m
      (fun i order => do
        let s ← (S i).shape
        readChanging m limit n (fun _ => S i) 0 (chunkIndexGen limit s order)) S order =
      (e.plug S).stream m limit (fun b => b.eval m limit n) order := by
    intro e
    induction e with
    | src i =>
      intro order
      have hp := hS i
      rw [Over.stream, Over.plug]
      simp only [h]
      cases hSi : S i <;> first | rfl | (rw [hSi] at hp; cases hp)
    | agg e axis k ih => intro order; simp only [Over.stream, Over.plug, Arr.stream, ih]
    | elem1 e op ih => intro order; simp only [Over.stream, Over.plug, Arr.stream, ih]; cases m.op1 op <;> rfl
    | elem2 e e' op ih ih' => intro order; simp only [Over.stream, Over.plug, Arr.stream, ih, ih']; cases m.op2 op <;> rfl
  unfold engineReading engineEval engineOne
  simp only [hst]

/-- C87.  The engine evaluates an expression over arrays that change meanwhile; `x i j` is what array `i` is worth when chunk `j` of it is read.  Every array is asked for in one order
(otherwise see C28).  The evaluation succeeds, and the result is exactly the value of the expression for arrays `T i` of which each element is the one array `i` had at that position
when the (only) chunk that contains it was read. -/
theorem C87_expressions (fwd tile : Bool) (A : Nat → Nat → Arr α) (x : Nat → Nat → NDA V) (s : Nat → List Nat) (e : Over α)
    (h : ∀ i k, (A i k).Built m limit fwd false .sliced ∧ (A i k).isProd = true ∧ (A i k).Yields m limit (x i k) ∧ (x i k).shape = s i)
    (he : (e.plug (fun i => A i 0)).Built m limit fwd tile .sliced) {sh : List Nat} (hsh : (e.plug (fun i => A i 0)).shape = .ok sh)
    (hask : e.oneOrder (List.range sh.length)) :
    ∃ T : Nat → NDA V, (∀ i, (T i).shape = s i) ∧
      (∀ i order, (i, order) ∈ e.asks (List.range sh.length) → ∀ idx, InB (s i) idx → ∃ j, ∃ key, (chunkIndexGen limit (s i) order)[j]? = some key ∧
        inRegion key (s i) idx = true ∧ (T i).get idx = (x i j).get idx) ∧
      ∃ N, ∀ n, N ≤ n → ∃ r, engineReading m limit n A e = .ok r ∧ r ≈ₐ e.value m T := by
  have hone : ∀ i order, order.Perm (List.range (s i).length) → ∀ idx, InB (s i) idx →
      ((chunkIndexGen limit (s i) order).filter (fun ks => inRegion ks (s i) idx)).length = 1 :=
    fun i order hp idx hidx => C16_each_element_in_exactly_one_chunk limit (s i) order idx hp hidx
  have hord : ∀ i, ∃ o, ∀ o', (i, o') ∈ e.asks (List.range sh.length) → o' = o := by
    intro i
    by_cases hx : ∃ o, (i, o) ∈ e.asks (List.range sh.length)
    · obtain ⟨o, ho⟩ := hx
      exact ⟨o, fun o' ho' => hask i o' o ho' ho⟩
    · exact ⟨[], fun o' ho' => absurd ⟨o', ho'⟩ hx⟩
  choose ord hord using hord
  set T : Nat → NDA V := fun i => mixed (s i) (chunkIndexGen limit (s i) (ord i)) (x i) with hT
  set S : Nat → Arr α := fun i => A i 0 with hSdef
  have hshape : ∀ i, (S i).shape = .ok (s i) := fun i => by have := (h i 0).2.2.1.1; rw [(h i 0).2.2.2] at this; exact this
  obtain ⟨hwf, hok, hso, _⟩ := he.fine
  have hden : ∀ i, ((S i).den m).shape = s i := fun i => (h i 0).1.fine.1.den_shape m (hshape i)
  have hdsh := hwf.den_shape m hsh
  have hskel : ∀ i, (S i).skel = .prod (s i) := fun i => by rw [isProd_skel (h i 0).2.1, hshape i]; rfl
  have hperm : ∀ p ∈ e.asks (List.range sh.length), p.2.Perm (List.range (s p.1).length) := asks_perm m hden e _ hwf (by rw [hdsh])
  refine ⟨T, fun _ => rfl, fun i order ho idx hidx => ?_, ?_⟩
  · have hp := hperm _ ho
    cases hord i order ho
    have hlt : (chunkIndexGen limit (s i) (ord i)).findIdx (fun ks => inRegion ks (s i) idx) < (chunkIndexGen limit (s i) (ord i)).length := by
      obtain ⟨key, hkey⟩ := List.exists_mem_of_length_pos (by rw [hone i (ord i) hp idx hidx]; decide)
      rw [List.mem_filter] at hkey
      exact List.findIdx_lt_length_of_exists ⟨key, hkey.1, hkey.2⟩
    exact ⟨_, _, List.getElem?_eq_getElem hlt, List.findIdx_getElem (w := hlt), rfl⟩
  obtain ⟨N1, hN1⟩ := common_bound (e.asks (List.range sh.length))
    (fun p n => ∃ cs, readChanging m limit n (A p.1) 0 (chunkIndexGen limit (s p.1) p.2) = .ok cs ∧
      StreamOk (T p.1) (allSlicesInner limit true (s p.1)) p.2 cs) (by
    intro p hp
    obtain ⟨N, hN⟩ := changing_reader_ok m limit (hperm p hp) (fun k => ⟨(h p.1 k).1.fine.1, (h p.1 k).1.fine.2.1, (h p.1 k).2.2.1, (h p.1 k).2.2.2⟩)
      (hone p.1 p.2 (hperm p hp))
    refine ⟨N, fun n hn => ?_⟩
    have := hN n hn
    rw [hord p.1 p.2 hp] at this ⊢
    exact this)
  obtain ⟨N2, hN2⟩ := exists_level (e.plug S)
  refine ⟨max N1 N2, fun n hn => ?_⟩
  have hgood := streamGood_of m limit n _ (good_of m limit n) _ hwf (hso (by decide)) hok
    (Arr.levelLe.mono _ N2 n (le_trans (le_max_right _ _) hn) hN2)
  obtain ⟨cs, c1, c2, c3⟩ := over_stream m limit (Arr.good m limit n) (fun i order => do
      let s ← (S i).shape
      readChanging m limit n (A i) 0 (chunkIndexGen limit s order)) (T := T) (fun _ => rfl) hden hskel e hwf hgood (List.range sh.length) (by rw [hdsh])
    (fun p hp _ => by
      obtain ⟨cs, k1, k2⟩ := hN1 n (le_trans (le_max_left _ _) hn) p hp
      refine ⟨cs, ?_, k2⟩
      rw [hshape p.1]; exact k1)
  have hv := over_shape m (T := T) (fun _ => rfl) hden e
  obtain ⟨r, r1, r2⟩ := c2.assemble (by rw [hv]; exact c3) (by rw [hv, hdsh])
  refine ⟨r, ?_, r2⟩
  rw [engineReading, hsh]
  simp only [bind, Except.bind] at c1 ⊢
  rw [c1, ← hdsh, ← hv]; exact r1

/-- C87, sources.  Sources whose elements are written while the engine evaluates an expression over them: element `idx` of chunk `j` of source `i` is copied at `moment i j idx`.  The
result is exactly that of evaluating the expression, undisturbed, over sources of which each element is the one the source had at that position at the moment when it was copied
(`when i idx`): every consumer sees the same copy. -/
theorem C87_sources (tile : Bool) (s : Nat → List Nat) (data : Nat → Nat → NDA (Option α)) (moment : Nat → Nat → List Nat → Nat)
    (o : Nat → Bool) (fill : Nat → α) (dtype : Nat → Nat) (e : Over α)
    (hsafe : ∀ i t idx, InB (s i) idx → m.leaf0 (fill i) ((data i t).get idx) = m.leaf (fill i) ((data i t).get idx))
    (he : (e.plug (fun i => .adapter (o i) (sourceAt (s i) (data i) (moment i 0) (fill i) (dtype i)) [])).Built m limit true tile .sliced)
    {sh : List Nat} (hsh : (e.plug (fun i => .adapter (o i) (sourceAt (s i) (data i) (moment i 0) (fill i) (dtype i)) [])).shape = .ok sh)
    (hask : e.oneOrder (List.range sh.length)) :
    ∃ when : Nat → List Nat → Nat,
      (∀ i order, (i, order) ∈ e.asks (List.range sh.length) → ∀ idx, InB (s i) idx → ∃ j, ∃ key, (chunkIndexGen limit (s i) order)[j]? = some key ∧
        inRegion key (s i) idx = true ∧ when i idx = moment i j idx) ∧
      ∃ N, ∀ n, N ≤ n → ∃ r r',
        engineReading m limit n (fun i k => .adapter (o i) (sourceAt (s i) (data i) (moment i k) (fill i) (dtype i)) []) e = .ok r ∧
        engineEval m limit n (e.plug (fun i => .adapter (o i) (sourceAt (s i) (data i) (when i) (fill i) (dtype i)) [])) = .ok r' ∧ r ≈ₐ r' := by
  have hB : ∀ i (w : List Nat → Nat) fwd cut, (Arr.adapter (o i) (sourceAt (s i) (data i) w (fill i) (dtype i)) []).Built m limit fwd false cut :=
    fun i w fwd cut => .source _ _ _ _ (fun idx hidx => hsafe i (w idx) idx hidx) (fun hh => by cases hh)
  have hY : ∀ i (w : List Nat → Nat), (Arr.adapter (o i) (sourceAt (s i) (data i) w (fill i) (dtype i)) []).Yields m limit
      ⟨s i, fun idx => m.leaf (fill i) ((data i (w idx)).get idx)⟩ :=
    fun i w => (Arr.Yields.of_den (hB i w true .whole).fine.1 (hB i w true .whole).fine.2.1).congr (fresh_adapter_den m (o i) _)
  obtain ⟨T, hTs, hT, N, hN⟩ := C87_expressions true tile
    (fun i k => Arr.adapter (o i) (sourceAt (s i) (data i) (moment i k) (fill i) (dtype i)) [])
    (fun i k => ⟨s i, fun idx => m.leaf (fill i) ((data i (moment i k idx)).get idx)⟩) s e
    (fun i k => ⟨hB i _ _ _, rfl, hY i _, rfl⟩) he hsh hask
  obtain ⟨hwf, hok, hso, _⟩ := he.fine
  have hden : ∀ i (w : List Nat → Nat), ((Arr.adapter (o i) (sourceAt (s i) (data i) w (fill i) (dtype i)) []).den m).shape = s i :=
    fun i w => (hB i w true .sliced).fine.1.den_shape m (hY i w).1
  have hwhen : ∀ i, ∃ w : List Nat → Nat, ∀ order, (i, order) ∈ e.asks (List.range sh.length) → ∀ idx, InB (s i) idx →
      (∃ j, ∃ key, (chunkIndexGen limit (s i) order)[j]? = some key ∧ inRegion key (s i) idx = true ∧ w idx = moment i j idx) ∧
      (T i).get idx = m.leaf (fill i) ((data i (w idx)).get idx) := by
    intro i
    by_cases hx : ∃ order, (i, order) ∈ e.asks (List.range sh.length)
    · obtain ⟨order, ho⟩ := hx
      have hc : ∀ idx, ∃ t, InB (s i) idx →
          (∃ j, ∃ key, (chunkIndexGen limit (s i) order)[j]? = some key ∧ inRegion key (s i) idx = true ∧ t = moment i j idx) ∧
          (T i).get idx = m.leaf (fill i) ((data i t).get idx) := by
        intro idx
        by_cases hidx : InB (s i) idx
        · obtain ⟨j, key, k1, k2, k3⟩ := hT i order ho idx hidx
          exact ⟨moment i j idx, fun _ => ⟨⟨j, key, k1, k2, rfl⟩, k3⟩⟩
        · exact ⟨0, fun hh => absurd hh hidx⟩
      choose w hw using hc
      refine ⟨w, fun order' ho' idx hidx => ?_⟩
      cases hask i order order' ho ho'
      exact hw idx hidx
    · exact ⟨fun _ => 0, fun order ho => absurd ⟨order, ho⟩ hx⟩
  choose when hwhen using hwhen
  refine ⟨when, fun i order ho idx hidx => (hwhen i order ho idx hidx).1, ?_⟩
  have hshape : ∀ i, (Arr.adapter (o i) (sourceAt (s i) (data i) (moment i 0) (fill i) (dtype i)) []).shape =
      (Arr.adapter (o i) (sourceAt (s i) (data i) (when i) (fill i) (dtype i)) []).shape :=
    fun i => by rw [(hY i (moment i 0)).1, (hY i (when i)).1]
  have hskel : ∀ i, (Arr.adapter (o i) (sourceAt (s i) (data i) (moment i 0) (fill i) (dtype i)) []).skel =
      (Arr.adapter (o i) (sourceAt (s i) (data i) (when i) (fill i) (dtype i)) []).skel :=
    fun i => by rw [isProd_skel rfl, isProd_skel rfl, hshape]
  obtain ⟨N', hN'⟩ := engine_ok m limit _ (plug_WF hshape (fun i => (hB i (when i) true .sliced).fine.1) e hwf)
    (plug_streamOk m limit hshape hskel (fun i => isProd_streamOk m limit rfl) e (hso (by decide)))
    (plug_Ok m limit hshape hskel (fun i => isProd_streamOk m limit rfl) (fun i => (hB i (when i) true .sliced).fine.2.1) e hok)
  refine ⟨max N N', fun n hn => ?_⟩
  obtain ⟨r, r1, r2⟩ := hN n (le_trans (le_max_left _ _) hn)
  obtain ⟨r', k1, k2⟩ := hN' n (le_trans (le_max_right _ _) hn)
  refine ⟨r, r', r1, k1, r2.trans (NDA.Eqv.trans ?_ k2.symm)⟩
  rw [← value_den m _ e]
  refine value_congr m hTs (fun i => hden i (moment i 0)) e (List.range sh.length) hwf (fun p hp => ?_)
  have hd := (hY p.1 (when p.1)).2.den_eqv (hB p.1 (when p.1) true .sliced).fine.1
    (((hB p.1 (when p.1) true .sliced).fine.2.1).mono m limit _ _ _ (Or.inr (Or.inr rfl)))
  refine NDA.Eqv.trans ⟨hTs _, fun idx hidx => ?_⟩ hd
  rw [hTs] at hidx
  exact (hwhen p.1 p.2 hp idx hidx).2

/-- C87: an operation of a source with itself.  Both operands see the same copy, so each element of the result is `f v v` for one `v` the source had at this position:
`x - x` is 0, whatever is written to `x` meanwhile. -/
theorem C87_with_itself (s : List Nat) (data : Nat → NDA (Option α)) (moment : Nat → List Nat → Nat) (o : Bool) (fill : α) (dtype : Nat)
    (op : Op2 α) (f : V → V → V) (hop : m.op2 op = some f)
    (hsafe : ∀ t idx, InB s idx → m.leaf0 fill ((data t).get idx) = m.leaf fill ((data t).get idx)) :
    ∃ N, ∀ n, N ≤ n → ∃ r, engineReading m limit n (fun _ k => .adapter o (sourceAt s data (moment k) fill dtype) []) (.elem2 (.src 0) (.src 0) op) = .ok r ∧
      r.shape = s ∧ ∀ idx, InB s idx → ∃ k, r.get idx =
        f (m.leaf fill ((data (moment k idx)).get idx)) (m.leaf fill ((data (moment k idx)).get idx)) := by
  have hB : ∀ (w : List Nat → Nat) fwd cut, (Arr.adapter o (sourceAt s data w fill dtype) []).Built m limit fwd false cut :=
    fun w fwd cut => .source _ _ _ _ (fun idx hidx => hsafe (w idx) idx hidx) (fun hh => by cases hh)
  have hY : ∀ (w : List Nat → Nat), (Arr.adapter o (sourceAt s data w fill dtype) []).Yields m limit ⟨s, fun idx => m.leaf fill ((data (w idx)).get idx)⟩ :=
    fun w => (Arr.Yields.of_den (hB w true .whole).fine.1 (hB w true .whole).fine.2.1).congr (fresh_adapter_den m o _)
  have hsh : (Over.plug (fun _ => Arr.adapter o (sourceAt s data (moment 0) fill dtype) []) (.elem2 (.src 0) (.src 0) op)).shape = .ok s := (hY (moment 0)).1
  obtain ⟨T, hTs, hT, N, hN⟩ := C87_expressions (limit := limit) true false
    (fun _ k => Arr.adapter o (sourceAt s data (moment k) fill dtype) [])
    (fun _ k => ⟨s, fun idx => m.leaf fill ((data (moment k idx)).get idx)⟩) (fun _ => s) (.elem2 (.src 0) (.src 0) op)
    (fun _ k => ⟨hB _ _ _, rfl, hY _, rfl⟩)
    (.elem2 (hB _ _ _) (hB _ _ _) (by rw [hop]; rfl) rfl (Or.inr (Or.inl rfl))) hsh (by
      intro i o o' h h'
      simp only [Over.asks, List.cons_append, List.nil_append, List.mem_cons, List.not_mem_nil, or_false, or_self, Prod.mk.injEq] at h h'
      rw [h.2, h'.2])
  refine ⟨N, fun n hn => ?_⟩
  obtain ⟨r, r1, r2⟩ := hN n hn
  have hrs : r.shape = s := r2.1.trans (hTs 0)
  refine ⟨r, r1, hrs, fun idx hidx => ?_⟩
  obtain ⟨j, key, _, _, k3⟩ := hT 0 (List.range s.length) (by simp [Over.asks]) idx hidx
  refine ⟨j, ?_⟩
  rw [r2.2 idx (hrs ▸ hidx)]
  simp only [Over.value, NDA.zip, hop, Option.getD_some, k3]

theorem saveChanging_eq (limit n : Nat) (A : Nat → Arr α) : ∀ (l : List (List Key)) (k : Nat)
    (cs : List (Chunk V)) (t : NDA V), readChanging m limit n A k l = .ok cs → saveChanging m limit n A k l t = cs.foldlM storeChunk t := by
  intro l
  induction l with
  | nil => intro k cs t h; cases h; rfl
  | cons ks l ih =>
    intro k cs t h
    rw [readChanging] at h
    obtain ⟨b, hb, h⟩ := bind_ok.mp h
    obtain ⟨d, hd, h⟩ := bind_ok.mp h
    obtain ⟨cs', hcs, h⟩ := bind_ok.mp h
    cases h
    rw [saveChanging, List.foldlM_cons, storeChunk]
    simp only [hb, hd, bind, Except.bind, pure, Except.pure]
    cases npAssignments t.shape ks d with
    | error e => rfl
    | ok w => exact ih _ _ _ hcs

/-- C87, `save`.  Any array of the grammar is saved to a target while its sources change; `x j` is what it is worth when block `j` is read.  The call succeeds, and every element of the
target is the array's element at this position at the moment when the (only) block with this element was read. -/
theorem C87_save (A : Nat → Arr α) (x : Nat → NDA V) (s : List Nat) (target : NDA V)
    (h : ∀ k, (A k).Built m limit true false .whole ∧ (A k).Yields m limit (x k) ∧ (x k).shape = s) (ht : target.shape = s) :
    ∃ N, ∀ n, N ≤ n → ∃ r, saveChanging m limit n A 0 (saveKeys limit s) target = .ok r ∧ r.shape = s ∧
      ∀ idx, InB s idx → ∃ j, ∃ key, (saveKeys limit s)[j]? = some key ∧ inRegion key s idx = true ∧ r.get idx = (x j).get idx := by
  set keys := saveKeys limit s with hkeys
  have hcart : keys = cart (allSlicesInner limit false s) := by rw [hkeys]; unfold saveKeys; rw [ndindex_pickCuts]
  have hex : ∀ key ∈ keys, Exact key := fun key hk k hkk => (cart_resolve limit false s key (hcart ▸ hk)).2.1 k hkk
  obtain ⟨N, hN⟩ := common_bound (List.range keys.length)
    (fun j n => ∃ b σ d, (A (0 + j)).getitem (keys.getD j []) = .ok b ∧
      resolve (keys.getD j []) s = .ok σ ∧ b.eval m limit n = .ok d ∧ d ≈ₐ (x (0 + j)).ortho σ) (by
    intro j hj
    rw [List.mem_range] at hj
    obtain ⟨hb, hy, hs⟩ := h (0 + j)
    have hk : keys.getD j [] ∈ keys := by rw [List.getD_eq_getElem _ _ hj]; exact List.getElem_mem hj
    have hsk : SimpleKeys true (keys.getD j []) (x (0 + j)).shape := by rw [hs]; exact saveKeys_simple limit s _ hk
    obtain ⟨hwf, hok, _, hpl⟩ := hb.fine
    obtain ⟨b, r, g1, g2, g3, _⟩ := C06_simple_keys true [keys.getD j []] _ _ hwf hok hpl hy ⟨hsk, fun _ _ _ _ => trivial⟩
    rw [List.foldlM_cons] at g1
    obtain ⟨b', hb', g1⟩ := bind_ok.mp g1
    cases g1
    unfold indexAll at g2
    rw [List.foldlM_cons] at g2
    obtain ⟨r', hr', g2⟩ := bind_ok.mp g2
    cases g2
    obtain ⟨fk, σ, f1, f2, f3⟩ := npIndex_ok_iff.mp hr'
    obtain ⟨l1, l2, _⟩ := cart_resolve limit false s (keys.getD j []) (hcart ▸ hk)
    rw [hs, ← l1, expandKeys_exact _ l2] at f1
    cases f1
    rw [hs] at f2
    obtain ⟨M, hM⟩ := g3.2
    refine ⟨M, fun n hn => ?_⟩
    obtain ⟨d, e1, e2⟩ := hM n hn
    exact ⟨b, σ, d, hb', f2, e1, f3 ▸ e2⟩)
  refine ⟨N, fun n hn => ?_⟩
  obtain ⟨cs, c1, c2, c3⟩ := readChanging_ok m limit n A s x keys 0 (fun j hj => hN n hn j (List.mem_range.mpr hj))
  obtain ⟨r, r1, r2, r3⟩ := store_mixed s x (fun k => (h k).2.2) cs 0 target ht (fun c hc => hex _ (c2 ▸ List.mem_map_of_mem hc)) c3
  refine ⟨r, ?_, r2, fun idx hidx => ?_⟩
  · rw [saveChanging_eq limit n A keys 0 cs target c1]
    exact r1
  · rcases r3 idx with ⟨j, hj, e1, e2⟩ | ⟨e1, _⟩
    · refine ⟨j, (cs[j]).1, ?_, e1, by rw [e2, Nat.zero_add]⟩
      rw [← c2, List.getElem?_map, List.getElem?_eq_getElem hj]; rfl
    · exfalso
      have hone := cart_covers_once _ _ (allSlices_tiles limit false s) idx hidx
      rw [← hcart] at hone
      obtain ⟨key, hkey, hreg⟩ := List.countP_pos_iff.mp (by rw [hone]; decide)
      obtain ⟨c, hc, rfl⟩ := List.mem_map.mp (c2 ▸ hkey)
      rw [e1 c hc] at hreg
      exact absurd hreg (by decide)

/-- C87, `save` of a source of which the elements are written meanwhile: element `idx` of block `j` is copied at `moment j idx`.  Every element of the target is a value the source has
had at this position, at the moment of its one and only copy; `save` neither repeats nor skips an element. -/
theorem C87_save_source (s : List Nat) (data : Nat → NDA (Option α)) (moment : Nat → List Nat → Nat) (o : Bool) (fill : α) (dtype : Nat) (target : NDA V)
    (hsafe : ∀ t idx, InB s idx → m.leaf0 fill ((data t).get idx) = m.leaf fill ((data t).get idx)) (ht : target.shape = s) :
    ∃ N, ∀ n, N ≤ n → ∃ r, saveChanging m limit n (fun k => .adapter o (sourceAt s data (moment k) fill dtype) []) 0 (saveKeys limit s) target = .ok r ∧ r.shape = s ∧
      ∀ idx, InB s idx → ∃ j, ∃ key, (saveKeys limit s)[j]? = some key ∧ inRegion key s idx = true ∧ r.get idx = m.leaf fill ((data (moment j idx)).get idx) := by
  have hB : ∀ k fwd cut, (Arr.adapter o (sourceAt s data (moment k) fill dtype) []).Built m limit fwd false cut :=
    fun k fwd cut => .source _ _ _ _ (fun idx hidx => hsafe (moment k idx) idx hidx) (fun hh => by cases hh)
  exact C87_save (fun k => Arr.adapter o (sourceAt s data (moment k) fill dtype) [])
    (fun k => ⟨s, fun idx => m.leaf fill ((data (moment k idx)).get idx)⟩) s target
    (fun k => ⟨hB k _ _, (Arr.Yields.of_den (hB k true .whole).fine.1 (hB k true .whole).fine.2.1).congr (fresh_adapter_den m o _), rfl⟩) ht

/-! ### Examples -/

/-- At moment `t` all four elements are `t`. -/
def exTicking : Nat → NDA (Option ℚ) := fun t => ⟨[2, 2], fun _ => some (t : ℚ)⟩

/-- The hypotheses of `C87_expressions` and `C87_sources` about an expression: the sums of the differences of a source with itself. -/
example (w : List Nat → Nat) : ((Over.agg (.elem2 (.src 0) (.src 0) ⟨fun x y => x - y, none⟩) 0 .sum).plug
    (fun _ => Arr.adapter true (sourceAt [2, 2] exTicking w (0 : ℚ) 0) [])).Built exMode 1 true false .sliced ∧
    (∀ t idx, InB [2, 2] idx → exMode.leaf0 (0 : ℚ) ((exTicking t).get idx) = exMode.leaf (0 : ℚ) ((exTicking t).get idx)) ∧
    (Over.agg (.elem2 (.src 0) (.src 0) (⟨fun x y => x - y, none⟩ : Op2 ℚ)) 0 .sum).oneOrder [0] := by
  have hsafe : ∀ t idx, InB [2, 2] idx → exMode.leaf0 (0 : ℚ) ((exTicking t).get idx) = exMode.leaf (0 : ℚ) ((exTicking t).get idx) := fun t idx _ => rfl
  have hb : ∀ cut, (Arr.adapter true (sourceAt [2, 2] exTicking w (0 : ℚ) 0) []).Built exMode 1 true false cut :=
    fun cut => .source _ _ _ _ (fun idx hidx => hsafe _ idx hidx) (fun hh => by cases hh)
  have hs : (Arr.adapter true (sourceAt [2, 2] exTicking w (0 : ℚ) 0) []).shape = .ok [2, 2] :=
    ((Arr.Yields.of_den (m := exMode) (limit := 1) (hb .whole).fine.1 (hb .whole).fine.2.1).congr (fresh_adapter_den exMode true _)).1
  refine ⟨.agg (s := [2, 2]) (.elem2 (hb _) (hb _) rfl rfl (Or.inr (Or.inl rfl))) hs (by decide) (Or.inl (by decide)) (Or.inl sumH_lawful), hsafe, ?_⟩
  intro i o o' h h'
  simp only [Over.asks, List.cons_append, List.nil_append, List.mem_cons, List.not_mem_nil, or_false, or_self, Prod.mk.injEq] at h h'
  rw [h.2, h'.2]

/-- Every element is read at a different moment, but `x - x` is 0. -/
example : Res.view (engineReading exMode 1 2 (fun _ k => .adapter true (sourceAt [2, 2] exTicking (fun idx => k + 10 * idx.getD 0 0) (0 : ℚ) 0) [])
    (.elem2 (.src 0) (.src 0) ⟨fun x y => x - y, none⟩)) = .ok ([2, 2], [0, 0, 0, 0]) := by decide +kernel

/-- Two objects over the same data (`NumpyArrayAdapter(d) - NumpyArrayAdapter(d)`) are read by two threads, each at its own moments (here: 7 and 4): the difference is not 0.
For data that does not change it is. -/
theorem C87_two_objects_differ :
    Res.view (engineReading exMode 1 2 (fun i _ => .adapter false (sourceAt [2, 2] exTicking (fun _ => if i = 0 then 7 else 4) (0 : ℚ) 0) [])
      (.elem2 (.src 0) (.src 1) ⟨fun x y => x - y, none⟩)) = .ok ([2, 2], [3, 3, 3, 3]) ∧
    Res.view (engineReading exMode 1 2 (fun _ _ => .adapter false (sourceAt [2, 2] exTicking (fun idx => flatIndex [2, 2] idx) (0 : ℚ) 0) [])
      (.elem2 (.src 0) (.src 1) ⟨fun x y => x - y, none⟩)) = .ok ([2, 2], [0, 0, 0, 0]) := by
  refine ⟨by decide +kernel, by decide +kernel⟩

/-- `save` of a source that ticks, one element per block: the four blocks are read at moments 0, 1, 2, 3.  (The hypotheses of `C87_save` for this source: `Arr.Built.source`.) -/
example : (∀ k, (Arr.adapter true (sourceAt [2, 2] exTicking (fun _ => k) (0 : ℚ) 0) []).Built exMode 1 true false .whole) ∧
    Res.view (saveChanging exMode 1 1 (fun k => .adapter true (sourceAt [2, 2] exTicking (fun _ => k) (0 : ℚ) 0) []) 0 (saveKeys 1 [2, 2])
      ⟨[2, 2], fun _ => 9⟩) = .ok ([2, 2], [0, 1, 2, 3]) :=
  ⟨fun _ => .source _ _ _ _ (fun _ _ => rfl) (fun hh => by cases hh), by decide +kernel⟩

end Biggus

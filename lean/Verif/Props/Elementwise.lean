import Verif.Props.Compute
import Verif.Props.Index
/-
C24: element-wise operations.
-/
namespace Biggus
open Spec

section
variable {α V : Type} [Inhabited α] [Inhabited V] {m : Mode α V} {limit : Nat}

omit [Inhabited α] [Inhabited V] in
theorem broadcastsTo_inB {s r idx : List Nat} (hb : BroadcastsTo s r) (hi : InB r idx) :
    InB s ((List.range s.length).map (fun j => if s.getD j 0 = 1 then 0 else idx.getD (r.length - s.length + j) 0)) := by
  have es : s = (List.range s.length).map (fun j => s.getD j 0) := by
    apply List.ext_getElem (by simp)
    intro i h1 h2
    simp [List.getD_eq_getElem?_getD, h1]
  suffices h : InB ((List.range s.length).map (fun j => s.getD j 0))
      ((List.range s.length).map (fun j => if s.getD j 0 = 1 then 0 else idx.getD (r.length - s.length + j) 0)) by
    rw [← es] at h; exact h
  refine inB_map ?_
  intro j hj
  rw [List.mem_range] at hj
  split
  · omega
  · rename_i h
    rcases hb.2 j hj with h' | h'
    · have := inB_getD hi (r.length - s.length + j) (by have := hb.1; omega)
      omega
    · exact absurd h' h

omit [Inhabited α] [Inhabited V] in
theorem broadcastTo_congr {x y : NDA V} {r : List Nat} (h : x ≈ₐ y) (hb : BroadcastsTo x.shape r) : broadcastTo x r ≈ₐ broadcastTo y r :=
  ⟨rfl, fun idx hi => by
    simp only [broadcastTo]
    rw [← h.1]
    exact h.2 _ (broadcastsTo_inB hb hi)⟩

/-- One operand after broadcasting. -/
theorem built_bcastSide {fwd : Bool} {a a' : Arr α} {x : NDA V} {r : List Nat} (hb : a.Built m limit fwd false .sliced) (hnl : a.noLead)
    (hr : BroadcastsTo x.shape r) (h : bcastSide a (bcastKwargs r x.shape) = .ok a') : a'.Built m limit fwd false .sliced := by
  unfold bcastSide at h
  split at h
  · cases h; exact hb
  · exact .bcast (by decide) hb hnl (bcastKwargs_ok hr).nodup h

omit [Inhabited α] in
theorem mkBcast_isProd {a b : Arr α} {d : List (Nat × Nat)} {lead : List Nat} (h : mkBcast a d lead = .ok b) : b.isProd = true := by
  have hf : ∀ {a b : Arr α} {d lead}, mkBcastFlat a d lead = .ok b → b.isProd = true := by
    intro a b d lead h
    unfold mkBcastFlat at h
    obtain ⟨s, hs, h⟩ := bind_ok.mp h
    obtain ⟨s', hs', h⟩ := bind_ok.mp h
    by_cases hl : 0 ∈ lead
    · simp [hl, throw, throwThe, MonadExceptOf.throw, bind, Except.bind] at h
    · simp [hl] at h
      cases h; rfl
  unfold mkBcast at h
  split at h <;> exact hf h

/-- When the broadcast operands of a binary operation are read in the same chunks: both are read from data (possibly after
broadcasting), or they have the same shape and are streamed in the same way, or in one chunk. -/
def SameChunks (limit : Nat) (a b : Arr α) (sa sb r : List Nat) : Prop :=
  ((sa ≠ r ∨ a.isProd = true) ∧ (sb ≠ r ∨ b.isProd = true)) ∨
    (sa = r ∧ sb = r ∧ (a.skel = b.skel ∨ a.skel.fits limit ∧ b.skel.fits limit))

/-- `op(a, b)` is in the grammar, and evaluates to the operation applied element by element. -/
theorem elementwise_array (fwd : Bool) (a b : Arr α) (x y : NDA V) (op : Op2 α) (f : V → V → V) (r : List Nat)
    (ha : a.Built m limit fwd false .sliced) (hb : b.Built m limit fwd false .sliced) (hla : a.noLead) (hlb : b.noLead)
    (hx : a.Yields m limit x) (hy : b.Yields m limit y) (hop : m.op2 op = some f) (hr : Broadcasts x.shape y.shape r)
    (hlx : ∀ l ∈ r.take (r.length - x.shape.length), 1 ≤ l) (hly : ∀ l ∈ r.take (r.length - y.shape.length), 1 ≤ l) :
    ∃ e, mkElem2 a b op = .ok e ∧ e.Built m limit fwd false .whole ∧ (SameChunks limit a b x.shape y.shape r → e.Built m limit fwd false .sliced) ∧
      e.Yields m limit ⟨r, fun idx => f ((broadcastTo x r).get idx) ((broadcastTo y r).get idx)⟩ ∧
      (SameChunks limit a b x.shape y.shape r →
        e.EngineReturns m limit ⟨r, fun idx => f ((broadcastTo x r).get idx) ((broadcastTo y r).get idx)⟩) := by
  have side : ∀ {a : Arr α} {x : NDA V}, a.Built m limit fwd false .sliced → a.noLead → a.Yields m limit x → BroadcastsTo x.shape r →
      (∀ l ∈ r.take (r.length - x.shape.length), 1 ≤ l) →
      ∃ a', bcastSide a (bcastKwargs r x.shape) = .ok a' ∧ a'.Built m limit fwd false .sliced ∧ a'.Yields m limit (broadcastTo x r) ∧
        a'.den m ≈ₐ broadcastTo x r ∧ (x.shape ≠ r ∨ a.isProd = true → a'.skel = .prod r) ∧ (x.shape = r → a'.skel = a.skel ∨ a'.skel = .prod r) ∧
        (x.shape = r → a' = a) := by
    intro a x ha hla hx hbr hl
    obtain ⟨w1, w2, w3, w4⟩ := ha.fineS
    have hd : a.den m ≈ₐ x := (hx.2.den_eqv w1 (w2.mono m limit a .sliced .whole (Or.inr (Or.inr rfl)))).symm
    have hfl := w1.yieldsFlat (m := m) (limit := limit) (w2.mono m limit a .sliced .whole (Or.inr (Or.inr rfl))) hla
    obtain ⟨a', h1, h2⟩ := yields_bcastSide hfl (full := r) (by rw [hd.1]; exact hbr) (by rw [hd.1]; exact hl)
    rw [hd.1] at h1
    have h3 := built_bcastSide ha hla hbr h1
    have h4 : a'.Yields m limit (broadcastTo x r) := h2.congr (broadcastTo_congr hd (by rw [hd.1]; exact hbr))
    obtain ⟨v1, v2, _, _⟩ := h3.fine
    have h5 := (h4.2.den_eqv v1 (v2.mono m limit a' .sliced .whole (Or.inr (Or.inr rfl)))).symm
    have hself : x.shape = r → a' = a := by
      intro e
      unfold bcastSide at h1
      rw [if_pos] at h1
      · cases h1; rfl
      · subst e
        have := bcastKwargs_self x.shape
        simp [this]
    have hp : a'.isProd = true → a'.skel = .prod r := by
      intro hp
      rw [isProd_skel hp, h4.1]; rfl
    refine ⟨a', h1, h3, h4, h5, ?_, ?_, hself⟩
    · intro hc
      by_cases e : x.shape = r
      · rw [hself e] at hp ⊢
        rcases hc with hc | hc
        · exact absurd e hc
        · exact hp hc
      · apply hp
        unfold bcastSide at h1
        split at h1
        · cases h1
          exfalso
          have := hx.1.symm.trans h4.1
          injection this with this
          exact e this
        · exact mkBcast_isProd h1
    · intro e; rw [hself e]; exact Or.inl rfl
  obtain ⟨a', a1, a2, a3, a4, a5, a6, a7⟩ := side ha hla hx hr.left hlx
  obtain ⟨b', b1, b2, b3, b4, b5, b6, b7⟩ := side hb hlb hy hr.symm.left hly
  have hmk : mkElem2 a b op = .ok (.elem2 a' b' op) := by
    unfold mkElem2 broadcastArrays
    simp only [hx.1, hy.1, bind, Except.bind]
    rw [computeBcastShape_iff.mpr hr]
    simp only [a1, b1, pure, Except.pure]
  obtain ⟨v1, v2, v3, v4⟩ := a2.fineS
  obtain ⟨w1, w2, w3, w4⟩ := b2.fineS
  have hwf : (Arr.elem2 a' b' op).WF := ⟨v1, w1, by rw [a3.1, b3.1]; rfl⟩
  have hden : (Arr.elem2 a' b' op).den m ≈ₐ ⟨r, fun idx => f ((broadcastTo x r).get idx) ((broadcastTo y r).get idx)⟩ := by
    refine ⟨a4.1, fun idx hi => ?_⟩
    show ((m.op2 op).getD (fun x _ => x)) ((a'.den m).get idx) ((b'.den m).get idx) = _
    rw [hop]
    have hi' : InB (a'.den m).shape idx := hi
    have hi2 : InB (b'.den m).shape idx := by
      rw [b4.1]; rw [a4.1] at hi'; exact hi'
    rw [a4.2 idx hi', b4.2 idx hi2]; rfl
  have hsk : SameChunks limit a b x.shape y.shape r → a'.skel = b'.skel ∨ a'.skel.fits limit ∧ b'.skel.fits limit := by
    intro hs
    rcases hs with ⟨h1, h2⟩ | ⟨h1, h2, h3⟩
    · left; rw [a5 h1, b5 h2]
    · rw [a7 h1, b7 h2]; exact h3
  have hab : a'.shape = b'.shape := by rw [a3.1, b3.1]; rfl
  refine ⟨_, hmk, .elem2 a2 b2 (by rw [hop]; rfl) hab (Or.inl rfl), fun hs => .elem2 a2 b2 (by rw [hop]; rfl) hab (Or.inr (hsk hs)), ?_, ?_⟩
  · exact (Arr.Yields.of_den (m := m) (limit := limit) (a := .elem2 a' b' op) hwf ⟨by rw [hop]; rfl, v3, w3, v2, w2⟩).congr hden
  · intro hs
    exact (engineReturns_den (m := m) (limit := limit) (a := .elem2 a' b' op) hwf ⟨by rw [hop]; rfl, v3, w3, hsk hs⟩
      ⟨by rw [hop]; rfl, v3, w3, v2, w2⟩).congr hden

/-- C24.  `op(a, b)`, for operands of any shapes that NumPy can broadcast: it is accepted, announces the broadcast shape, and
`.ndarray()` / `.masked_array()` give the operation applied element by element to the (broadcast) evaluated operands; so does
`biggus.ndarrays([op(a, b)])`, which streams it chunk by chunk, if the operands are cut in the same chunks. -/
theorem C24_elementwise (fwd : Bool) (a b : Arr α) (x y : NDA V) (op : Op2 α) (f : V → V → V) (r : List Nat)
    (ha : a.Built m limit fwd false .sliced) (hb : b.Built m limit fwd false .sliced) (hla : a.noLead) (hlb : b.noLead)
    (hx : a.Yields m limit x) (hy : b.Yields m limit y) (hop : m.op2 op = some f) (hr : Broadcasts x.shape y.shape r)
    (hlx : ∀ l ∈ r.take (r.length - x.shape.length), 1 ≤ l) (hly : ∀ l ∈ r.take (r.length - y.shape.length), 1 ≤ l) :
    ∃ e, mkElem2 a b op = .ok e ∧ e.Yields m limit ⟨r, fun idx => f ((broadcastTo x r).get idx) ((broadcastTo y r).get idx)⟩ ∧
      (SameChunks limit a b x.shape y.shape r →
        e.EngineReturns m limit ⟨r, fun idx => f ((broadcastTo x r).get idx) ((broadcastTo y r).get idx)⟩) := by
  obtain ⟨e, h1, _, _, h4, h5⟩ := elementwise_array fwd a b x y op f r ha hb hla hlb hx hy hop hr hlx hly
  exact ⟨e, h1, h4, h5⟩

/-- C24, followed by any history of indexing with simple keys: `op(a, b)[k1]...[kn]` evaluates to the same elements of the operation applied to
the evaluated operands; whatever chunks the operands are read in. -/
theorem C24_indexed (fwd : Bool) (a b : Arr α) (x y : NDA V) (op : Op2 α) (f : V → V → V) (r : List Nat)
    (ha : a.Built m limit fwd false .sliced) (hb : b.Built m limit fwd false .sliced) (hla : a.noLead) (hlb : b.noLead)
    (hx : a.Yields m limit x) (hy : b.Yields m limit y) (hop : m.op2 op = some f) (hr : Broadcasts x.shape y.shape r)
    (hlx : ∀ l ∈ r.take (r.length - x.shape.length), 1 ≤ l) (hly : ∀ l ∈ r.take (r.length - y.shape.length), 1 ≤ l)
    (kss : List (List Key)) (hk : SimpleHistory fwd kss r) :
    ∃ e c t, mkElem2 a b op = .ok e ∧ kss.foldlM (fun a ks => Arr.getitem a ks) e = .ok c ∧
      indexAll ⟨r, fun idx => f ((broadcastTo x r).get idx) ((broadcastTo y r).get idx)⟩ kss = .ok t ∧ c.Yields m limit t := by
  obtain ⟨e, h1, h2, _, h4, _⟩ := elementwise_array fwd a b x y op f r ha hb hla hlb hx hy hop hr hlx hly
  obtain ⟨g1, g2, _, g4⟩ := h2.fine
  obtain ⟨c, t, k1, k2, k3, _⟩ := C06_simple_keys fwd kss e _ g1 g2 g4 h4 hk
  exact ⟨e, c, t, h1, k1, k2, k3⟩

/-- C24 for one operand. -/
theorem C24_elementwise_unary (fwd : Bool) (a : Arr α) (x : NDA V) (op : Op1 α) (f : V → V) (ha : a.Built m limit fwd false .sliced)
    (hx : a.Yields m limit x) (hop : m.op1 op = some f) :
    (Arr.elem1 a op).Yields m limit (x.map f) ∧ (Arr.elem1 a op).EngineReturns m limit (x.map f) := by
  obtain ⟨w1, w2, w3, w4⟩ := ha.fineS
  have hd : a.den m ≈ₐ x := (hx.2.den_eqv w1 (w2.mono m limit a .sliced .whole (Or.inr (Or.inr rfl)))).symm
  have hden : (Arr.elem1 a op).den m ≈ₐ x.map f := by
    refine ⟨hd.1, fun idx hi => ?_⟩
    show ((m.op1 op).getD id) ((a.den m).get idx) = f (x.get idx)
    rw [hop, hd.2 idx hi]; rfl
  have ho : (m.op1 op).isSome = true := by rw [hop]; rfl
  exact ⟨(Arr.Yields.of_den (m := m) (limit := limit) (a := .elem1 a op) w1 ⟨ho, w3, w2⟩).congr hden,
    (engineReturns_den (m := m) (limit := limit) (a := .elem1 a op) w1 ⟨ho, w3⟩ ⟨ho, w3, w2⟩).congr hden⟩

/-- C24 in masked mode for an operation without a masked counterpart: `TypeError`. -/
theorem C24_no_masked_operation (a b : Arr α) (op : Op2 α) (n : Nat) (hop : m.op2 op = none) :
    (Arr.elem2 a b op).eval m limit n = .error .type ∧ engineEval m limit n (.elem2 a b op) = (Arr.elem2 a b op).shape.bind (fun _ => .error .type) := by
  refine ⟨?_, ?_⟩
  · cases n <;> (unfold Arr.eval Arr.evalWith; rw [hop])
  · unfold engineEval engineOne
    show ((Arr.elem2 a b op).shape >>= _) = _
    unfold Arr.stream
    rw [hop]
    rfl

end

/-- Addition. -/
def exAdd : Op2 ℚ := ⟨fun x y => x + y, none⟩

/-- A 2 x 2 source with elements 1, 2, 3, 4. -/
def exSquare : Concrete ℚ := ⟨⟨[2, 2], fun i => match i with
  | [i, j] => some (2 * i + j + 1)
  | _ => none⟩, 0, 0⟩

/-- The hypotheses of `C24_elementwise` are met by a column plus a row: shapes (2, 2) and (2,). -/
example :
    Res.view (mkElem2 (.adapter false exSquare []) (.agg (.adapter false exSquare []) 0 .sum) exAdd >>= fun e => e.eval exMode 1 5)
      = .ok ([2, 2], [5, 8, 7, 10]) ∧
    Res.view (mkElem2 (.adapter false exSquare []) (.agg (.adapter false exSquare []) 0 .sum) exAdd >>= fun e => engineEval exMode 1 5 e)
      = .ok ([2, 2], [5, 8, 7, 10]) := by
  refine ⟨by decide +kernel, by decide +kernel⟩

/-- C24 fails of the streaming engine if the operands are cut in different chunks: the sums of `exSquare` over its two
axes, added, are evaluated rightly by `.ndarray()` but wrongly by `biggus.ndarrays([...])` with chunks of at most 2 elements
(the second operand arrives in two chunks, the first in one; NumPy's broadcasting hides the mismatch). -/
theorem C24_mismatched_chunks_wrong :
    let e := mkElem2 (.agg (.adapter false exSquare []) 0 .sum) (.agg (.adapter false exSquare []) 1 .sum) exAdd
    Res.view (e >>= fun e => e.eval exMode 2 5) = .ok ([2], [7, 13]) ∧
      Res.view (e >>= fun e => engineEval exMode 2 5 e) = .ok ([2], [7, 9]) := by
  refine ⟨by decide +kernel, by decide +kernel⟩

/-- The hypotheses of `C24_indexed` are met by operands that are read in different chunks. -/
example : (Arr.agg (.adapter false exSquare []) 0 .sum).Built exMode 2 true false .sliced ∧
    (Arr.agg (.adapter false exSquare []) 1 .sum).Built exMode 2 true false .sliced ∧
    Res.view (mkElem2 (.agg (.adapter false exSquare []) 0 .sum) (.agg (.adapter false exSquare []) 1 .sum) exAdd >>=
      fun e => e.getitem [.slice ⟨none, none, some (-1)⟩] >>= fun e => e.eval exMode 2 5) = .ok ([2], [13, 7]) := by
  have h : (Arr.adapter false exSquare [] : Arr ℚ).shape = .ok [2, 2] := by decide +kernel
  exact ⟨.agg (.source _ _ _ _ (fun _ _ => rfl) (by simp)) h (by decide) (Or.inl (by decide)) (Or.inl sumH_lawful),
    .agg (.source _ _ _ _ (fun _ _ => rfl) (by simp)) h (by decide) (Or.inl (by decide)) (Or.inl sumH_lawful), by decide +kernel⟩

end Biggus

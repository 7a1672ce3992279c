import Verif.Proofs.Getitem
import Verif.Proofs.Compose
/-
Two modes of evaluating one expression: a relation between their elements that every part of the expression keeps holds
between the two results.
-/
namespace Biggus

variable {α V W : Type}

/-- `R` holds between the corresponding elements of two arrays of the same shape. -/
def NDA.Rel (R : V → W → Prop) (x : NDA V) (y : NDA W) : Prop :=
  x.shape = y.shape ∧ ∀ idx, InB x.shape idx → R (x.get idx) (y.get idx)

/-- The array of truth values of `R`. -/
def NDA.rels (R : V → W → Prop) (x : NDA V) (y : NDA W) : NDA Prop := ⟨x.shape, fun i => R (x.get i) (y.get i)⟩

def NDA.trues (s : List Nat) : NDA Prop := ⟨s, fun _ => True⟩

theorem NDA.Rel.rels {R : V → W → Prop} {x : NDA V} {y : NDA W} (h : x.Rel R y) : x.rels R y ≈ₐ NDA.trues x.shape :=
  ⟨rfl, fun idx hi => eq_true (h.2 idx hi)⟩

/-- `R` is kept at every node of the expression. -/
def Arr.relOk [Inhabited V] [Inhabited W] (m₁ : Mode α V) (m₂ : Mode α W) (R : V → W → Prop) : Arr α → Prop
  | .adapter _ c _ => ∀ idx, InB c.data.shape idx → R (m₁.leaf c.fill (c.data.get idx)) (m₂.leaf c.fill (c.data.get idx))
  | .const _ v _ => R (m₁.const v) (m₂.const v)
  | .newAxes a _ => a.relOk m₁ m₂ R
  | .bcast a _ _ => a.relOk m₁ m₂ R
  | .transposed a _ => a.relOk m₁ m₂ R
  | .stack ss items => ∀ i, InB ss i → (items i).relOk m₁ m₂ R
  | .mosaic n tiles _ => ∀ i, i < n → (tiles i).relOk m₁ m₂ R
  | .asType a dt => a.relOk m₁ m₂ R ∧ ∀ v w, R v w → R (m₁.cast dt v) (m₂.cast dt w)
  | .maskVal a v => a.relOk m₁ m₂ R ∧ ∀ x y, R x y → R (m₁.maskEq v x) (m₂.maskEq v y)
  | .agg a axis k => a.relOk m₁ m₂ R ∧ ∀ idx, InB ((a.den m₁).shape.eraseIdx axis) idx →
      R ((m₁.handler k).run ((a.den m₁).shape.getD axis 0) [(a.den m₁).column axis idx])
        ((m₂.handler k).run ((a.den m₂).shape.getD axis 0) [(a.den m₂).column axis idx])
  | .elem1 a op => a.relOk m₁ m₂ R ∧ ∀ idx, InB (a.den m₁).shape idx →
      R (((m₁.op1 op).getD id) ((a.den m₁).get idx)) (((m₂.op1 op).getD id) ((a.den m₂).get idx))
  | .elem2 a b op => a.relOk m₁ m₂ R ∧ b.relOk m₁ m₂ R ∧ ∀ idx, InB (a.den m₁).shape idx →
      R (((m₁.op2 op).getD (fun x _ => x)) ((a.den m₁).get idx) ((b.den m₁).get idx))
        (((m₂.op2 op).getD (fun x _ => x)) ((a.den m₂).get idx) ((b.den m₂).get idx))

theorem locate_bound {lens : List Nat} : ∀ {i : Nat}, i < lens.sum → (locate lens i).1 < lens.length ∧
    (locate lens i).2 < lens.getD (locate lens i).1 0 := by
  induction lens with
  | nil => intro i h; simp at h
  | cons l ls ih =>
    intro i h
    unfold locate
    by_cases hi : i < l
    · simp [hi]
    · simp only [hi, if_false]
      have := ih (i := i - l) (by simp at h; omega)
      refine ⟨by simpa using this.1, by simpa using this.2⟩

theorem inB_getD_lt {s idx : List Nat} {ax : Nat} (h : InB s idx) (hax : ax < s.length) : idx.getD ax 0 < s.getD ax 0 := by
  induction s generalizing idx ax with
  | nil => simp at hax
  | cons n s ih =>
    cases idx with
    | nil => cases h
    | cons i idx =>
      cases ax with
      | zero => simpa using h.1
      | succ ax => simpa using ih h.2 (by simpa using hax)

theorem inB_set_set {s idx : List Nat} {ax k k' j : Nat} (h : InB (s.set ax k) idx) (hj : j < k') :
    InB (s.set ax k') (idx.set ax j) := by
  induction s generalizing idx ax with
  | nil => cases idx with
    | nil => trivial
    | cons => cases h
  | cons n s ih =>
    cases idx with
    | nil => cases ax <;> cases h
    | cons i idx =>
      cases ax with
      | zero => exact ⟨hj, h.2⟩
      | succ ax => exact ⟨h.1, ih h.2⟩

theorem den_rel [Inhabited V] [Inhabited W] {m₁ : Mode α V} {m₂ : Mode α W} {R : V → W → Prop} :
    ∀ a : Arr α, a.WF → a.relOk m₁ m₂ R → (a.den m₁).Rel R (a.den m₂)
  | .adapter o c keys, ⟨_, r, hr⟩, h => by
    obtain ⟨fk, σ, h1, h2, rfl⟩ := npIndex_ok_iff.mp hr
    have e1 : npIndex (c.data.map (m₁.leaf c.fill)) keys = .ok ((c.data.map (m₁.leaf c.fill)).ortho σ) :=
      npIndex_ok_iff.mpr ⟨fk, σ, h1, h2, rfl⟩
    have e2 : npIndex (c.data.map (m₂.leaf c.fill)) keys = .ok ((c.data.map (m₂.leaf c.fill)).ortho σ) :=
      npIndex_ok_iff.mpr ⟨fk, σ, h1, h2, rfl⟩
    unfold Arr.den
    rw [e1, e2]
    exact ⟨rfl, fun idx hi => h _ (selSrc_inB h2 idx hi)⟩
  | .const s v dt, _, h => ⟨rfl, fun _ _ => h⟩
  | .newAxes a na, ⟨hwa, s, hs, hl⟩, h => by
    have ih := den_rel a hwa h
    have hsh : (a.den m₁).shape = s := by rw [hwa.shape_eq m₁] at hs; exact Except.ok.inj hs
    have := insertAxes_congr ih.rels (na := na) (by show _ = (a.den m₁).shape.length + 1; rw [hsh, hl])
    exact ⟨congrArg (naShape na) ih.1, fun idx hi => of_eq_true (this.2 idx hi)⟩
  | .bcast a d lead, ⟨hwa, _, _, _, _, s, hs, hd⟩, h => by
    have ih := den_rel a hwa h
    have hsh : (a.den m₁).shape = s := by rw [hwa.shape_eq m₁] at hs; exact Except.ok.inj hs
    have := stretch_congr (lead := lead) ih.rels (d := d) (by
      intro q hq; show (a.den m₁).shape[q.1]? = _; rw [hsh]; exact hd q hq)
    exact ⟨congrArg (fun s => lead ++ bcShape d 0 s) ih.1, fun idx hi => of_eq_true (this.2 idx hi)⟩
  | .transposed a axes, ⟨hwa, s, hs, hp⟩, h => by
    have ih := den_rel a hwa h
    have hsh : (a.den m₁).shape = s := by rw [hwa.shape_eq m₁] at hs; exact Except.ok.inj hs
    have := permute_congr ih.rels (axes := axes) (by show axes.Perm (List.range (a.den m₁).shape.length); rw [hsh]; exact hp)
    exact ⟨congrArg (fun s : List Nat => axes.map (fun j => s.getD j 0)) ih.1, fun idx hi => of_eq_true (this.2 idx hi)⟩
  | .stack ss items, ⟨hne, s, hi⟩, h => by
    have ih : ∀ i, InB ss i → ((items i).den m₁).Rel R ((items i).den m₂) := fun i hb => den_rel (items i) (hi i hb).1 (h i hb)
    have hsh : ∀ i, InB ss i → ((items i).den m₁).shape = s := fun i hb => by
      have h1 := (hi i hb).2
      rw [(hi i hb).1.shape_eq m₁] at h1
      exact Except.ok.inj h1
    have h0 : InB ss (ss.map (fun _ => 0)) := inB_zeros ss hne
    refine ⟨congrArg (ss ++ ·) (ih _ h0).1, fun idx hidx => ?_⟩
    have hsp := inB_split (show InB (ss ++ ((items (ss.map (fun _ => 0))).den m₁).shape) idx from hidx)
    refine (ih _ hsp.1).2 _ ?_
    rw [hsh _ hsp.1, ← hsh _ h0]
    exact hsp.2
  | .mosaic n tiles axis, ⟨hn, s, hax, ht⟩, h => by
    have ih : ∀ i, i < n → ((tiles i).den m₁).Rel R ((tiles i).den m₂) := fun i hb => den_rel (tiles i) (ht i hb).1 (h i hb)
    have hlens : (List.range n).map (fun i => ((tiles i).den m₁).shape.getD axis 0) =
        (List.range n).map (fun i => ((tiles i).den m₂).shape.getD axis 0) :=
      List.map_congr_left (fun i hi => by rw [(ih i (List.mem_range.mp hi)).1])
    have hsh : ∀ i, i < n → ∃ k, ((tiles i).den m₁).shape = s.set axis k := fun i hb => by
      obtain ⟨h1, k, h2⟩ := ht i hb
      rw [h1.shape_eq m₁] at h2
      exact ⟨k, Except.ok.inj h2⟩
    have es : ((Arr.mosaic n tiles axis).den m₁).shape = ((tiles 0).den m₁).shape.set axis
        ((List.range n).map (fun i => ((tiles i).den m₁).shape.getD axis 0)).sum := rfl
    have es' : ((Arr.mosaic n tiles axis).den m₂).shape = ((tiles 0).den m₂).shape.set axis
        ((List.range n).map (fun i => ((tiles i).den m₂).shape.getD axis 0)).sum := rfl
    refine ⟨by rw [es, es', ← hlens, (ih 0 hn).1], fun idx hidx => ?_⟩
    rw [es] at hidx
    obtain ⟨k0, hk0⟩ := hsh 0 hn
    rw [hk0, List.set_set] at hidx
    have e1 : ((Arr.mosaic n tiles axis).den m₁).get idx =
        ((tiles (locate ((List.range n).map (fun i => ((tiles i).den m₁).shape.getD axis 0)) (idx.getD axis 0)).1).den m₁).get
          (idx.set axis (locate ((List.range n).map (fun i => ((tiles i).den m₁).shape.getD axis 0)) (idx.getD axis 0)).2) := rfl
    have e2 : ((Arr.mosaic n tiles axis).den m₂).get idx =
        ((tiles (locate ((List.range n).map (fun i => ((tiles i).den m₂).shape.getD axis 0)) (idx.getD axis 0)).1).den m₂).get
          (idx.set axis (locate ((List.range n).map (fun i => ((tiles i).den m₂).shape.getD axis 0)) (idx.getD axis 0)).2) := rfl
    rw [e1, e2, ← hlens]
    have hlt := inB_getD_lt hidx (ax := axis) (by simpa using hax)
    rw [List.getD_eq_getElem?_getD, List.getD_eq_getElem?_getD, List.getElem?_set_self hax, Option.getD_some, ← List.getD_eq_getElem?_getD] at hlt
    obtain ⟨l1, l2⟩ := locate_bound hlt
    generalize locate ((List.range n).map (fun i => ((tiles i).den m₁).shape.getD axis 0)) (idx.getD axis 0) = tj at l1 l2
    rw [List.length_map, List.length_range] at l1
    refine (ih _ l1).2 _ ?_
    obtain ⟨k, hk⟩ := hsh _ l1
    rw [hk]
    refine inB_set_set hidx ?_
    rw [List.getD_eq_getElem?_getD, List.getElem?_map, List.getElem?_range l1] at l2
    simp only [Option.map_some, Option.getD_some, hk] at l2
    rw [List.getD_eq_getElem?_getD, List.getElem?_set_self hax] at l2
    simpa using l2
  | .asType a dt, hwf, ⟨h, hc⟩ => by
    have hwa : a.WF := hwf
    have ih := den_rel a hwa h
    exact ⟨ih.1, fun idx hi => hc _ _ (ih.2 idx hi)⟩
  | .maskVal a v, hwf, ⟨h, hc⟩ => by
    have hwa : a.WF := hwf
    have ih := den_rel a hwa h
    exact ⟨ih.1, fun idx hi => hc _ _ (ih.2 idx hi)⟩
  | .agg a axis k, ⟨hwa, _⟩, ⟨h, hc⟩ => by
    have ih := den_rel a hwa h
    exact ⟨congrArg (fun s : List Nat => s.eraseIdx axis) ih.1, fun idx hi => hc idx hi⟩
  | .elem1 a op, hwf, ⟨h, hc⟩ => by
    have hwa : a.WF := hwf
    have ih := den_rel a hwa h
    exact ⟨ih.1, fun idx hi => hc idx hi⟩
  | .elem2 a b op, ⟨hwa, hwb, _⟩, ⟨h, h', hc⟩ => by
    have ih := den_rel a hwa h
    exact ⟨ih.1, fun idx hi => hc idx hi⟩

/-- Columns of related arrays. -/
theorem column_rel {R : V → W → Prop} {x : NDA V} {y : NDA W} {axis : Nat} {idx : List Nat} (h : x.Rel R y)
    (hax : axis < x.shape.length) (hi : InB (x.shape.eraseIdx axis) idx) :
    List.Forall₂ R (x.column axis idx) (y.column axis idx) := by
  have := (reduce_congr (f := fun l => ∀ p ∈ l, p) h.rels hax).2 idx hi
  have h2 : (∀ p ∈ (x.rels R y).column axis idx, p) := by
    rw [show (∀ p ∈ (x.rels R y).column axis idx, p) = (∀ p ∈ (NDA.trues x.shape).column axis idx, p) from this]
    intro p hp
    simp only [NDA.column, NDA.trues, List.mem_map] at hp
    obtain ⟨j, _, rfl⟩ := hp
    trivial
  simp only [NDA.column] at h2 ⊢
  rw [← h.1]
  rw [List.forall₂_map_left_iff, List.forall₂_map_right_iff, List.forall₂_same]
  intro j hj
  exact h2 _ (List.mem_map.mpr ⟨j, hj, rfl⟩)

end Biggus

import Verif.Proofs.MutableRun
/-
Assignments change no shapes, so what has been built can be built later from the same parts.
-/
namespace Biggus
open Spec

variable {α V : Type}

/-- The stacks of `H` are in `H'` too, with the same shapes. -/
def Heap.SameShapes (H H' : Heap α) : Prop := ∀ (id : Nat) (s : StackObj) (c : Cell α), H.stackObjs[id]? = some s → H.cells[s.cell]? = some c →
  ∃ c', H'.stackObjs[id]? = some s ∧ H'.cells[s.cell]? = some c' ∧ c'.shape = c.shape

theorem Heap.SameShapes.refl (H : Heap α) : H.SameShapes H := fun _ _ c h1 h2 => ⟨c, h1, h2, rfl⟩

theorem Heap.SameShapes.trans {H H' H'' : Heap α} (h : H.SameShapes H') (h' : H'.SameShapes H'') : H.SameShapes H'' := by
  intro id s c h1 h2
  obtain ⟨c', k1, k2, k3⟩ := h id s c h1 h2
  obtain ⟨c'', l1, l2, l3⟩ := h' id s c' k1 k2
  exact ⟨c'', l1, l2, l3.trans k3⟩

theorem Heap.Grow.sameShapes {H H' : Heap α} (hg : H.Grow H') : H.SameShapes H' :=
  fun _ _ c h1 h2 => ⟨c, prefix_get hg.objs h1, prefix_get hg.cells h2, rfl⟩

theorem Heap.set_sameShapes {H : Heap α} {k : Nat} {c0 c1 : Cell α} (h0 : H.cells[k]? = some c0) (hc : c1.shape = c0.shape) :
    H.SameShapes ⟨H.cells.set k c1, H.stackObjs⟩ := by
  intro id s c h1 h2
  by_cases hk : s.cell = k
  · subst hk
    rw [h0] at h2
    cases h2
    refine ⟨c1, h1, ?_, hc⟩
    have hlt := (List.getElem?_eq_some_iff.mp h0).1
    simp [hlt]
  · refine ⟨c, h1, ?_, rfl⟩
    rw [← h2]
    exact List.getElem?_set_ne (fun h => hk h.symm)

theorem Heap.find_ok {H : Heap α} {id : Nat} {s : StackObj} {c : Cell α} (h : H.find id = .ok (s, c)) :
    H.stackObjs[id]? = some s ∧ H.cells[s.cell]? = some c := by
  unfold Heap.find at h
  split at h
  · cases h
  · rename_i s' hs
    split at h
    · cases h
    · rename_i c' hc
      cases h
      exact ⟨hs, hc⟩

theorem Heap.perform_sameShapes [Inhabited α] {n : Nat} {H H' : Heap α} {op : Op α} (hp : H.perform n op = .ok H') : H.SameShapes H' := by
  cases op with
  | objects c =>
    simp only [Heap.perform] at hp
    cases hp
    exact (Heap.newCell_grow _ _).sameShapes
  | put cell pos value =>
    simp only [Heap.perform] at hp
    split at hp
    · cases hp
    · rename_i c hc
      cases hp
      exact Heap.set_sameShapes hc rfl
  | wrap cell =>
    simp only [Heap.perform] at hp
    obtain ⟨r, h1, h2⟩ := bind_ok.mp hp
    cases h2
    unfold Heap.newStack at h1
    split at h1
    · cases h1
    · split at h1
      · cases h1
      · obtain ⟨s0, _, h1⟩ := bind_ok.mp h1
        obtain ⟨_, _, h1⟩ := bind_ok.mp h1
        cases h1
        exact fun id s c k1 k2 => ⟨c, prefix_get (List.prefix_append _ _) k1, k2, rfl⟩
  | index o keys =>
    simp only [Heap.perform] at hp
    obtain ⟨r, h1, h2⟩ := bind_ok.mp hp
    cases h2
    exact (Heap.getitem_grow n H o keys r.1 r.2 h1).sameShapes
  | copy o =>
    simp only [Heap.perform] at hp
    obtain ⟨r, h1, h2⟩ := bind_ok.mp hp
    cases h2
    exact (Heap.deepcopy_grow n H [] o r h1).sameShapes
  | assign id keys value =>
    simp only [Heap.perform, Heap.setitem] at hp
    obtain ⟨⟨s, c⟩, h1, hp⟩ := bind_ok.mp hp
    split at hp
    · cases hp
    · split at hp
      · cases hp
      · split at hp
        · cases hp
        · obtain ⟨σ, _, hp⟩ := bind_ok.mp hp
          cases hp
          exact Heap.set_sameShapes (Heap.find_ok h1).2 rfl

theorem Heap.run_sameShapes [Inhabited α] (n : Nat) : ∀ (ops : List (Op α)) (H : Heap α), H.SameShapes (H.run n ops)
  | [], H => Heap.SameShapes.refl H
  | op :: ops, H => by
    refine Heap.SameShapes.trans ?_ (Heap.run_sameShapes n ops (H.step n op))
    unfold Heap.step
    cases hp : H.perform n op with
    | ok H' => exact Heap.perform_sameShapes hp
    | error e => exact Heap.SameShapes.refl H

/-! ### what succeeded before succeeds later -/

/-- If `x` succeeds so does `y`, with the same result. -/
def Later {β : Type} (x y : Res β) : Prop := ∀ r, x = .ok r → y = .ok r

theorem Later.rfl' {β : Type} (x : Res β) : Later x x := fun _ h => h

theorem Later.bind {β γ : Type} {x y : Res β} {f g : β → Res γ} (h : Later x y) (hf : ∀ b, x = .ok b → Later (f b) (g b)) : Later (x >>= f) (y >>= g) := by
  intro r hr
  obtain ⟨b, h1, h2⟩ := bind_ok.mp hr
  exact bind_ok.mpr ⟨b, h b h1, hf b h1 r h2⟩

theorem later_mapM {β γ : Type} {f g : β → Res γ} : ∀ (l : List β), (∀ x ∈ l, Later (f x) (g x)) → Later (l.mapM f) (l.mapM g)
  | [], _ => Later.rfl' _
  | x :: l, h => by
    rw [List.mapM_cons, List.mapM_cons]
    exact (h x List.mem_cons_self).bind (fun b _ => (later_mapM l (fun y hy => h y (List.mem_cons_of_mem _ hy))).bind (fun _ _ => Later.rfl' _))

theorem Heap.shape_later {H H' : Heap α} (hs : H.SameShapes H') (o : ArrRef α) : Later (H.shape o) (H'.shape o) := by
  induction o with
  | arr a => exact Later.rfl' _
  | stack id =>
    intro r hr
    simp only [Heap.shape] at hr ⊢
    obtain ⟨⟨s, c⟩, h1, h2⟩ := bind_ok.mp hr
    obtain ⟨k1, k2⟩ := Heap.find_ok h1
    obtain ⟨c', l1, l2, l3⟩ := hs id s c k1 k2
    refine bind_ok.mpr ⟨(s, c'), Heap.find_of l1 l2, ?_⟩
    rw [← h2]
    simp only [l3]
  | asType o _ ih => exact ih
  | maskVal o _ ih => exact ih
  | newAxes o na ih => exact ih.bind (fun _ _ => Later.rfl' _)
  | bcast o d l ih => exact ih.bind (fun _ _ => Later.rfl' _)
  | transposed o ax ih => exact ih.bind (fun _ _ => Later.rfl' _)
  | mosaic n tiles axis ih =>
    exact (ih 0).bind (fun _ _ => (later_mapM _ (fun i _ => (ih i).bind (fun _ _ => Later.rfl' _))).bind (fun _ _ => Later.rfl' _))
  | agg o ax k ih => exact ih.bind (fun _ _ => Later.rfl' _)
  | elem1 o op ih => exact ih
  | elem2 o o' op ih _ => exact ih

theorem Heap.mkNewAxes_later {H H' : Heap α} (hs : H.SameShapes H') (o : ArrRef α) (na : List Nat) : Later (H.mkNewAxes o na) (H'.mkNewAxes o na) :=
  (Heap.shape_later hs o).bind (fun _ _ => Later.rfl' _)

theorem Heap.mkBcastFlat_later {H H' : Heap α} (hs : H.SameShapes H') (o : ArrRef α) (d : List (Nat × Nat)) (l : List Nat) :
    Later (H.mkBcastFlat o d l) (H'.mkBcastFlat o d l) := (Heap.shape_later hs o).bind (fun _ _ => Later.rfl' _)

theorem Heap.mkBcast_later {H H' : Heap α} (hs : H.SameShapes H') (o : ArrRef α) (d : List (Nat × Nat)) (l : List Nat) :
    Later (H.mkBcast o d l) (H'.mkBcast o d l) := by
  cases o <;> simp only [Heap.mkBcast] <;> first | exact Later.rfl' _ | exact Heap.mkBcastFlat_later hs _ _ _

theorem Heap.mkTransposed_later {H H' : Heap α} (hs : H.SameShapes H') (o : ArrRef α) (ax : List Nat) :
    Later (H.mkTransposed o ax) (H'.mkTransposed o ax) := (Heap.shape_later hs o).bind (fun _ _ => Later.rfl' _)

theorem Heap.mkMosaic_later {H H' : Heap α} (hs : H.SameShapes H') (tiles : List (ArrRef α)) (axis : Nat) :
    Later (H.mkMosaic tiles axis) (H'.mkMosaic tiles axis) := by
  cases tiles with
  | nil => exact Later.rfl' _
  | cons t ts =>
    refine (Heap.shape_later hs t).bind (fun s0 _ => ?_)
    by_cases hc : ¬ axis < s0.length
    · simp only [if_pos hc]; exact Later.rfl' _
    · simp only [if_neg hc]
      exact (later_mapM _ (fun t _ => (Heap.shape_later hs t).bind (fun _ _ => Later.rfl' _))).bind (fun _ _ => Later.rfl' _)

theorem Heap.bcastSide_later {H H' : Heap α} (hs : H.SameShapes H') (o : ArrRef α) (kw : List (Nat × Nat) × List Nat) :
    Later (H.bcastSide o kw) (H'.bcastSide o kw) := by
  unfold Heap.bcastSide
  split
  · exact Later.rfl' _
  · exact Heap.mkBcast_later hs _ _ _

theorem Heap.mkElem2_later {H H' : Heap α} (hs : H.SameShapes H') (o o' : ArrRef α) (op : Op2 α) : Later (H.mkElem2 o o' op) (H'.mkElem2 o o' op) := by
  unfold Heap.mkElem2 Heap.broadcastArrays
  refine Later.bind ?_ (fun _ _ => Later.rfl' _)
  exact (Heap.shape_later hs o).bind (fun _ _ => (Heap.shape_later hs o').bind (fun _ _ => Later.bind (Later.rfl' _) (fun _ _ =>
    (Heap.bcastSide_later hs o _).bind (fun _ _ => (Heap.bcastSide_later hs o' _).bind (fun _ _ => Later.rfl' _)))))

end Biggus

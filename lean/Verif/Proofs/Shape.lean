import Verif.Spec.Den
import Verif.Spec.Guards
import Verif.Props.Keys
import Verif.Proofs.Chunks
/-
Helper lemmas: the shape announced by a well-formed lazy array is the shape of the array it denotes.
-/
namespace Biggus

theorem mapM_ok {β γ : Type} (l : List β) (f : β → Res γ) (g : β → γ) (h : ∀ x ∈ l, f x = .ok (g x)) :
    l.mapM f = .ok (l.map g) := by
  induction l with
  | nil => rfl
  | cons x l ih =>
    rw [List.mapM_cons, h x List.mem_cons_self, ih (fun y hy => h y (List.mem_cons_of_mem _ hy))]
    rfl

theorem mapM_ok_inv {β γ : Type} (l : List β) (f : β → Res γ) (r : List γ) (h : l.mapM f = .ok r) :
    List.Forall₂ (fun x y => f x = .ok y) l r := by
  induction l generalizing r with
  | nil => cases h; exact .nil
  | cons x l ih =>
    rw [List.mapM_cons] at h
    match hx : f x, hl : l.mapM f with
    | .ok y, .ok ys => rw [hx, hl] at h; cases h; exact .cons hx (ih _ hl)
    | .error e, _ => rw [hx] at h; cases h
    | .ok y, .error e => rw [hx, hl] at h; cases h

/-! ### inserted axes -/

theorem naInsert_shift {β : Type} (x s : β) (ps : List (Nat × Nat)) (l : List β) :
    (ps.map (fun p => (p.1, p.2 + 1))).foldl
      (fun l p => l.take p.2 ++ List.replicate p.1 x ++ l.drop p.2) (s :: l) =
    s :: ps.foldl (fun l p => l.take p.2 ++ List.replicate p.1 x ++ l.drop p.2) l := by
  induction ps generalizing l with
  | nil => rfl
  | cons p ps ih => simp only [List.map_cons, List.foldl_cons, List.take_succ_cons, List.drop_succ_cons,
      List.cons_append, ih]

theorem zipIdx_succ {β : Type} (l : List β) (k : Nat) :
    l.zipIdx (k + 1) = (l.zipIdx k).map (fun p => (p.1, p.2 + 1)) := by
  induction l generalizing k with
  | nil => rfl
  | cons x l ih => simp [List.zipIdx_cons, ih]

theorem naInsert_cons {β : Type} (x : β) (n : Nat) (ns : List Nat) (s : β) (l : List β) :
    naInsert x (n :: ns) (s :: l) = List.replicate n x ++ s :: naInsert x ns l := by
  unfold naInsert
  rw [List.zipIdx_cons, List.reverse_cons, List.foldl_append, List.foldl_cons, List.foldl_nil]
  rw [zipIdx_succ, ← List.map_reverse, naInsert_shift]
  simp

theorem naInsert_last {β : Type} (x : β) (n : Nat) : naInsert x [n] [] = List.replicate n x := by
  simp [naInsert]

theorem naInsert_one (na s : List Nat) (h : na.length = s.length + 1) : naInsert 1 na s = naShape na s := by
  induction s generalizing na with
  | nil =>
    match na, h with
    | [n], _ => rw [naInsert_last]; rfl
  | cons x s ih =>
    match na, h with
    | n :: ns, h => rw [naInsert_cons, ih ns (by simpa using h)]; rfl

/-! ### stretched axes -/

theorem bcShape_length (d : List (Nat × Nat)) (p : Nat) (s : List Nat) : (bcShape d p s).length = s.length := by
  induction s generalizing p with
  | nil => rfl
  | cons n s ih => simp [bcShape, ih]

theorem bcShape_getElem? (d : List (Nat × Nat)) (p : Nat) (s : List Nat) (i : Nat) :
    (bcShape d p s)[i]? = s[i]?.map (fun n => (d.lookup (p + i)).getD n) := by
  induction s generalizing p i with
  | nil => simp [bcShape]
  | cons n s ih =>
    cases i with
    | zero => simp [bcShape]
    | succ i => simp only [bcShape, List.getElem?_cons_succ, ih]; rw [show p + 1 + i = p + (i + 1) by omega]

theorem lookup_none_of_not_mem (d : List (Nat × Nat)) (q : Nat) (h : q ∉ d.map Prod.fst) :
    d.lookup q = none := by
  induction d with
  | nil => rfl
  | cons x d ih =>
    simp only [List.map_cons, List.mem_cons, not_or] at h
    rw [List.lookup_cons]
    rw [show (q == x.1) = false by simpa using h.1]
    exact ih h.2

theorem bcShape_nil (p : Nat) (s : List Nat) : bcShape [] p s = s := by
  induction s generalizing p with
  | nil => rfl
  | cons n s ih => simp [bcShape, ih]

theorem shapeFromDict_ok (d : List (Nat × Nat)) (s : List Nat) (hn : (d.map Prod.fst).Nodup)
    (h1 : ∀ p ∈ d, s[p.1]? = some 1) : shapeFromDict d s = .ok (bcShape d 0 s) := by
  induction d generalizing s with
  | nil => rw [bcShape_nil]; rfl
  | cons x d ih =>
    obtain ⟨ax, len⟩ := x
    simp only [List.map_cons, List.nodup_cons] at hn
    have hax : s[ax]? = some 1 := h1 (ax, len) List.mem_cons_self
    unfold shapeFromDict
    rw [hax]
    simp only [ne_eq, not_true_eq_false, if_false]
    rw [ih _ hn.2]
    · congr 1
      apply List.ext_getElem?
      intro i
      rw [bcShape_getElem?, bcShape_getElem?, List.getElem?_set, List.lookup_cons]
      simp only [Nat.zero_add]
      by_cases hi : ax = i
      · subst hi
        have hlt : ax < s.length := by
          rcases Nat.lt_or_ge ax s.length with h | h
          · exact h
          · rw [List.getElem?_eq_none h] at hax; cases hax
        rw [if_pos rfl, if_pos hlt, lookup_none_of_not_mem d ax hn.1, hax]
        simp
      · rw [if_neg hi, show (i == ax) = false by simpa using fun h => hi h.symm]
    · intro p hp
      rw [List.getElem?_set, if_neg]
      · exact h1 p (List.mem_cons_of_mem _ hp)
      · rintro rfl
        exact hn.1 (List.mem_map_of_mem hp)

/-! ### transposed axes -/

theorem axes_length {axes : List Nat} {n : Nat} (h : axes.Perm (List.range n)) : axes.length = n := by
  simpa using h.length_eq

theorem axes_isPerm {axes : List Nat} {n : Nat} (h : axes.Perm (List.range n)) :
    axes.isPerm (List.range axes.length) = true := by
  rw [axes_length h, List.isPerm_iff]; exact h

theorem filterMap_getElem? {β : Type} (l : List β) (d : β) (is : List Nat) (h : ∀ i ∈ is, i < l.length) :
    is.filterMap (fun i => l[i]?) = is.map (fun i => l.getD i d) := by
  induction is with
  | nil => rfl
  | cons i is ih =>
    have hi := h i List.mem_cons_self
    rw [List.filterMap_cons, List.getElem?_eq_getElem hi, List.map_cons, ih (fun j hj => h j (List.mem_cons_of_mem _ hj))]
    simp [List.getD_eq_getElem?_getD, hi]

theorem axesForward_ok {β : Type} (axes : List Nat) (t : List β) (d : β) (h : axes.Perm (List.range t.length)) :
    axesForward axes t = .ok (axes.map (fun i => t.getD i d)) := by
  unfold axesForward
  rw [if_neg (by rw [axes_length h]; simp), if_pos (axes_isPerm h), filterMap_getElem? t d]
  intro i hi
  simpa using (h.mem_iff.mp hi)

theorem axesInverse_ok {β : Type} (axes : List Nat) (t : List β) (d : β) (h : axes.Perm (List.range t.length)) :
    axesInverse axes t = .ok ((List.range t.length).map (fun i => t.getD (axes.idxOf i) d)) := by
  unfold axesInverse
  have hl := axes_length h
  rw [if_neg (by rw [hl]; simp), if_pos (axes_isPerm h), hl]
  congr 1
  have hmem : ∀ i ∈ List.range t.length, axes.idxOf i < t.length := by
    intro i hi
    rw [← hl]
    exact List.idxOf_lt_length_of_mem (h.mem_iff.mpr hi)
  have : (List.range t.length).filterMap (fun i => t[axes.idxOf i]?) =
      ((List.range t.length).map (fun i => axes.idxOf i)).filterMap (fun i => t[i]?) := by
    rw [List.filterMap_map]; rfl
  rw [this, filterMap_getElem? t d]
  · rw [List.map_map]; rfl
  · intro i hi
    obtain ⟨j, hj, rfl⟩ := List.mem_map.mp hi
    exact hmem j hj

/-! ### the shape of a well-formed array -/

theorem npIndex_map {β γ : Type} (f : β → γ) (a : NDA β) (ks : List Key) :
    npIndex (a.map f) ks = (npIndex a ks).map (NDA.map f) := by
  unfold npIndex NDA.map
  simp only
  cases expandKeys ks a.shape.length with
  | error e => rfl
  | ok fk =>
    simp only [bind, Except.bind]
    cases resolve fk a.shape with
    | error e => rfl
    | ok s => rfl

variable {α V : Type}

theorem inB_zeros (ss : List Nat) (hne : ss.prod ≠ 0) : InB ss (ss.map (fun _ => 0)) := by
  induction ss with
  | nil => trivial
  | cons n ss ih =>
    simp only [List.prod_cons, ne_eq, Nat.mul_eq_zero, not_or] at hne
    exact ⟨Nat.pos_of_ne_zero hne.1, ih hne.2⟩

theorem storable_not_list {keys : List Key} (h : ∀ k ∈ keys, k.storable = true) (l : List Int) :
    Key.list l ∉ keys := by
  intro hm
  have := h _ hm
  simp [Key.storable] at this

/-- `den` of an adapter whose keys are applicable. -/
theorem den_adapter [Inhabited V] (m : Mode α V) (o : Bool) (c : Concrete α) (keys : List Key)
    (r : NDA (Option α)) (h : npIndex c.data keys = .ok r) :
    (Arr.adapter o c keys).den m = r.map (m.leaf c.fill) := by
  unfold Arr.den
  rw [npIndex_map, h]
  rfl

/-- The shape announced by a well-formed expression is the shape of the array it stands for. -/
theorem Arr.WF.shape_eq [Inhabited V] (m : Mode α V) : ∀ a : Arr α, a.WF → a.shape = .ok (a.den m).shape
  | .adapter o c keys, ⟨h, r, hr⟩ => by
    rw [den_adapter m o c keys r hr]
    exact C02_sliced_shape_is_numpy_shape c.data r keys (fun l => storable_not_list h l) hr
  | .const s v _, _ => rfl
  | .newAxes a na, ⟨h, s, hs, hl⟩ => by
    have ih := Arr.WF.shape_eq m a h
    rw [ih] at hs; cases hs
    unfold Arr.shape; rw [ih]
    exact congrArg Except.ok (naInsert_one na _ hl)
  | .bcast a d lead, ⟨h, _, _, hn, _, s, hs, h1⟩ => by
    have ih := Arr.WF.shape_eq m a h
    rw [ih] at hs; cases hs
    unfold Arr.shape; rw [ih]
    simp only [bind, Except.bind, shapeFromDict_ok d _ hn h1]
    rfl
  | .transposed a axes, ⟨h, s, hs, hp⟩ => by
    have ih := Arr.WF.shape_eq m a h
    rw [ih] at hs; cases hs
    unfold Arr.shape; rw [ih]
    exact axesForward_ok axes _ 0 hp
  | .stack ss items, ⟨hne, s, hi⟩ => by
    have h0 : InB ss (ss.map (fun _ => 0)) := inB_zeros ss hne
    have ih := Arr.WF.shape_eq m (items (ss.map (fun _ => 0))) (hi _ h0).1
    unfold Arr.shape; rw [ih]
    rfl
  | .mosaic n tiles axis, ⟨hn, s, ha, ht⟩ => by
    have ih : ∀ i, i < n → (tiles i).shape = .ok ((tiles i).den m).shape :=
      fun i hi => Arr.WF.shape_eq m (tiles i) (ht i hi).1
    unfold Arr.shape
    rw [ih 0 hn]
    simp only [bind, Except.bind]
    rw [mapM_ok _ _ (fun i => ((tiles i).den m).shape.getD axis 0)]
    · rfl
    · intro i hi
      rw [ih i (by simpa using hi)]
      rfl
  | .asType a _, h => Arr.WF.shape_eq m a h
  | .maskVal a _, h => Arr.WF.shape_eq m a h
  | .agg a axis k, ⟨h, s, hs, hax⟩ => by
    have ih := Arr.WF.shape_eq m a h
    unfold Arr.shape; rw [ih]
    rfl
  | .elem1 a _, h => Arr.WF.shape_eq m a h
  | .elem2 a _ _, ⟨h, _, _⟩ => Arr.WF.shape_eq m a h

theorem Arr.WF.den_shape [Inhabited V] (m : Mode α V) {a : Arr α} {s : List Nat} (h : a.WF)
    (hs : a.shape = .ok s) : (a.den m).shape = s := by
  rw [h.shape_eq m] at hs; exact Except.ok.inj hs

end Biggus

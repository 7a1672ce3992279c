import Verif.Proofs.EvalClosed
import Mathlib.Algebra.BigOperators.Group.List.Basic
import Mathlib.Algebra.BigOperators.Group.List.Lemmas
/-
Sums over all elements of an array, and how the array operations change them.
-/
namespace Biggus

variable {M : Type} [AddCommMonoid M]

def lsum {β : Type} (l : List β) (f : β → M) : M := (l.map f).sum

@[simp] theorem lsum_nil {β : Type} (f : β → M) : lsum [] f = 0 := rfl
@[simp] theorem lsum_cons {β : Type} (x : β) (l : List β) (f : β → M) : lsum (x :: l) f = f x + lsum l f := by
  simp [lsum]

theorem lsum_append {β : Type} (l l' : List β) (f : β → M) : lsum (l ++ l') f = lsum l f + lsum l' f := by
  simp [lsum]

theorem lsum_congr {β : Type} {l : List β} {f g : β → M} (h : ∀ x ∈ l, f x = g x) : lsum l f = lsum l g := by
  unfold lsum; rw [List.map_congr_left h]

theorem lsum_map {β γ : Type} (l : List β) (g : β → γ) (f : γ → M) : lsum (l.map g) f = lsum l (fun x => f (g x)) := by
  unfold lsum; rw [List.map_map]; rfl

theorem lsum_perm {β : Type} {l l' : List β} (h : l.Perm l') (f : β → M) : lsum l f = lsum l' f :=
  (h.map f).sum_eq

theorem lsum_flatMap {β γ : Type} (l : List β) (g : β → List γ) (f : γ → M) :
    lsum (l.flatMap g) f = lsum l (fun x => lsum (g x) f) := by
  induction l with
  | nil => rfl
  | cons x l ih => rw [List.flatMap_cons, lsum_append, ih, lsum_cons]

theorem lsum_zero {β : Type} (l : List β) : lsum l (fun _ => (0 : M)) = 0 := by
  induction l with
  | nil => rfl
  | cons x l ih => rw [lsum_cons, ih, zero_add]

theorem lsum_add {β : Type} (l : List β) (f g : β → M) : lsum l (fun x => f x + g x) = lsum l f + lsum l g := by
  induction l with
  | nil => simp
  | cons x l ih => simp only [lsum_cons, ih]; exact add_add_add_comm _ _ _ _

theorem lsum_swap {β γ : Type} (l : List β) (l' : List γ) (f : β → γ → M) :
    lsum l (fun x => lsum l' (fun y => f x y)) = lsum l' (fun y => lsum l (fun x => f x y)) := by
  induction l with
  | nil => simp only [lsum_nil, lsum_zero]
  | cons x l ih => simp only [lsum_cons, ih, lsum_add]

theorem lsum_add_hom {N β : Type} [AddCommMonoid N] (h : M →+ N) (l : List β) (f : β → M) : h (lsum l f) = lsum l (fun x => h (f x)) := by
  induction l with
  | nil => simp
  | cons x l ih => simp only [lsum_cons, map_add, ih]

/-- The sum of all elements. -/
def NDA.total (x : NDA M) : M := lsum (ndindex x.shape) x.get

theorem total_congr {x y : NDA M} (h : x ≈ₐ y) : x.total = y.total := by
  unfold NDA.total
  rw [h.1]
  exact lsum_congr (fun i hi => h.2 i (by rw [h.1]; exact (mem_ndindex _ _).mp hi))

theorem lsum_ndindex_append (p q : List Nat) (f : List Nat → M) :
    lsum (ndindex (p ++ q)) f = lsum (ndindex p) (fun i => lsum (ndindex q) (fun j => f (i ++ j))) := by
  induction p generalizing f with
  | nil => simp [ndindex]
  | cons n p ih =>
    simp only [List.cons_append, ndindex, lsum_flatMap, lsum_map, ih]

theorem lsum_ndindex_cons (n : Nat) (q : List Nat) (f : List Nat → M) :
    lsum (ndindex (n :: q)) f = lsum (List.range n) (fun i => lsum (ndindex q) (fun j => f (i :: j))) := by
  simp only [ndindex, lsum_flatMap, lsum_map]

theorem lsum_range_one (f : Nat → M) : lsum (List.range 1) f = f 0 := by
  simp [List.range_succ]

theorem total_insertAxes (x : NDA M) (na : List Nat) (h : na.length = x.shape.length + 1) :
    (x.insertAxes na).total = x.total := by
  unfold NDA.total NDA.insertAxes
  simp only
  obtain ⟨s, g⟩ := x
  simp only at h ⊢
  have key : ∀ (ns : List Nat) (c : Nat) (s : List Nat) (g : List Nat → M), ns.length = s.length →
      lsum (ndindex (naShape (c :: ns) s)) (fun idx => g (naStrip (c :: ns) idx)) = lsum (ndindex s) g := by
    intro ns
    induction ns with
    | nil =>
      intro c
      induction c with
      | zero =>
        intro s g hs
        have : s = [] := List.length_eq_zero_iff.mp hs.symm
        subst this
        simp [naShape, ndindex, naStrip]
      | succ c ih =>
        intro s g hs
        rw [naShape_succ, lsum_ndindex_cons, lsum_range_one]
        simp only [naStrip_succ]
        exact ih s g hs
    | cons n ns ihn =>
      intro c
      induction c with
      | zero =>
        intro s g hs
        match s, hs with
        | x :: s, hs =>
          rw [naShape_zero, lsum_ndindex_cons, lsum_ndindex_cons]
          simp only [naStrip_zero]
          apply lsum_congr
          intro i _
          exact ihn n s (fun j => g (i :: j)) (by simpa using hs)
      | succ c ih =>
        intro s g hs
        rw [naShape_succ, lsum_ndindex_cons, lsum_range_one]
        simp only [naStrip_succ]
        exact ih s g hs
  match na, h with
  | c :: ns, h => exact key ns c s g (by simpa using h)

theorem total_permute (x : NDA M) (axes : List Nat) (hp : axes.Perm (List.range x.shape.length)) :
    (x.permute axes).total = x.total := by
  unfold NDA.total NDA.permute
  simp only
  have hlen : axes.length = x.shape.length := axes_length hp
  have hnd : axes.Nodup := hp.nodup_iff.mpr List.nodup_range
  have hmem : ∀ j, j ∈ axes ↔ j < x.shape.length := fun j => by rw [hp.mem_iff]; simp
  have hax : ∀ i (h : i < axes.length), axes.idxOf axes[i] = i := fun i h => hnd.idxOf_getElem i h
  have hinB : ∀ (s i : List Nat), InB s i ↔ i.length = s.length ∧ ∀ k, k < s.length → i.getD k 0 < s.getD k 0 := by
    intro s
    induction s with
    | nil => intro i; cases i <;> simp [InB]
    | cons n s ih =>
      intro i
      cases i with
      | nil => simp [InB]
      | cons a i =>
        simp only [InB, ih, List.length_cons]
        constructor
        · rintro ⟨h1, h2, h3⟩
          refine ⟨by omega, ?_⟩
          intro k hk
          cases k with
          | zero => simpa using h1
          | succ k => simpa using h3 k (by omega)
        · rintro ⟨h1, h2⟩
          refine ⟨by simpa using h2 0 (by omega), by omega, ?_⟩
          intro k hk
          simpa using h2 (k + 1) (by omega)
  have hfd : ∀ (i : List Nat) k, k < x.shape.length →
      ((List.range axes.length).map (fun j => i.getD (axes.idxOf j) 0)).getD k 0 = i.getD (axes.idxOf k) 0 := by
    intro i k hk
    rw [List.getD_eq_getElem?_getD, List.getElem?_map, List.getElem?_range (by omega)]; rfl
  have hperm : ((ndindex (axes.map (fun j => x.shape.getD j 0))).map
      (fun idx => (List.range axes.length).map (fun j => idx.getD (axes.idxOf j) 0))).Perm (ndindex x.shape) := by
    rw [List.perm_ext_iff_of_nodup]
    · intro idx
      rw [List.mem_map, mem_ndindex]
      constructor
      · rintro ⟨i, hi, rfl⟩
        rw [mem_ndindex, hinB] at hi
        rw [hinB]
        refine ⟨by simp [hlen], ?_⟩
        intro k hk
        rw [hfd i k hk]
        have hk' : axes.idxOf k < axes.length := List.idxOf_lt_length_of_mem ((hmem k).mpr hk)
        have := hi.2 (axes.idxOf k) (by simpa using hk')
        rw [List.getD_eq_getElem?_getD (l := axes.map _), List.getElem?_map, List.getElem?_eq_getElem hk'] at this
        simpa using this
      · intro hi
        rw [hinB] at hi
        refine ⟨axes.map (fun j => idx.getD j 0), ?_, ?_⟩
        · rw [mem_ndindex, hinB]
          refine ⟨by simp, ?_⟩
          intro k hk
          rw [List.length_map] at hk
          have h1 : axes[k] < x.shape.length := (hmem _).mp (List.getElem_mem hk)
          have := hi.2 _ h1
          simpa [List.getD_eq_getElem?_getD, hk] using this
        · apply List.ext_getElem
          · simp [hi.1, hlen]
          · intro k hk hk'
            simp only [List.getElem_map, List.getElem_range]
            simp only [List.length_map, List.length_range] at hk
            have hk2 : axes.idxOf k < axes.length := List.idxOf_lt_length_of_mem ((hmem k).mpr (by omega))
            rw [List.getD_eq_getElem?_getD, List.getElem?_map, List.getElem?_eq_getElem hk2]
            simp only [Option.map_some, Option.getD_some, List.getElem_idxOf]
            rw [List.getD_eq_getElem?_getD, List.getElem?_eq_getElem hk']; rfl
    · apply List.Nodup.map_on _ (nodup_ndindex _)
      intro i hi j hj hij
      rw [mem_ndindex, hinB] at hi hj
      simp only [List.length_map] at hi hj
      apply List.ext_getElem
      · rw [hi.1, hj.1]
      · intro k hk hk'
        have hka : k < axes.length := by omega
        have h1 : axes[k] < x.shape.length := (hmem _).mp (List.getElem_mem hka)
        have := congrArg (fun l => l.getD axes[k] 0) hij
        rw [hfd i _ h1, hfd j _ h1, hax k hka] at this
        simpa [List.getD_eq_getElem?_getD, hk, hk'] using this
    · exact nodup_ndindex _
  rw [← lsum_perm hperm, lsum_map]

theorem total_stacked (ss s : List Nat) (items : List Nat → NDA M) (h : ∀ i, InB ss i → (items i).shape = s)
    (h0 : ss.prod ≠ 0) : (NDA.stacked ss items).total = lsum (ndindex ss) (fun i => (items i).total) := by
  unfold NDA.total NDA.stacked
  simp only
  rw [h _ (inB_zeros ss h0), lsum_ndindex_append]
  apply lsum_congr
  intro i hi
  have hin := (mem_ndindex _ _).mp hi
  rw [h i hin]
  apply lsum_congr
  intro j _
  have hl := hin.length
  rw [← hl, List.take_left, List.drop_left]

theorem total_zip (x y : NDA M) (h : x.shape = y.shape) : (x.zip y (· + ·)).total = x.total + y.total := by
  unfold NDA.total NDA.zip
  simp only
  rw [lsum_add, h]

theorem total_map_id (x : NDA M) : (x.map id).total = x.total := rfl

theorem split_at {s : List Nat} {axis : Nat} (h : axis < s.length) : s = s.take axis ++ s.getD axis 0 :: s.drop (axis + 1) := by
  rw [List.getD_eq_getElem?_getD, List.getElem?_eq_getElem h]
  simp only [Option.getD_some]
  rw [← List.drop_eq_getElem_cons h, List.take_append_drop]

theorem lsum_ndindex_at {p q : List Nat} {n axis : Nat} (hp : p.length = axis) (f : List Nat → M) :
    lsum (ndindex (p ++ n :: q)) f =
      lsum (List.range n) (fun j => lsum (ndindex p) (fun a => lsum (ndindex q) (fun b => f (a ++ j :: b)))) := by
  rw [lsum_ndindex_append]
  simp only [lsum_ndindex_cons]
  rw [lsum_swap]

theorem total_reduce (x : NDA M) (axis : Nat) (h : axis < x.shape.length) :
    (x.reduce axis List.sum).total = x.total := by
  unfold NDA.total NDA.reduce NDA.column
  simp only
  have hl : (x.shape.take axis).length = axis := by simp; omega
  have e1 : lsum (ndindex x.shape) x.get =
      lsum (ndindex (x.shape.take axis ++ x.shape.getD axis 0 :: x.shape.drop (axis + 1))) x.get := by
    rw [← split_at h]
  rw [e1, show x.shape.eraseIdx axis = x.shape.take axis ++ x.shape.drop (axis + 1) from List.eraseIdx_eq_take_drop_succ _ _,
    lsum_ndindex_append, lsum_ndindex_append]
  apply lsum_congr
  intro a ha
  have hla : a.length = axis := by rw [((mem_ndindex _ _).mp ha).length, hl]
  rw [lsum_ndindex_cons, lsum_swap]
  apply lsum_congr
  intro b _
  unfold lsum
  congr 1
  apply List.map_congr_left
  intro j _
  rw [insertIdx_middle _ _ _ _ hla]

theorem lsum_locate (lens : List Nat) (f : Nat × Nat → M) :
    lsum (List.range lens.sum) (fun j => f (locate lens j)) =
      lsum (List.range lens.length) (fun t => lsum (List.range (lens.getD t 0)) (fun j => f (t, j))) := by
  induction lens generalizing f with
  | nil => rfl
  | cons l lens ih =>
    rw [List.sum_cons, List.range_add, lsum_append, lsum_map, List.length_cons, Nat.add_comm lens.length 1, List.range_add,
      lsum_append, lsum_range_one, lsum_map]
    congr 1
    · apply lsum_congr
      intro j hj
      simp only [List.mem_range] at hj
      simp [locate, hj]
    · have := ih (fun p => f (p.1 + 1, p.2))
      have e1 : (fun j => f (locate (l :: lens) (l + j))) = fun j => f ((locate lens j).1 + 1, (locate lens j).2) := by
        funext j
        simp only [locate]
        rw [if_neg (by omega), Nat.add_sub_cancel_left]
      rw [e1, this]
      apply lsum_congr
      intro t _
      rw [Nat.add_comm 1 t]; rfl

theorem total_concat (n : Nat) (tiles : Nat → NDA M) (axis : Nat) (s : List Nat) (hax : axis < s.length) (h0 : 0 < n)
    (h : ∀ i, i < n → ∃ k, (tiles i).shape = s.set axis k) :
    (NDA.concat n tiles axis).total = lsum (List.range n) (fun i => (tiles i).total) := by
  unfold NDA.total NDA.concat
  simp only
  set lens := (List.range n).map (fun i => (tiles i).shape.getD axis 0) with hlens
  have hp : (s.take axis).length = axis := by simp; omega
  have hset : ∀ k, s.set axis k = s.take axis ++ k :: s.drop (axis + 1) := by
    intro k
    conv => lhs; rw [split_at hax]
    exact set_middle _ _ _ _ _ hp
  have hlt : lens.length = n := by simp [hlens]
  have hsh : ∀ i, i < n → (tiles i).shape = s.take axis ++ lens.getD i 0 :: s.drop (axis + 1) := by
    intro i hi
    obtain ⟨k, hk⟩ := h i hi
    rw [hk, hset]
    congr 2
    rw [hlens, getD_map' _ _ _ _ 0 (by simpa using hi)]
    have : (List.range n).getD i 0 = i := by
      rw [List.getD_eq_getElem?_getD, List.getElem?_range hi]; rfl
    rw [this, hk, hset, getD_middle _ _ _ _ _ hp]
  obtain ⟨k0, hk0⟩ := h 0 h0
  rw [hk0, List.set_set, hset, lsum_ndindex_at hp]
  have e1 : ∀ j, lsum (ndindex (s.take axis)) (fun a => lsum (ndindex (s.drop (axis + 1))) (fun b =>
      (tiles (locate lens ((a ++ j :: b).getD axis 0)).1).get ((a ++ j :: b).set axis (locate lens ((a ++ j :: b).getD axis 0)).2))) =
      (fun p : Nat × Nat => lsum (ndindex (s.take axis)) (fun a => lsum (ndindex (s.drop (axis + 1))) (fun b =>
        (tiles p.1).get (a ++ p.2 :: b)))) (locate lens j) := by
    intro j
    apply lsum_congr
    intro a ha
    have hla : a.length = axis := by rw [((mem_ndindex _ _).mp ha).length, hp]
    apply lsum_congr
    intro b _
    rw [getD_middle _ _ _ _ _ hla, set_middle _ _ _ _ _ hla]
  rw [lsum_congr (fun j _ => e1 j)]
  rw [lsum_locate lens (fun p : Nat × Nat => lsum (ndindex (s.take axis)) (fun a => lsum (ndindex (s.drop (axis + 1))) (fun b =>
        (tiles p.1).get (a ++ p.2 :: b)))), hlt]
  apply lsum_congr
  intro t ht
  rw [hsh t (by simpa using ht), lsum_ndindex_at hp]

/-- The chunks of an array contain each of its elements once. -/
theorem total_chunks (x : NDA M) {cuts : List (List Key)} (hc : CutsOk cuts x.shape) {order : List Nat}
    (hp : order.Perm (List.range x.shape.length)) {σ : List Key → List Sel}
    (hσ : ∀ ks ∈ chunkKeysOf cuts order, resolve ks x.shape = .ok (σ ks) ∧ ∀ k ∈ ks, k ≠ Key.newaxis) :
    lsum (chunkKeysOf cuts order) (fun ks => (x.ortho (σ ks)).total) = x.total := by
  have h1 : ∀ ks ∈ chunkKeysOf cuts order, (x.ortho (σ ks)).total = lsum (cart (List.zipWith keyPos ks x.shape)) x.get := by
    intro ks hk
    unfold NDA.total NDA.ortho
    simp only
    rw [← ndindex_selSrc ks x.shape (σ ks) (hσ ks hk).2 (hσ ks hk).1, lsum_map]
  rw [lsum_congr h1, lsum_perm (chunkKeysOf_perm_cart (n := x.shape.length) hp cuts hc.length hc.nodup).1, ← lsum_flatMap]
  exact lsum_perm (cart_tiles_perm cuts x.shape hc.tiles) _

end Biggus

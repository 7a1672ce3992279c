import Verif.Spec.Mutable
import Verif.Proofs.Constructors
import Verif.Props.StackExact
import Verif.Proofs.Meta
/-
Mutable stacks: what an object is at the moment (`Heap.Is`) depends only on the object arrays it reaches; indexing creates new object arrays only,
and agrees with the immutable model.
-/
namespace Biggus

variable {α V : Type}

theorem fullKeys_exact {ks fk : List Key} {n : Nat} (h : fullKeys ks n = .ok fk) (hn : fk.any Key.isNewaxis = false) : Exact fk ∧ fk.length = n := by
  have h2 := fullKeys_ok _ _ _ h
  have h3 : ∀ k ∈ fk, k.isNewaxis = false := fun k hk => by
    simp only [List.any_eq_false] at hn
    simpa using hn k hk
  refine ⟨fun k hk => ⟨h3 k hk, ?_⟩, ?_⟩
  · have := h2.2
    simp only [List.any_eq_false] at this
    simpa using this k hk
  · rw [← h2.1]
    unfold nConsuming
    rw [List.filter_eq_self.mpr]
    intro k hk
    simp [h3 k hk]

theorem fullKeysLoop_mem (b : Bool) (keys lh rh : List Key) (k : Key)
    (h : k ∈ (fullKeysLoop b keys lh rh).1 ∨ k ∈ (fullKeysLoop b keys lh rh).2) : k ∈ lh ∨ k ∈ rh ∨ k ∈ keys ∨ k = Key.full := by
  fun_induction fullKeysLoop b keys lh rh with
  | case1 lh rh => rcases h with h | h <;> simp [h]
  | case2 lh rh k' ks _ ih =>
    rcases ih h with h | h | h | h <;> simp_all
    rcases h with h | h <;> simp [h]
  | case3 lh rh k' ks _ ih =>
    rcases ih h with h | h | h | h <;> simp_all
    rcases h with h | h <;> simp [h]
  | case4 b lh rh hb => rcases h with h | h <;> simp [h]
  | case5 b keys lh rh hb hne k' he ih =>
    rcases ih h with h | h | h | h
    · exact Or.inl h
    · simp only [List.mem_append, List.mem_singleton] at h
      rcases h with h | h <;> simp [h]
    · exact Or.inr (Or.inr (Or.inl ((List.dropLast_subset _) h)))
    · simp [h]
  | case6 b keys lh rh hb hne k' he ih =>
    rcases ih h with h | h | h | h
    · exact Or.inl h
    · simp only [List.mem_append, List.mem_singleton] at h
      rcases h with h | h
      · simp [h]
      · exact Or.inr (Or.inr (Or.inl (h ▸ List.getLast_mem hne)))
    · exact Or.inr (Or.inr (Or.inl ((List.dropLast_subset _) h)))
    · simp [h]

theorem fullKeys_mem {ks fk : List Key} {n : Nat} (h : fullKeys ks n = .ok fk) : ∀ k ∈ fk, k ∈ ks ∨ k = Key.full := by
  intro k hk
  have aux : ∀ (ks' : List Key) (m : Nat), (∀ k ∈ ks', k ∈ ks) →
      fk = (fullKeysLoop true ks' [] []).1 ++ List.replicate m Key.full ++ (fullKeysLoop true ks' [] []).2.reverse → k ∈ ks ∨ k = Key.full := by
    intro ks' m hsub hfk
    rw [hfk] at hk
    simp only [List.mem_append, List.mem_reverse] at hk
    rcases hk with (hk | hk) | hk
    · rcases fullKeysLoop_mem _ _ _ _ _ (Or.inl hk) with h | h | h | h
      · simp at h
      · simp at h
      · exact Or.inl (hsub _ h)
      · exact Or.inr h
    · exact Or.inr (List.mem_replicate.mp hk).2
    · rcases fullKeysLoop_mem _ _ _ _ _ (Or.inr hk) with h | h | h | h
      · simp at h
      · simp at h
      · exact Or.inl (hsub _ h)
      · exact Or.inr h
  unfold fullKeys at h
  cases hd : (decide (n + 1 ≤ nConsuming ks) && ks.any Key.isEllipsis)
  · simp only [hd, Bool.false_eq_true, if_false] at h
    split at h
    · simp at h
    · exact aux ks _ (fun _ h => h) (by simpa using h.symm)
  · simp only [hd, if_true] at h
    split at h
    · simp at h
    · exact aux _ _ (fun _ h => List.mem_of_mem_eraseP h) (by simpa using h.symm)

/-! ### growing heaps -/

/-- `H'` has everything `H` has, and its new stacks use new object arrays. -/
structure Heap.Grow (H H' : Heap α) : Prop where
  cells : H.cells <+: H'.cells
  objs : H.stackObjs <+: H'.stackObjs
  new : ∀ (id : Nat) (s : StackObj), H'.stackObjs[id]? = some s → H.stackObjs.length ≤ id →
    H.cells.length ≤ s.cell ∧ s.cell < H'.cells.length

theorem Heap.Grow.refl (H : Heap α) : H.Grow H :=
  ⟨List.prefix_rfl, List.prefix_rfl, fun id s h1 h2 => by
    rw [List.getElem?_eq_none h2] at h1; cases h1⟩

theorem prefix_get {β : Type} {a b : List β} (h : a <+: b) {i : Nat} {x : β} (hi : a[i]? = some x) : b[i]? = some x := by
  obtain ⟨t, rfl⟩ := h
  have hlt : i < a.length := by
    by_contra hc
    rw [List.getElem?_eq_none (by omega)] at hi; cases hi
  rw [List.getElem?_append_left hlt]; exact hi

theorem prefix_get' {β : Type} {a b : List β} (h : a <+: b) {i : Nat} (hi : i < a.length) : b[i]? = a[i]? := by
  obtain ⟨t, rfl⟩ := h
  rw [List.getElem?_append_left hi]

theorem Heap.Grow.trans {H H1 H2 : Heap α} (h1 : H.Grow H1) (h2 : H1.Grow H2) : H.Grow H2 := by
  refine ⟨h1.cells.trans h2.cells, h1.objs.trans h2.objs, fun id s hs hid => ?_⟩
  have l1 := h1.cells.length_le
  have l2 := h2.cells.length_le
  by_cases hlt : id < H1.stackObjs.length
  · rw [prefix_get' h2.objs hlt] at hs
    have := h1.new id s hs hid
    omega
  · have := h2.new id s hs (by omega)
    omega

theorem Heap.newCell_grow (H : Heap α) (c : Cell α) : H.Grow (H.newCell c).1 :=
  ⟨List.prefix_append _ _, List.prefix_rfl, fun id s h1 h2 => by
    change H.stackObjs[id]? = some s at h1
    rw [List.getElem?_eq_none h2] at h1; cases h1⟩

/-! ### what an object is -/

theorem Heap.IsIn.frame {H H' : Heap α} {P Q : Nat → Prop} {n : Nat} {o : ArrRef α} {a : Arr α} (h : H.IsIn P n o a)
    (hs : ∀ (id : Nat) (s : StackObj), H.stackObjs[id]? = some s → P s.cell → H'.stackObjs[id]? = some s)
    (hc : ∀ (k : Nat) (c : Cell α), P k → H.cells[k]? = some c → H'.cells[k]? = some c) (hPQ : ∀ k, P k → k < H.cells.length → Q k) :
    H'.IsIn Q n o a := by
  induction h with
  | arr n a => exact .arr n a
  | stack h1 h2 h3 h4 h5 _ ih =>
    have hlt : _ < H.cells.length := (List.getElem?_eq_some_iff.mp h2).1
    exact .stack (hs _ _ h1 h3) (hc _ _ h3 h2) (hPQ _ h3 hlt) h4 h5 ih
  | asType dt _ ih => exact .asType dt ih
  | maskVal v _ ih => exact .maskVal v ih
  | newAxes na _ ih => exact .newAxes na ih
  | bcast d l _ ih => exact .bcast d l ih
  | transposed ax _ ih => exact .transposed ax ih
  | mosaic ax _ ih => exact .mosaic ax ih
  | agg ax k _ ih => exact .agg ax k ih
  | elem1 op _ ih => exact .elem1 op ih
  | elem2 op _ _ ih ih' => exact .elem2 op ih ih'

theorem Heap.IsIn.grow {H H' : Heap α} {P Q : Nat → Prop} {n : Nat} {o : ArrRef α} {a : Arr α} (h : H.IsIn P n o a) (hg : H.Grow H')
    (hPQ : ∀ k, P k → k < H.cells.length → Q k) : H'.IsIn Q n o a :=
  h.frame (fun _ _ h _ => prefix_get hg.objs h) (fun _ _ _ h => prefix_get hg.cells h) hPQ

theorem Heap.IsIn.mono {H : Heap α} {P Q : Nat → Prop} {n : Nat} {o : ArrRef α} {a : Arr α} (h : H.IsIn P n o a)
    (hPQ : ∀ k, P k → k < H.cells.length → Q k) : H.IsIn Q n o a := h.grow (Heap.Grow.refl H) hPQ

theorem Heap.IsIn.le {H : Heap α} {P : Nat → Prop} {n : Nat} {o : ArrRef α} {a : Arr α} (h : H.IsIn P n o a) : ∀ {n' : Nat}, n ≤ n' → H.IsIn P n' o a := by
  induction h with
  | arr n a => exact fun _ => .arr _ a
  | stack h1 h2 h3 h4 h5 _ ih =>
    intro n' hn
    obtain ⟨k, rfl⟩ : ∃ k, n' = k + 1 := ⟨n' - 1, by omega⟩
    exact .stack h1 h2 h3 h4 h5 (fun i hi => ih i hi (by omega))
  | asType dt _ ih => exact fun h => .asType dt (ih h)
  | maskVal v _ ih => exact fun h => .maskVal v (ih h)
  | newAxes na _ ih => exact fun h => .newAxes na (ih h)
  | bcast d l _ ih => exact fun h => .bcast d l (ih h)
  | transposed ax _ ih => exact fun h => .transposed ax (ih h)
  | mosaic ax _ ih => exact fun h => .mosaic ax (fun i => ih i h)
  | agg ax k _ ih => exact fun h => .agg ax k (ih h)
  | elem1 op _ ih => exact fun h => .elem1 op (ih h)
  | elem2 op _ _ ih ih' => exact fun h => .elem2 op (ih h) (ih' h)

theorem Heap.IsIn.succ {H : Heap α} {P : Nat → Prop} {n : Nat} {o : ArrRef α} {a : Arr α} (h : H.IsIn P n o a) : H.IsIn P (n + 1) o a :=
  h.le (Nat.le_succ n)

theorem mapM_congr' {β γ : Type} {f g : β → Res γ} : ∀ {l : List β}, (∀ x ∈ l, f x = g x) → l.mapM f = l.mapM g
  | [], _ => rfl
  | x :: l, h => by
    rw [List.mapM_cons, List.mapM_cons, h x List.mem_cons_self, mapM_congr' (fun y hy => h y (List.mem_cons_of_mem _ hy))]

theorem foldlM_congr' {β γ : Type} {f g : γ → β → Res γ} : ∀ {l : List β} {c : γ}, (∀ c, ∀ x ∈ l, f c x = g c x) → l.foldlM f c = l.foldlM g c
  | [], _, _ => rfl
  | x :: l, c, h => by
    rw [List.foldlM_cons, List.foldlM_cons, h c x List.mem_cons_self]
    congr 1
    funext y
    exact foldlM_congr' (fun c z hz => h c z (List.mem_cons_of_mem _ hz))

theorem mapM_fin {γ : Type} {n : Nat} {f : Fin n → Res γ} {g : Nat → Res γ} (h : ∀ i : Fin n, f i = g i) : (List.finRange n).mapM f = (List.range n).mapM g := by
  rw [← List.map_coe_finRange_eq_range, List.mapM_map]
  exact mapM_congr' (fun i _ => h i)

theorem foldlM_fin {γ : Type} {n : Nat} {f : γ → Fin n → Res γ} {g : γ → Nat → Res γ} {c : γ} (h : ∀ c, ∀ i : Fin n, f c i = g c i) :
    (List.finRange n).foldlM f c = (List.range n).foldlM g c := by
  rw [← List.map_coe_finRange_eq_range, List.foldlM_map]
  exact foldlM_congr' (fun c i _ => h c i)

theorem Heap.IsIn.shape_eq {H : Heap α} {P : Nat → Prop} {n : Nat} {o : ArrRef α} {a : Arr α} (h : H.IsIn P n o a) :
    H.shape o = a.shape := by
  induction h with
  | arr n a => rfl
  | @stack n id s c f h1 h2 h3 h4 h5 _ ih =>
    simp only [Heap.shape, Heap.find, h1, h2, Arr.shape, bind, Except.bind]
    rw [h5 _ (inB_zeros _ h4)]
  | asType dt _ ih => exact ih
  | maskVal v _ ih => exact ih
  | newAxes na _ ih => simp only [Heap.shape, Arr.shape, ih]
  | bcast d l _ ih => simp only [Heap.shape, Arr.shape, ih]
  | transposed ax _ ih => simp only [Heap.shape, Arr.shape, ih]
  | @mosaic n k tiles f axis _ ih =>
    have e0 := ih 0
    simp only [Fin.val_zero] at e0
    simp only [Heap.shape, Arr.shape, e0]
    rw [mapM_fin (g := fun i => do let t ← (f i).shape; return t.getD axis 0) (fun i => by rw [ih i])]
  | agg ax k _ ih => simp only [Heap.shape, Arr.shape, ih]
  | elem1 op _ ih => exact ih
  | elem2 op _ _ ih _ => exact ih

theorem Heap.IsIn.stack_shape {H : Heap α} {P : Nat → Prop} {n id : Nat} {ss : List Nat} {f : List Nat → Arr α}
    (h : H.IsIn P n (.stack id) (.stack ss f)) : ∃ (s : StackObj) (c : Cell α), H.stackObjs[id]? = some s ∧ H.cells[s.cell]? = some c ∧
      c.shape = ss ∧ ss.prod ≠ 0 ∧ (∀ i, InB ss i → (f i).shape = .ok s.itemShape) := by
  cases h with
  | stack h1 h2 h3 h4 h5 h6 => exact ⟨_, _, h1, h2, rfl, h4, h5⟩

theorem stack_arr_shape {ss s : List Nat} {f : List Nat → Arr α} (h4 : ss.prod ≠ 0) (h5 : ∀ i, InB ss i → (f i).shape = .ok s) :
    (Arr.stack ss f).shape = .ok (ss ++ s) := by
  simp only [Arr.shape, bind, Except.bind]
  rw [h5 _ (inB_zeros _ h4)]
  rfl

/-- An object's object arrays are those of the stacks it uses. -/
theorem Heap.IsIn.reaches {H : Heap α} {P : Nat → Prop} {n : Nat} {o : ArrRef α} {a : Arr α} (h : H.IsIn P n o a) : H.IsIn (H.Reaches o) n o a := by
  have step : ∀ {o o' : ArrRef α} {n : Nat} {a : Arr α}, H.Part o o' → H.IsIn (H.Reaches o') n o' a → H.IsIn (H.Reaches o) n o' a := by
    intro o o' n a hp h
    exact h.mono (fun k ⟨id, s, h1, h2⟩ _ => ⟨id, s, Relation.ReflTransGen.head hp h1, h2⟩)
  induction h with
  | arr n a => exact .arr n a
  | @stack n id s c f h1 h2 h3 h4 h5 _ ih =>
    exact .stack h1 h2 ⟨id, s, Relation.ReflTransGen.refl, h1, rfl⟩ h4 h5 (fun i hi => step (.item h1 h2 hi) (ih i hi))
  | asType dt _ ih => exact .asType dt (step (.asType _ _) ih)
  | maskVal v _ ih => exact .maskVal v (step (.maskVal _ _) ih)
  | newAxes na _ ih => exact .newAxes na (step (.newAxes _ _) ih)
  | bcast d l _ ih => exact .bcast d l (step (.bcast _ _ _) ih)
  | transposed ax _ ih => exact .transposed ax (step (.transposed _ _) ih)
  | mosaic ax _ ih => exact .mosaic ax (fun i => step (.tile _ _ i) (ih i))
  | agg ax k _ ih => exact .agg ax k (step (.agg _ _ _) ih)
  | elem1 op _ ih => exact .elem1 op (step (.elem1 _ _) ih)
  | elem2 op _ _ ih ih' => exact .elem2 op (step (.left _ _ _) ih) (step (.right _ _ _) ih')

theorem Heap.UnderBcast.part {H : Heap α} {o o' : ArrRef α} {k : Nat} (hp : H.Part o o') (h : H.UnderBcast o' k) : H.UnderBcast o k := by
  obtain ⟨b, d, lead, h1, h2⟩ := h
  exact ⟨b, d, lead, Relation.ReflTransGen.head hp h1, h2⟩

/-! ### computations with the same outcome -/

/-- Both succeed with related results, or both fail with the same exception. -/
def Alike {β γ : Type} (R : β → γ → Prop) : Res β → Res γ → Prop
  | .ok x, .ok y => R x y
  | .error e, .error e' => e = e'
  | _, _ => False

theorem Alike.bind {β γ β' γ' : Type} {R : β → γ → Prop} {S : β' → γ' → Prop} {x : Res β} {y : Res γ} {f : β → Res β'} {g : γ → Res γ'} (h : Alike R x y)
    (hf : ∀ b c, R b c → Alike S (f b) (g c)) : Alike S (x >>= f) (y >>= g) := by
  cases x <;> cases y <;> simp only [Alike] at h
  · subst h; rfl
  · exact hf _ _ h

theorem Alike.same {β β' γ' : Type} {S : β' → γ' → Prop} {x : Res β} {f : β → Res β'} {g : β → Res γ'} (hf : ∀ b, x = .ok b → Alike S (f b) (g b)) :
    Alike S (x >>= f) (x >>= g) := by
  cases x with
  | error e => rfl
  | ok b => exact hf b rfl

theorem Alike.imp {β γ : Type} {R S : β → γ → Prop} {x : Res β} {y : Res γ} (h : Alike R x y) (hi : ∀ b c, R b c → S b c) : Alike S x y := by
  cases x <;> cases y <;> simp only [Alike] at h ⊢
  · exact h
  · exact hi _ _ h

theorem Alike.ok_right {β γ : Type} {R : β → γ → Prop} {x : Res β} {y : Res γ} {c : γ} (h : Alike R x y) (hy : y = .ok c) : ∃ b, x = .ok b ∧ R b c := by
  subst hy
  cases x <;> simp only [Alike] at h
  exact ⟨_, rfl, h⟩

theorem Alike.ok_left {β γ : Type} {R : β → γ → Prop} {x : Res β} {y : Res γ} {b : β} (h : Alike R x y) (hx : x = .ok b) : ∃ c, y = .ok c ∧ R b c := by
  subst hx
  cases y <;> simp only [Alike] at h
  exact ⟨_, rfl, h⟩

/-! ### constructors -/

theorem Heap.mkNewAxes_alike {H : Heap α} {P : Nat → Prop} {d : Nat} {o : ArrRef α} {a : Arr α} (h : H.IsIn P d o a) (na : List Nat) :
    Alike (H.IsIn P d) (H.mkNewAxes o na) (Biggus.mkNewAxes a na) := by
  unfold Heap.mkNewAxes Biggus.mkNewAxes
  rw [h.shape_eq]
  refine Alike.same (fun s _ => ?_)
  by_cases hc : s.length + 1 ≠ na.length
  · rw [if_pos hc, if_pos hc]; rfl
  · rw [if_neg hc, if_neg hc]; exact .newAxes na h

theorem Heap.mkBcastFlat_alike {H : Heap α} {P : Nat → Prop} {d : Nat} {o : ArrRef α} {a : Arr α} (h : H.IsIn P d o a) (dict : List (Nat × Nat)) (lead : List Nat) :
    Alike (H.IsIn P d) (H.mkBcastFlat o dict lead) (Biggus.mkBcastFlat a dict lead) := by
  unfold Heap.mkBcastFlat Biggus.mkBcastFlat
  rw [h.shape_eq]
  refine Alike.same (fun s _ => Alike.same (fun _ _ => ?_))
  by_cases hc : (lead.any (· < 1)) = true
  · rw [if_pos hc, if_pos hc]; rfl
  · rw [if_neg hc, if_neg hc]; exact .bcast dict lead h

theorem Heap.mkBcast_alike {H : Heap α} {P : Nat → Prop} {d : Nat} {o : ArrRef α} {a : Arr α} (h : H.IsIn P d o a) (dict : List (Nat × Nat)) (lead : List Nat) :
    Alike (H.IsIn P d) (H.mkBcast o dict lead) (Biggus.mkBcast a dict lead) := by
  cases h with
  | arr d a =>
    simp only [Heap.mkBcast]
    cases Biggus.mkBcast a dict lead with
    | error e => rfl
    | ok b => exact Heap.IsIn.arr (H := H) (P := P) d b
  | bcast d' lead' h => exact Heap.mkBcastFlat_alike h _ _
  | stack h1 h2 h3 h4 h5 h6 => exact Heap.mkBcastFlat_alike (.stack h1 h2 h3 h4 h5 h6) _ _
  | asType dt h => exact Heap.mkBcastFlat_alike (.asType dt h) _ _
  | maskVal v h => exact Heap.mkBcastFlat_alike (.maskVal v h) _ _
  | newAxes na h => exact Heap.mkBcastFlat_alike (.newAxes na h) _ _
  | transposed ax h => exact Heap.mkBcastFlat_alike (.transposed ax h) _ _
  | mosaic ax h => exact Heap.mkBcastFlat_alike (.mosaic ax h) _ _
  | agg ax k h => exact Heap.mkBcastFlat_alike (.agg ax k h) _ _
  | elem1 op h => exact Heap.mkBcastFlat_alike (.elem1 op h) _ _
  | elem2 op h h' => exact Heap.mkBcastFlat_alike (.elem2 op h h') _ _

theorem Heap.mkTransposed_alike {H : Heap α} {P : Nat → Prop} {d : Nat} {o : ArrRef α} {a : Arr α} (h : H.IsIn P d o a) (axes : List Nat) :
    Alike (H.IsIn P d) (H.mkTransposed o axes) (Biggus.mkTransposed a axes) := by
  unfold Heap.mkTransposed Biggus.mkTransposed
  rw [h.shape_eq]
  refine Alike.same (fun s _ => ?_)
  by_cases hc : axes.length ≠ s.length
  · rw [if_pos hc, if_pos hc]; rfl
  · rw [if_neg hc, if_neg hc]; exact .transposed axes h

theorem Heap.mkMosaic_alike [Inhabited α] {H : Heap α} {P : Nat → Prop} {d : Nat} {os : List (ArrRef α)} {as : List (Arr α)} (h : List.Forall₂ (H.IsIn P d) os as) (axis : Nat) :
    Alike (H.IsIn P d) (H.mkMosaic os axis) (Biggus.mkMosaic as axis) := by
  cases h with
  | nil => rfl
  | @cons o a os as h hs =>
    simp only [Heap.mkMosaic, Biggus.mkMosaic]
    rw [h.shape_eq]
    refine Alike.same (fun s0 _ => ?_)
    by_cases hc : axis < s0.length
    · rw [if_neg (by simpa using hc), if_neg (by simpa using hc)]
      have hm : ∀ {os : List (ArrRef α)} {as : List (Arr α)}, List.Forall₂ (H.IsIn P d) os as → (os.mapM (fun t => do
          let s ← H.shape t
          if ¬ axis < s.length then .error PyErr.index
          else if s.eraseIdx axis ≠ s0.eraseIdx axis then .error PyErr.value else .ok ()) : Res (List Unit)) =
          as.mapM (fun t => do
            let s ← t.shape
            if ¬ axis < s.length then throw PyErr.index
            if s.eraseIdx axis ≠ s0.eraseIdx axis then throw PyErr.value) := by
        intro os as hs
        induction hs with
        | nil => rfl
        | cons h1 _ ih =>
          rw [List.mapM_cons, List.mapM_cons, ih, h1.shape_eq]
          congr 2
      rw [hm hs]
      refine Alike.same (fun _ _ => ?_)
      have hl : as.length = os.length := hs.length_eq.symm
      show H.IsIn P d _ (.mosaic (a :: as).length _ axis)
      rw [List.length_cons, hl]
      refine .mosaic axis (fun i => ?_)
      have hall : List.Forall₂ (H.IsIn P d) (o :: os) (a :: as) := .cons h hs
      have hi : i.val < (a :: as).length := by simp only [List.length_cons, hl]; exact i.isLt
      have := hall.get (i := i.val) i.isLt hi
      rw [List.getD_eq_getElem?_getD, List.getElem?_eq_getElem hi]
      exact this
    · rw [if_pos hc, if_pos hc]; rfl

theorem Heap.bcastSide_alike {H : Heap α} {P : Nat → Prop} {d : Nat} {o : ArrRef α} {a : Arr α} (h : H.IsIn P d o a) (kw : List (Nat × Nat) × List Nat) :
    Alike (H.IsIn P d) (H.bcastSide o kw) (Biggus.bcastSide a kw) := by
  unfold Heap.bcastSide Biggus.bcastSide
  split
  · exact h
  · exact Heap.mkBcast_alike h _ _

theorem Heap.mkElem2_alike {H : Heap α} {P : Nat → Prop} {d : Nat} {o o' : ArrRef α} {a a' : Arr α} (h : H.IsIn P d o a) (h' : H.IsIn P d o' a') (op : Op2 α) :
    Alike (H.IsIn P d) (H.mkElem2 o o' op) (Biggus.mkElem2 a a' op) := by
  unfold Heap.mkElem2 Biggus.mkElem2 Heap.broadcastArrays Biggus.broadcastArrays
  rw [h.shape_eq, h'.shape_eq]
  refine Alike.bind (R := fun p q => H.IsIn P d p.1 q.1 ∧ H.IsIn P d p.2 q.2) ?_ (fun p q hpq => Heap.IsIn.elem2 op hpq.1 hpq.2)
  refine Alike.same (fun s _ => Alike.same (fun s' _ => Alike.same (fun full _ => ?_)))
  refine (Heap.bcastSide_alike h _).bind (fun p q h1 => (Heap.bcastSide_alike h' _).bind (fun p' q' h2 => ⟨h1, h2⟩))

/-! ### indexing only adds to the heap -/

theorem Heap.newStack_grow {H0 H H' : Heap α} {cell : Nat} {o : ArrRef α} (hg : H0.Grow H) (hc : H0.cells.length ≤ cell)
    (h : H.newStack cell = .ok (H', o)) : H0.Grow H' := by
  unfold Heap.newStack at h
  split at h
  · cases h
  · rename_i c hcell
    have hlt : cell < H.cells.length := (List.getElem?_eq_some_iff.mp hcell).1
    split at h
    · cases h
    · obtain ⟨s0, _, h⟩ := bind_ok.mp h
      obtain ⟨_, _, h⟩ := bind_ok.mp h
      cases h
      refine ⟨hg.cells, hg.objs.trans (List.prefix_append _ _), fun id s hs hid => ?_⟩
      change (H.stackObjs ++ [⟨cell, s0⟩])[id]? = some s at hs
      by_cases hlt' : id < H.stackObjs.length
      · rw [List.getElem?_append_left hlt'] at hs
        exact hg.new id s hs hid
      · rw [List.getElem?_append_right (by omega)] at hs
        cases hk : id - H.stackObjs.length with
        | zero =>
          rw [hk] at hs
          simp at hs
          rw [← hs]
          exact ⟨hc, hlt⟩
        | succ k => rw [hk] at hs; simp at hs

theorem stackItems_grow {get : Heap α → ArrRef α → Res (Heap α × ArrRef α)} (hget : ∀ H o H' o', get H o = .ok (H', o') → H.Grow H')
    (shape : List Nat) : ∀ (is : List (List Nat)) (H : Heap α) (new : List Nat → ArrRef α) (r : Heap α × (List Nat → ArrRef α)),
    stackItems get shape is H new = .ok r → H.Grow r.1
  | [], H, new, r, h => by
    simp only [stackItems] at h
    cases h
    exact Heap.Grow.refl _
  | i :: is, H, new, r, h => by
    simp only [stackItems] at h
    split at h
    · cases h
    · obtain ⟨p, h1, h2⟩ := bind_ok.mp h
      exact (hget _ _ _ _ h1).trans (stackItems_grow hget shape is _ _ _ h2)

/-- The computation only adds to the heap `H`. -/
def Grows {β : Type} (H : Heap α) (r : Res (Heap α × β)) : Prop := ∀ p, r = .ok p → H.Grow p.1

theorem Grows.same {β γ : Type} {H : Heap α} {x : Res γ} {f : γ → Res (Heap α × β)} (h : ∀ b, Grows H (f b)) : Grows H (x >>= f) := by
  intro p hp
  obtain ⟨b, _, hp⟩ := bind_ok.mp hp
  exact h b p hp

theorem Grows.bind {β γ : Type} {H : Heap α} {x : Res (Heap α × γ)} {f : Heap α × γ → Res (Heap α × β)} (hx : Grows H x) (h : ∀ b, Grows b.1 (f b)) :
    Grows H (x >>= f) := by
  intro p hp
  obtain ⟨b, hb, hp⟩ := bind_ok.mp hp
  exact (hx b hb).trans (h b p hp)

theorem Grows.ret {β : Type} (H : Heap α) (x : β) : Grows H (.ok (H, x)) := fun p hp => by cases hp; exact Heap.Grow.refl H

theorem Grows.err {β : Type} (H : Heap α) (e : PyErr) : Grows H (.error e : Res (Heap α × β)) := fun p hp => by cases hp

theorem Grows.ite {β : Type} {H : Heap α} {c : Prop} [Decidable c] {x y : Res (Heap α × β)} (hx : Grows H x) (hy : Grows H y) : Grows H (if c then x else y) := by
  split
  · exact hx
  · exact hy

theorem newAxesGetitem_grows {H : Heap α} {inner : List Key → Res (Heap α × ArrRef α)} (h : ∀ ks, Grows H (inner ks)) (ndim : Nat) (na : List Nat) (keys : List Key) :
    Grows H (Heap.newAxesGetitem inner ndim na keys) := by
  unfold Heap.newAxesGetitem
  refine Grows.same (fun _ => Grows.same (fun st => (h _).bind (fun p => Grows.same (fun r => ?_))))
  exact Grows.same (fun r' => Grows.ret _ _)

theorem arrayGetitem_grows {H : Heap α} {full : List Key → Res (Heap α × ArrRef α)} (h : ∀ ks, Grows H (full ks)) (shape : Res (List Nat)) (keys : List Key) :
    Grows H (Heap.arrayGetitem full shape keys) := by
  unfold Heap.arrayGetitem
  refine Grows.same (fun s => Grows.same (fun fk => Grows.ite ?_ (h _)))
  exact newAxesGetitem_grows (fun ks => Grows.same (fun fk => h fk)) _ _ _

theorem bcastFull_grows {H : Heap α} {inner : List Key → Res (Heap α × ArrRef α)} (h : ∀ ks, Grows H (inner ks)) (o : ArrRef α) (dict : List (Nat × Nat)) (lead : List Nat)
    (keys : List Key) : Grows H (H.bcastFull inner o dict lead keys) := by
  unfold Heap.bcastFull
  refine Grows.same (fun _ => Grows.same (fun _ => Grows.same (fun _ => Grows.same (fun kd => Grows.same (fun full => ?_)))))
  exact Grows.bind (Grows.ite (Grows.ret _ _) (h _)) (fun p => Grows.same (fun r => Grows.ret _ _))

theorem transposedFull_grows {H : Heap α} {inner : List Key → Res (Heap α × ArrRef α)} (h : ∀ ks, Grows H (inner ks)) (axes : List Nat) (keys : List Key) :
    Grows H (Heap.transposedFull inner axes keys) := by
  unfold Heap.transposedFull
  exact Grows.same (fun _ => (h _).bind (fun p => Grows.same (fun r => Grows.ret _ _)))

theorem heapMapM_grows {β γ : Type} {f : Heap α → β → Res (Heap α × γ)} (h : ∀ G x, Grows G (f G x)) : ∀ (l : List β) (H : Heap α), Grows H (heapMapM f l H)
  | [], H => Grows.ret _ _
  | x :: l, H => (h H x).bind (fun p => (heapMapM_grows h l p.1).bind (fun q => Grows.ret _ _))

theorem mosaicMany_grows {H : Heap α} {inner : Heap α → Nat → List Key → Res (Heap α × ArrRef α)} (h : ∀ G i ks, Grows G (inner G i ks)) (lens : List Nat) (axis : Nat)
    (keys : List Key) (is : List Int) (rev : Bool) : Grows H (H.mosaicMany inner lens axis keys is rev) := by
  unfold Heap.mosaicMany
  exact (heapMapM_grows (fun G g => h G _ _) _ H).bind (fun p => Grows.same (fun r => Grows.ret _ _))

theorem mosaicFull_grows {H : Heap α} {inner : Heap α → Nat → List Key → Res (Heap α × ArrRef α)} (h : ∀ G i ks, Grows G (inner G i ks)) (tshape : Nat → Res (List Nat))
    (n axis : Nat) (keys : List Key) : Grows H (H.mosaicFull inner tshape n axis keys) := by
  unfold Heap.mosaicFull
  simp only
  refine Grows.ite ?_ (Grows.same (fun lens => ?_))
  · exact (heapMapM_grows (fun G i => h G _ _) _ H).bind (fun p => Grows.same (fun r => Grows.ret _ _))
  · unfold Heap.mosaicAxis
    split
    · exact h _ _ _
    · exact Grows.same (fun r => mosaicMany_grows h _ _ _ _ _)
    · exact mosaicMany_grows h _ _ _ _ _
    · exact mosaicMany_grows h _ _ _ _ _
    · exact mosaicMany_grows h _ _ _ _ _
    · exact Grows.ite (Grows.err _ _) (Grows.err _ _)
    · exact Grows.err _ _

theorem stackFull_grows {item : Heap α → ArrRef α → List Key → Res (Heap α × ArrRef α)} (h : ∀ G o ks, Grows G (item G o ks)) (H : Heap α) (c : Cell α) (keys : List Key) :
    Grows H (H.stackFull item c keys) := by
  unfold Heap.stackFull
  refine Grows.same (fun rs => Grows.same (fun sel => Grows.ite (h _ _ _) ?_))
  intro r hr
  obtain ⟨p, h1, hr⟩ := bind_ok.mp hr
  have hg := stackItems_grow (fun G o G' o' h' => h G o _ _ h') _ _ _ _ _ h1
  exact Heap.newStack_grow (hg.trans (Heap.newCell_grow _ _)) hg.cells.length_le hr

theorem getitemWith_grows [Inhabited α] {item : Heap α → ArrRef α → List Key → Res (Heap α × ArrRef α)} (h : ∀ G o ks, Grows G (item G o ks)) :
    ∀ (o : ArrRef α) (H : Heap α) (keys : List Key), Grows H (Heap.getitemWith item o H keys)
  | .arr a, H, keys => by
    simp only [Heap.getitemWith]
    exact Grows.same (fun b => Grows.ret _ _)
  | .stack id, H, keys => by
    simp only [Heap.getitemWith]
    exact Grows.same (fun p => arrayGetitem_grows (fun ks => stackFull_grows h _ _ _) _ _)
  | .asType o dt, H, keys => by
    simp only [Heap.getitemWith]
    exact (getitemWith_grows h o H keys).bind (fun p => Grows.ret _ _)
  | .maskVal o v, H, keys => by
    simp only [Heap.getitemWith]
    exact (getitemWith_grows h o H keys).bind (fun p => Grows.ret _ _)
  | .newAxes o na, H, keys => by
    simp only [Heap.getitemWith]
    exact Grows.same (fun s => newAxesGetitem_grows (fun ks => getitemWith_grows h o H ks) _ _ _)
  | .bcast o d lead, H, keys => by
    simp only [Heap.getitemWith]
    exact arrayGetitem_grows (fun ks => bcastFull_grows (fun ks => getitemWith_grows h o H ks) _ _ _ _) _ _
  | .transposed o axes, H, keys => by
    simp only [Heap.getitemWith]
    exact arrayGetitem_grows (fun ks => transposedFull_grows (fun ks => getitemWith_grows h o H ks) _ _) _ _
  | .mosaic n tiles axis, H, keys => by
    simp only [Heap.getitemWith]
    refine arrayGetitem_grows (fun ks => mosaicFull_grows (fun G i ks => ?_) _ _ _ _) _ _
    split
    · exact getitemWith_grows h (tiles _) G ks
    · exact Grows.err _ _
  | .agg o axis k, H, keys => by
    simp only [Heap.getitemWith]
    refine arrayGetitem_grows (fun ks => ?_) _ _
    unfold Heap.aggFull
    exact (getitemWith_grows h o H _).bind (fun p => Grows.ret _ _)
  | .elem1 o op, H, keys => by
    simp only [Heap.getitemWith]
    exact arrayGetitem_grows (fun ks => (getitemWith_grows h o H ks).bind (fun p => Grows.ret _ _)) _ _
  | .elem2 o o' op, H, keys => by
    simp only [Heap.getitemWith]
    exact arrayGetitem_grows (fun ks => (getitemWith_grows h o H ks).bind (fun p => (getitemWith_grows h o' p.1 ks).bind
      (fun q => Grows.same (fun r => Grows.ret _ _)))) _ _

theorem Heap.getitem_grows [Inhabited α] : ∀ (n : Nat) (H : Heap α) (o : ArrRef α) (keys : List Key), Grows H (H.getitem n o keys)
  | 0, H, o, keys => getitemWith_grows (fun _ _ _ => Grows.err _ _) o H keys
  | n + 1, H, o, keys => getitemWith_grows (fun G o ks => Heap.getitem_grows n G o ks) o H keys

theorem Heap.getitem_grow [Inhabited α] (n : Nat) (H : Heap α) (o : ArrRef α) (keys : List Key) (H' : Heap α) (o' : ArrRef α)
    (h : H.getitem n o keys = .ok (H', o')) : H.Grow H' := Heap.getitem_grows n H o keys _ h

/-! ### indexing agrees with the immutable model -/

/-- The result of a computation starting with the heap `G`: more objects, and the object is `b`. -/
def Got (G : Heap α) (P : Nat → Prop) (d : Nat) (p : Heap α × ArrRef α) (b : Arr α) : Prop := G.Grow p.1 ∧ p.1.IsIn P d p.2 b

theorem Alike.got {G G' : Heap α} {P : Nat → Prop} {d : Nat} {r : Res (ArrRef α)} {q : Res (Arr α)} (hg : G.Grow G')
    (h : Alike (G'.IsIn P d) r q) : Alike (Got G P d) (r >>= fun r => .ok (G', r)) q := by
  cases r <;> cases q <;> simp only [Alike] at h
  · subst h; rfl
  · exact ⟨hg, h⟩

theorem naStep_keys {st st' : NAState} {p : Key × Nat} (h : naStep st p = .ok st') (hk : ∀ k ∈ st.keys, k.isNewaxis = false) :
    ∀ k ∈ st'.keys, k.isNewaxis = false := by
  obtain ⟨key, ki⟩ := p
  by_cases hn : key = .newaxis
  · subst hn
    simp only [naStep] at h
    cases h
    exact hk
  · have hkn : key.isNewaxis = false := by cases key <;> first | rfl | exact absurd rfl hn
    have he : naStep st (key, ki) = (match st.isNew with
      | [] => .error .index
      | true :: rest =>
        let st := { st with isNew := rest }
        match key with
        | .int i =>
          if -1 ≤ i ∧ i < 1 then .ok { st with newAxes := st.newAxes.modify st.axis (· - 1) }
          else .error .index
        | .slice s => do
          let r ← s.range 1
          if r.length ≠ 1 then return { st with dict := st.dict ++ [(ki, r.length)] }
          else return st
        | .tuple l =>
          if l.all (fun i => decide (-1 ≤ i ∧ i < 1)) then
            .ok { st with dict := st.dict ++ [(ki, l.length)] }
          else .error .index
        | _ => .error .notImpl
      | false :: rest =>
        .ok { st with
          isNew := rest
          combine := if key.isScalar then st.combine ++ [st.axis] else st.combine
          keys := st.keys ++ [key]
          axis := st.axis + 1 }) := by
      cases key <;> first | rfl | exact absurd rfl hn
    rw [he] at h
    split at h
    · cases h
    · simp only at h
      split at h
      · split at h
        · cases h; exact hk
        · cases h
      · obtain ⟨r, _, h⟩ := bind_ok.mp h
        split at h
        · cases h; exact hk
        · cases h; exact hk
      · split at h
        · cases h; exact hk
        · cases h
      · cases h
    · cases h
      intro k hm
      rcases List.mem_append.mp hm with hm | hm
      · exact hk k hm
      · rw [List.mem_singleton.mp hm]; exact hkn

theorem naFold_keys : ∀ {l : List (Key × Nat)} {st st' : NAState}, l.foldlM naStep st = .ok st' → (∀ k ∈ st.keys, k.isNewaxis = false) →
    ∀ k ∈ st'.keys, k.isNewaxis = false
  | [], st, st', h, hk => by
    simp only [List.foldlM_nil, pure, Except.pure] at h
    cases h; exact hk
  | p :: l, st, st', h, hk => by
    rw [List.foldlM_cons] at h
    obtain ⟨s1, h1, h2⟩ := bind_ok.mp h
    exact naFold_keys h2 (naStep_keys h1 hk)

theorem newAxesGetitem_alike {G : Heap α} {P : Nat → Prop} {d : Nat} {innerH : List Key → Res (Heap α × ArrRef α)} {inner : List Key → Res (Arr α)}
    (h : ∀ ks, (∀ k ∈ ks, k.isNewaxis = false) → Alike (Got G P d) (innerH ks) (inner ks)) (ndim : Nat) (na : List Nat) (keys : List Key) :
    Alike (Got G P d) (Heap.newAxesGetitem innerH ndim na keys) (Biggus.newAxesGetitem inner ndim na keys) := by
  unfold Heap.newAxesGetitem Biggus.newAxesGetitem
  refine Alike.same (fun fk _ => Alike.same (fun st hst => (h _ (naFold_keys hst (by simp))).bind (fun p b ⟨hg, hb⟩ => ?_)))
  refine (Heap.mkNewAxes_alike hb _).bind (fun r r' hr => ?_)
  by_cases hd : st.dict.isEmpty = true
  · rw [if_pos hd, if_pos hd]
    exact ⟨hg, hr⟩
  · rw [if_neg hd, if_neg hd]
    exact Alike.got hg (Heap.mkBcast_alike hr _ _)

theorem arrayGetitem_alike {G : Heap α} {P : Nat → Prop} {d : Nat} {fullH : List Key → Res (Heap α × ArrRef α)} {full : List Key → Res (Arr α)} {shape : Res (List Nat)}
    (h : ∀ s ks, shape = .ok s → Exact ks → ks.length = s.length → Alike (Got G P d) (fullH ks) (full ks)) (keys : List Key) :
    Alike (Got G P d) (Heap.arrayGetitem fullH shape keys) (Biggus.arrayGetitem full shape keys) := by
  unfold Heap.arrayGetitem Biggus.arrayGetitem
  refine Alike.same (fun s hs => Alike.same (fun fk hfk => ?_))
  have hany : ∀ ks fk, fullKeys ks s.length = .ok fk → fk.any Key.isNewaxis = false → Alike (Got G P d) (fullH fk) (full fk) := by
    intro ks fk hk hn
    obtain ⟨h1, h2⟩ := fullKeys_exact hk hn
    exact h s fk hs h1 h2
  by_cases hn : fk.any Key.isNewaxis = true
  · rw [if_pos hn, if_pos hn]
    refine newAxesGetitem_alike (fun ks hks => Alike.same (fun fk hk => hany ks fk hk ?_)) _ _ _
    rw [List.any_eq_false]
    intro k hm
    rcases fullKeys_mem hk k hm with h | h
    · simp [hks k h]
    · subst h; simp [Key.full, Key.isNewaxis]
  · rw [if_neg hn, if_neg hn]
    exact hany keys fk hfk (by simpa using hn)

theorem bcastFull_alike {G : Heap α} {P : Nat → Prop} {d : Nat} {innerH : List Key → Res (Heap α × ArrRef α)} {inner : List Key → Res (Arr α)} {o : ArrRef α} {a : Arr α}
    (h : ∀ ks, Alike (Got G P d) (innerH ks) (inner ks)) (ho : G.IsIn P d o a) (dict : List (Nat × Nat)) (lead : List Nat) (keys : List Key) :
    Alike (Got G P d) (G.bcastFull innerH o dict lead keys) (Biggus.bcastFull inner a dict lead keys) := by
  unfold Heap.bcastFull Biggus.bcastFull
  rw [ho.shape_eq]
  refine Alike.same (fun l _ => Alike.same (fun sa _ => Alike.same (fun sizes _ => Alike.same (fun kd _ => ?_))))
  unfold bcastSub
  simp only [bind_assoc]
  refine Alike.same (fun full _ => ?_)
  cases full with
  | true =>
    simp only [if_true, pure_bind]
    exact Alike.got (Heap.Grow.refl G) (Heap.mkBcast_alike ho _ _)
  | false =>
    simp only [Bool.false_eq_true, if_false]
    exact (h _).bind (fun p b ⟨hg, hb⟩ => Alike.got hg (Heap.mkBcast_alike hb _ _))

theorem transposedFull_alike {G : Heap α} {P : Nat → Prop} {d : Nat} {innerH : List Key → Res (Heap α × ArrRef α)} {inner : List Key → Res (Arr α)}
    (h : ∀ ks, Alike (Got G P d) (innerH ks) (inner ks)) (axes : List Nat) (keys : List Key) :
    Alike (Got G P d) (Heap.transposedFull innerH axes keys) (Biggus.transposedFull inner axes keys) := by
  unfold Heap.transposedFull Biggus.transposedFull
  exact Alike.same (fun r _ => (h _).bind (fun p b ⟨hg, hb⟩ => Alike.got hg (Heap.mkTransposed_alike hb _)))

theorem heapMapM_alike {P : Nat → Prop} {d : Nat} {β : Type} {f : Heap α → β → Res (Heap α × ArrRef α)} {g : β → Res (Arr α)} {H0 : Heap α} :
    ∀ (l : List β) (G : Heap α), H0.Grow G → (∀ x ∈ l, ∀ G, H0.Grow G → Alike (Got G P d) (f G x) (g x)) →
      Alike (fun p q => G.Grow p.1 ∧ List.Forall₂ (p.1.IsIn P d) p.2 q) (heapMapM f l G) (l.mapM g)
  | [], G, _, _ => ⟨Heap.Grow.refl G, .nil⟩
  | x :: l, G, hG, h => by
    rw [List.mapM_cons]
    simp only [heapMapM]
    refine (h x List.mem_cons_self G hG).bind (fun p b ⟨hg, hb⟩ => ?_)
    refine (heapMapM_alike l p.1 (hG.trans hg) (fun y hy => h y (List.mem_cons_of_mem _ hy))).bind (fun q bs ⟨hg', hbs⟩ => ?_)
    exact ⟨hg.trans hg', .cons (hb.grow hg' (fun k hk _ => hk)) hbs⟩

theorem mosaicMany_alike [Inhabited α] {H0 G : Heap α} {P : Nat → Prop} {d n : Nat} {innerH : Heap α → Nat → List Key → Res (Heap α × ArrRef α)} {inner : Nat → List Key → Res (Arr α)}
    (hG : H0.Grow G) (h : ∀ G i ks, i < n → H0.Grow G → Alike (Got G P d) (innerH G i ks) (inner i ks)) {lens : List Nat} (hl : lens.length = n) (hn : 0 < n) (axis : Nat)
    (keys : List Key) (is : List Int) (rev : Bool) : Alike (Got G P d) (G.mosaicMany innerH lens axis keys is rev) (Biggus.mosaicMany inner lens axis keys is rev) := by
  unfold Heap.mosaicMany Biggus.mosaicMany
  refine (heapMapM_alike (groupTiles lens is) G hG (fun g hg G' hG' => h G' g.1 (keys.set axis (tileKey ((tileOffsets lens).getD g.1 0) g.2)) ?_ hG')).bind (fun p q ⟨hg, hpq⟩ => ?_)
  · rw [← hl]; exact groupTiles_fst (by omega) is g hg
  · refine Alike.got hg (Heap.mkMosaic_alike ?_ _)
    split
    · exact List.rel_reverse hpq
    · exact hpq

theorem mosaicFull_alike [Inhabited α] {H0 G : Heap α} {P : Nat → Prop} {d n : Nat} {innerH : Heap α → Nat → List Key → Res (Heap α × ArrRef α)} {inner : Nat → List Key → Res (Arr α)}
    {tsH ts : Nat → Res (List Nat)} (hG : H0.Grow G) (h : ∀ G i ks, i < n → H0.Grow G → Alike (Got G P d) (innerH G i ks) (inner i ks)) (hn : 0 < n)
    (hts : ∀ i, i < n → tsH i = ts i) (axis : Nat) (keys : List Key) :
    Alike (Got G P d) (G.mosaicFull innerH tsH n axis keys) (Biggus.mosaicFull inner ts n axis keys) := by
  unfold Heap.mosaicFull Biggus.mosaicFull
  simp only
  by_cases hc : (trimKeys keys).length ≤ axis
  · rw [if_pos hc, if_pos hc]
    exact (heapMapM_alike (List.range n) G hG (fun i hi G' hG' => h G' i _ (List.mem_range.mp hi) hG')).bind
      (fun p q ⟨hg, hpq⟩ => Alike.got hg (Heap.mkMosaic_alike hpq _))
  · rw [if_neg hc, if_neg hc]
    have : ((List.range n).mapM (fun i => do let s ← tsH i; return s.getD axis 0) : Res (List Nat)) = (List.range n).mapM (fun i => do let s ← ts i; return s.getD axis 0) :=
      mapM_congr' (fun i hi => by rw [hts i (List.mem_range.mp hi)])
    rw [this]
    refine Alike.same (fun lens hlens => ?_)
    have hl : lens.length = n := by
      have := (mapM_ok_inv _ _ _ hlens).length_eq
      simpa using this.symm
    unfold Heap.mosaicAxis Biggus.mosaicAxis
    cases (trimKeys keys).getD axis Key.full with
    | int i => exact h G _ _ (by rw [← hl]; exact tileIndex_lt (by omega) _) hG
    | slice s => exact Alike.same (fun r _ => mosaicMany_alike hG h hl hn _ _ _ _)
    | tuple l => exact mosaicMany_alike hG h hl hn _ _ _ _
    | list l => exact mosaicMany_alike hG h hl hn _ _ _ _
    | iarr l => exact mosaicMany_alike hG h hl hn _ _ _ _
    | barr l =>
      cases l with
      | nil => rfl
      | cons => rfl
    | _ => rfl

/-! ### stacks -/

theorem slicedShapeLoop_no_list : ∀ {ks : List Key} {sh rs : List Nat}, slicedShapeLoop ks sh = .ok rs → ∀ l, Key.list l ∉ ks
  | [], _, _, _, l, h => by cases h
  | k :: ks, sh, rs, h, l, hm => by
    have hrec : ∀ {sh' rs'}, slicedShapeLoop ks sh' = .ok rs' → Key.list l ∉ ks := fun h => slicedShapeLoop_no_list h l
    cases k with
    | int i => exact hrec (by simpa [slicedShapeLoop] using h) (by simpa using hm)
    | slice s =>
      simp only [slicedShapeLoop] at h
      split at h
      · cases h
      · obtain ⟨r, _, h⟩ := bind_ok.mp h
        obtain ⟨rest, h, _⟩ := bind_ok.mp h
        exact hrec h (by simpa using hm)
    | barr l' =>
      simp only [slicedShapeLoop] at h
      obtain ⟨rest, h, _⟩ := bind_ok.mp h
      exact hrec h (by simpa using hm)
    | tuple l' =>
      simp only [slicedShapeLoop] at h
      obtain ⟨rest, h, _⟩ := bind_ok.mp h
      exact hrec h (by simpa using hm)
    | iarr l' =>
      simp only [slicedShapeLoop] at h
      obtain ⟨rest, h, _⟩ := bind_ok.mp h
      exact hrec h (by simpa using hm)
    | newaxis =>
      simp only [slicedShapeLoop] at h
      obtain ⟨rest, h, _⟩ := bind_ok.mp h
      exact hrec h (by simpa using hm)
    | list l' => simp [slicedShapeLoop] at h
    | ellipsis => simp [slicedShapeLoop] at h
    | bad => simp [slicedShapeLoop] at h

open Spec in
/-- If `stack[index]` exists for all announced positions, NumPy's result has the announced shape. -/
theorem fancy_sel_shape {ss rs : List Nat} {sk : List Key} {sel : NDA (List Nat)} (he : Exact sk) (hl : sk.length = ss.length) (hrs : slicedShape ss sk = .ok rs)
    (hsel : npFancy (⟨ss, _root_.id⟩ : NDA (List Nat)) sk = .ok sel) (h0 : sel.shape.prod ≠ 0) (hin : ∀ i, InB rs i → InB sel.shape i) : sel.shape = rs := by
  have hlist : ∀ l, Key.list l ∉ sk := by
    unfold slicedShape at hrs
    obtain ⟨fk, hfk, h⟩ := bind_ok.mp hrs
    have : fullKeys sk ss.length = .ok sk := by
      have e : expandKeys sk ss.length = .ok sk := expand_exact he hl
      exact fullKeys_of_expandKeys _ _ _ e
    rw [this] at hfk
    cases hfk
    exact slicedShapeLoop_no_list h
  have hsel' := hsel
  unfold npFancy at hsel
  rw [if_neg (by simp only; omega), show (⟨ss, _root_.id⟩ : NDA (List Nat)).shape.length - sk.length = 0 by simp only; omega] at hsel
  simp only [List.replicate_zero, List.append_nil] at hsel
  obtain ⟨τ, hτ, hsel⟩ := bind_ok.mp hsel
  rw [stack_shape_ok he hl hlist hτ] at hrs
  cases hrs
  by_cases h1 : (sk.filter Key.isArr).length = 1
  · by_cases hc : contiguousAdv (sk.map Key.isAdv) = true
    · obtain ⟨r, g1, g2⟩ := npFancy_ok (⟨ss, _root_.id⟩ : NDA (List Nat)) he hτ (Or.inr ⟨h1, hc⟩)
      rw [hsel'] at g1
      cases g1
      exact g2.1
    · obtain ⟨r, g1, g2⟩ := npFancy_apart (⟨ss, _root_.id⟩ : NDA (List Nat)) he hτ h1 (by simpa using hc)
      rw [hsel'] at g1
      cases g1
      obtain ⟨L, _, a2, a3, _⟩ := advItems_one he h1 hτ
      have hpp : slicesBefore sk < (selShape τ).length := by
        rw [a3]
        simp only [List.length_append, List.length_cons, List.length_take, List.length_drop]
        omega
      have h00 : 0 ∉ selShape τ := by
        intro h0'
        apply h0
        rw [g2.1, prod_zero_iff]
        simp only [moveFront, NDA.ortho]
        obtain ⟨i, hi, he⟩ := List.getElem_of_mem h0'
        by_cases hip : i = slicesBefore sk
        · subst hip
          rw [List.getD_eq_getElem?_getD, List.getElem?_eq_getElem hi, he]; simp
        · exact List.mem_cons_of_mem _ (List.mem_eraseIdx_iff_getElem.mpr ⟨i, hi, hip, he⟩)
      have := hin _ (inB_pred_self h00)
      rw [g2.1] at this ⊢
      exact (inB_pred h00 (moveFront_sum (x := (⟨ss, _root_.id⟩ : NDA (List Nat)).ortho τ) hpp).symm this).symm
  · by_cases h2 : 2 ≤ (sk.filter Key.isArr).length
    · exfalso
      obtain ⟨d1, d2⟩ := fancy_dims he hτ
      have hany : sk.any Key.isArr = true := by
        cases hf : sk.filter Key.isArr with
        | nil => rw [hf] at h2; simp at h2
        | cons k l =>
          have : k ∈ sk.filter Key.isArr := by rw [hf]; exact List.mem_cons_self
          exact List.any_eq_true.mpr ⟨k, (List.mem_filter.mp this).1, (List.mem_filter.mp this).2⟩
      rw [if_pos hany] at hsel
      split at hsel
      · cases hsel
      rename_i L hL
      cases hsel
      simp only at h0 hin
      generalize (if contiguousAdv (sk.map Key.isAdv) = true then ((sk.map Key.isAdv).takeWhile (!·)).length else 0) = p at h0 hin
      generalize basicDims ((sk.map Key.isAdv).zip τ) = dims at *
      have h00 : 0 ∉ selShape τ := by
        intro h0'
        apply h0
        refine (prod_zero_iff _).mpr ?_
        rcases d2 0 h0' with h | h
        · rw [← List.take_append_drop p dims] at h
          rcases List.mem_append.mp h with h | h
          · simp [h]
          · simp [h]
        · rw [bcastLen_zero hL h]; simp
      have hi := inB_pred_self h00
      have e1 := (hin _ hi).length
      simp only [List.length_append, List.length_take, List.length_drop, List.length_singleton, List.length_map] at e1
      omega
    · have hs : fancySafe sk := by
        left
        rw [List.any_eq_false]
        intro k hk1 hk2
        have : k ∈ sk.filter Key.isArr := List.mem_filter.mpr ⟨hk1, hk2⟩
        rw [List.length_eq_zero_iff.mp (show (sk.filter Key.isArr).length = 0 by omega)] at this; cases this
      obtain ⟨r, g1, g2⟩ := npFancy_ok (⟨ss, _root_.id⟩ : NDA (List Nat)) he hτ hs
      rw [hsel'] at g1
      cases g1
      exact g2.1

theorem stackItems_alike {get : Heap α → ArrRef α → Res (Heap α × ArrRef α)} {inner : List Nat → Res (Arr α)} {H0 : Heap α} {P : Nat → Prop} {d : Nat} {shape : List Nat}
    {old : List Nat → ArrRef α} (h : ∀ i, InB shape i → ∀ G : Heap α, H0.Grow G → Alike (Got G P d) (get G (old i)) (inner i)) :
    ∀ (is : List (List Nat)) (G : Heap α) (new : List Nat → ArrRef α), H0.Grow G → is.Nodup → (∀ i ∈ is, new i = old i) →
      Alike (fun p _ => G.Grow p.1 ∧ (∀ i ∈ is, InB shape i ∧ ∃ b, inner i = .ok b ∧ p.1.IsIn P d (p.2 i) b) ∧ ∀ i, i ∉ is → p.2 i = new i)
        (stackItems get shape is G new) (is.mapM (fun i => if ¬ InB shape i then .error PyErr.index else inner i))
  | [], G, new, hg, _, _ => ⟨Heap.Grow.refl G, by simp, fun _ _ => rfl⟩
  | i :: is, G, new, hg, hnd, ho => by
    obtain ⟨hni, hnd'⟩ := List.nodup_cons.mp hnd
    rw [List.mapM_cons]
    simp only [stackItems]
    by_cases hi : InB shape i
    · rw [if_neg (by simpa using hi), if_neg (by simpa using hi), ho i List.mem_cons_self]
      have h1 := h i hi G hg
      cases hx : inner i with
      | error e =>
        rw [hx] at h1
        cases hy : get G (old i) with
        | error e' => rw [hy] at h1; exact h1
        | ok y => rw [hy] at h1; exact h1.elim
      | ok b =>
        rw [hx] at h1
        cases hy : get G (old i) with
        | error e' => rw [hy] at h1; exact h1.elim
        | ok p =>
          rw [hy] at h1
          obtain ⟨hg1, hb⟩ := h1
          have ih := stackItems_alike h is p.1 (fun j => if j = i then p.2 else new j) (hg.trans hg1) hnd' (fun j hj => by
            have : j ≠ i := fun e => hni (e ▸ hj)
            rw [if_neg this]; exact ho j (List.mem_cons_of_mem _ hj))
          show Alike _ (stackItems get shape is p.1 (fun j => if j = i then p.2 else new j)) (_ >>= fun bs => .ok (b :: bs))
          cases hz : (is.mapM (fun i => if ¬ InB shape i then .error PyErr.index else inner i) : Res (List (Arr α))) with
          | error e =>
            rw [hz] at ih
            cases hw : stackItems get shape is p.1 (fun j => if j = i then p.2 else new j) with
            | error e' => rw [hw] at ih; exact ih
            | ok y => rw [hw] at ih; exact ih.elim
          | ok bs =>
            rw [hz] at ih
            obtain ⟨q, hq, q1, q2, q3⟩ := ih.ok_right rfl
            rw [hq]
            refine ⟨hg1.trans q1, fun j hj => ?_, fun j hj => ?_⟩
            · rcases List.mem_cons.mp hj with rfl | hj
              · refine ⟨hi, b, hx, ?_⟩
                rw [q3 j hni, if_pos rfl]
                exact hb.grow q1 (fun k hk _ => hk)
              · exact q2 j hj
            · rw [q3 j (fun hm => hj (List.mem_cons_of_mem _ hm)), if_neg (fun (e : j = i) => hj (by rw [e]; exact List.mem_cons_self))]
    · rw [if_pos hi, if_pos hi]
      rfl

theorem Heap.newStack_alike {H0 H : Heap α} {P : Nat → Prop} {d cell : Nat} {c : Cell α} {f : List Nat → Arr α} (hc : H.cells[cell]? = some c) (hP : P cell)
    (h : ∀ i, InB c.shape i → H.IsIn P d (c.items i) (f i)) (hg : H0.Grow H) (hlen : H0.cells.length ≤ cell) :
    Alike (Got H0 P (d + 1)) (H.newStack cell) (mkStack c.shape f) := by
  have hgrow := fun H' o => Heap.newStack_grow (H' := H') (o := o) hg hlen
  unfold Heap.newStack mkStack at *
  simp only [hc] at hgrow ⊢
  by_cases h0 : c.shape.prod = 0
  · rw [if_pos h0, if_pos h0]; rfl
  · rw [if_neg h0] at hgrow ⊢
    rw [if_neg h0]
    rw [(h _ (inB_zeros _ h0)).shape_eq] at hgrow ⊢
    cases hs0 : (f (c.shape.map (fun _ => 0))).shape with
    | error e => rfl
    | ok s0 =>
    rw [hs0] at hgrow
    have hm : ((ndindex c.shape).mapM (fun i => do let s ← H.shape (c.items i); if s ≠ s0 then throw PyErr.value) : Res (List Unit)) =
        (ndindex c.shape).mapM (fun i => do let s ← (f i).shape; if s ≠ s0 then throw PyErr.value) :=
      mapM_congr' (fun i hi => by rw [(h i ((mem_ndindex _ _).mp hi)).shape_eq])
    simp only [bind, Except.bind] at hm hgrow ⊢
    rw [hm] at hgrow ⊢
    cases hus : ((ndindex c.shape).mapM (fun i => do let s ← (f i).shape; if s ≠ s0 then throw PyErr.value) : Res (List Unit)) with
    | error e =>
      simp only [bind, Except.bind] at hus
      rw [hus]
      rfl
    | ok us =>
    have hus' := mapM_ok_inv _ _ _ hus
    simp only [bind, Except.bind] at hus
    rw [hus] at hgrow ⊢
    have hsh : ∀ i, InB c.shape i → (f i).shape = .ok s0 := by
      intro i hi
      obtain ⟨u, _, hu⟩ := forall₂_mem_left hus' ((mem_ndindex _ _).mpr hi)
      obtain ⟨s, hs, hu⟩ := bind_ok.mp hu
      by_cases hne : s = s0
      · rw [hs, hne]
      · rw [if_pos hne] at hu; cases hu
    refine ⟨hgrow _ _ rfl, ?_⟩
    refine .stack (s := ⟨cell, s0⟩) (by simp) hc hP h0 hsh (fun i hi => (h i hi).frame (fun _ _ h _ => prefix_get (List.prefix_append _ _) h) (fun _ _ _ h => h) (fun _ h _ => h))

theorem stackFull_alike {item : Heap α → ArrRef α → List Key → Res (Heap α × ArrRef α)} {inner : List Nat → List Key → Res (Arr α)} {H0 G : Heap α} {P : Nat → Prop} {d : Nat} {c : Cell α}
    {f : List Nat → Arr α} (hG : H0.Grow G) (h : ∀ i, InB c.shape i → ∀ ks, ∀ G : Heap α, H0.Grow G → Alike (Got G P d) (item G (c.items i) ks) (inner i ks))
    (hP : ∀ k, H0.cells.length ≤ k → P k) {keys : List Key} (he : Exact keys) (hl : c.shape.length ≤ keys.length) :
    Alike (Got G P (d + 1)) (G.stackFull item c keys) (Biggus.stackFull inner c.shape f keys) := by
  unfold Heap.stackFull Biggus.stackFull
  refine Alike.same (fun rs hrs => Alike.same (fun sel hsel => ?_))
  have hin := npFancy_inB hsel
  by_cases hemp : rs.isEmpty = true
  · rw [if_pos hemp, if_pos hemp]
    have : rs = [] := by simpa using hemp
    subst this
    exact (h _ (hin [] (npFancy_scalars hrs hsel)) _ G hG).imp (fun p b ⟨h1, h2⟩ => ⟨h1, h2.succ⟩)
  · rw [if_neg hemp, if_neg hemp]
    have hA := stackItems_alike (get := fun G o => item G o (keys.drop c.shape.length)) (inner := fun i => inner (sel.get i) (keys.drop c.shape.length)) (H0 := H0) (P := P) (d := d)
      (shape := sel.shape) (old := fun i => c.items (sel.get i)) (fun i hi G hG => h _ (hin i hi) _ G hG) (ndindex rs) G (fun i => c.items (sel.get i)) hG (nodup_ndindex rs) (fun _ _ => rfl)
    refine hA.bind (fun p _ ⟨hg, h1, h2⟩ => ?_)
    have hcell : (p.1.newCell ⟨sel.shape, p.2⟩).1.cells[(p.1.newCell ⟨sel.shape, p.2⟩).2]? = some ⟨sel.shape, p.2⟩ := by simp [Heap.newCell]
    by_cases h0 : sel.shape.prod = 0
    · rw [mkStack_empty _ h0]
      simp only [Heap.newStack, hcell, if_pos h0]
      rfl
    · have hss : sel.shape = rs := fancy_sel_shape (fun k hk => he k (List.mem_of_mem_take hk)) (by rw [List.length_take]; omega) hrs hsel h0 (fun i hi => (h1 i ((mem_ndindex _ _).mpr hi)).1)
      have hlen : G.cells.length ≤ p.1.cells.length := hg.cells.length_le
      have hlen0 : H0.cells.length ≤ G.cells.length := hG.cells.length_le
      have hgn : p.1.Grow (p.1.newCell ⟨sel.shape, p.2⟩).1 := Heap.newCell_grow _ _
      refine Heap.newStack_alike (c := ⟨sel.shape, p.2⟩) hcell (hP _ (by simp only [Heap.newCell]; omega)) (fun i hi => ?_) (hg.trans hgn) (by simp only [Heap.newCell]; exact hlen)
      have hm : i ∈ ndindex rs := (mem_ndindex _ _).mpr (by rw [← hss]; exact hi)
      obtain ⟨_, b, hb1, hb2⟩ := h1 i hm
      simp only [if_pos hm, hb1, okOr]
      exact hb2.grow hgn (fun k hk _ => hk)

/-! ### all classes -/

theorem aggFull_alike {G : Heap α} {P : Nat → Prop} {d : Nat} {innerH : List Key → Res (Heap α × ArrRef α)} {inner : List Key → Res (Arr α)}
    (h : ∀ ks, Alike (Got G P d) (innerH ks) (inner ks)) (axis : Nat) (k : AggKind α) (keys : List Key) :
    Alike (Got G P d) (Heap.aggFull innerH axis k keys) (Biggus.aggFull inner axis k keys) := by
  unfold Heap.aggFull Biggus.aggFull
  exact (h _).bind (fun p b ⟨hg, hb⟩ => ⟨hg, .agg _ k hb⟩)

theorem Heap.find_of {H : Heap α} {id : Nat} {s : StackObj} {c : Cell α} (h1 : H.stackObjs[id]? = some s) (h2 : H.cells[s.cell]? = some c) : H.find id = .ok (s, c) := by
  unfold Heap.find
  simp only [h1, h2]

theorem Heap.getitemWith_alike [Inhabited α] {item : Heap α → ArrRef α → List Key → Res (Heap α × ArrRef α)} {H0 : Heap α} {P Sh : Nat → Prop} {n : Nat}
    (hitem : ∀ d o a, H0.IsIn P d o a → d < n → (∀ k, H0.UnderBcast o k → Sh k) → ∀ G, H0.Grow G → ∀ keys,
      Alike (Got G (fun k => H0.cells.length ≤ k ∨ Sh k) d) (item G o keys) (a.getitem keys)) :
    ∀ {d : Nat} {o : ArrRef α} {a : Arr α}, H0.IsIn P d o a → d ≤ n → (∀ k, H0.UnderBcast o k → Sh k) → ∀ G, H0.Grow G → ∀ keys,
      Alike (Got G (fun k => H0.cells.length ≤ k ∨ Sh k) d) (Heap.getitemWith item o G keys) (a.getitem keys) := by
  intro d o a h
  have all : ∀ {d : Nat} {o : ArrRef α} {a : Arr α}, H0.IsIn P d o a → ∀ {G : Heap α}, H0.Grow G → G.shape o = a.shape :=
    fun h _ hG => (h.grow hG (fun k hk _ => hk)).shape_eq
  induction h with
  | arr d a =>
    intro _ _ G hG keys
    simp only [Heap.getitemWith]
    cases a.getitem keys with
    | error e => rfl
    | ok b => exact ⟨Heap.Grow.refl G, .arr d b⟩
  | @stack d id s c f h1 h2 h3 h4 h5 h6 _ =>
    intro hd hu G hG keys
    rw [Arr.getitem]
    simp only [Heap.getitemWith]
    rw [Heap.find_of (prefix_get hG.objs h1) (prefix_get hG.cells h2), stack_arr_shape h4 h5]
    simp only [bind, Except.bind]
    refine arrayGetitem_alike (fun s' ks hs he hl => ?_) keys
    cases hs
    refine stackFull_alike hG (fun i hi ks G hG => ?_) (fun k hk => Or.inl hk) he (by rw [hl, List.length_append]; omega)
    exact hitem d _ _ (h6 i hi) (by omega) (fun k hk => hu k (hk.part (.item h1 h2 hi))) G hG ks
  | @asType d o a dt h ih =>
    intro hd hu G hG keys
    rw [Arr.getitem]
    exact (ih hd (fun k hk => hu k (hk.part (.asType _ _))) G hG keys).bind (fun p b ⟨hg, hb⟩ => ⟨hg, .asType dt hb⟩)
  | @maskVal d o a v h ih =>
    intro hd hu G hG keys
    rw [Arr.getitem]
    exact (ih hd (fun k hk => hu k (hk.part (.maskVal _ _))) G hG keys).bind (fun p b ⟨hg, hb⟩ => ⟨hg, .maskVal v hb⟩)
  | @newAxes d o a na h ih =>
    intro hd hu G hG keys
    rw [Arr.getitem]
    simp only [Heap.getitemWith]
    rw [all h hG]
    exact Alike.same (fun s _ => newAxesGetitem_alike (fun ks _ => ih hd (fun k hk => hu k (hk.part (.newAxes _ _))) G hG ks) _ _ _)
  | @bcast d o a dict lead h ih =>
    intro hd hu G hG keys
    rw [Arr.getitem]
    simp only [Heap.getitemWith]
    rw [all (.bcast dict lead h) hG]
    have ho : G.IsIn (fun k => H0.cells.length ≤ k ∨ Sh k) d o a :=
      h.reaches.grow hG (fun k hk _ => Or.inr (hu k ⟨o, dict, lead, Relation.ReflTransGen.refl, hk⟩))
    exact arrayGetitem_alike (fun s ks _ _ _ => bcastFull_alike (fun ks => ih hd (fun k hk => hu k (hk.part (.bcast _ _ _))) G hG ks) ho _ _ _) keys
  | @transposed d o a axes h ih =>
    intro hd hu G hG keys
    rw [Arr.getitem]
    simp only [Heap.getitemWith]
    rw [all (.transposed axes h) hG]
    exact arrayGetitem_alike (fun s ks _ _ _ => transposedFull_alike (fun ks => ih hd (fun k hk => hu k (hk.part (.transposed _ _))) G hG ks) _ _) keys
  | @mosaic d n' tiles f axis h ih =>
    intro hd hu G hG keys
    rw [Arr.getitem]
    simp only [Heap.getitemWith]
    rw [all (.mosaic axis h) hG]
    refine arrayGetitem_alike (fun s ks _ _ _ => mosaicFull_alike hG (fun G i ks hi hG => ?_) (Nat.succ_pos _) (fun i hi => ?_) _ _) keys
    · rw [dif_pos hi]
      exact ih ⟨i, hi⟩ hd (fun k hk => hu k (hk.part (.tile _ _ _))) G hG ks
    · rw [dif_pos hi]
      exact all (h ⟨i, hi⟩) hG
  | @agg d o a axis k h ih =>
    intro hd hu G hG keys
    rw [Arr.getitem]
    simp only [Heap.getitemWith]
    rw [all (.agg axis k h) hG]
    exact arrayGetitem_alike (fun s ks _ _ _ => aggFull_alike (fun ks => ih hd (fun k hk => hu k (hk.part (.agg _ _ _))) G hG ks) _ _ _) keys
  | @elem1 d o a op h ih =>
    intro hd hu G hG keys
    rw [Arr.getitem]
    simp only [Heap.getitemWith]
    rw [all h hG]
    refine arrayGetitem_alike (fun s ks _ _ _ => ?_) keys
    exact (ih hd (fun k hk => hu k (hk.part (.elem1 _ _))) G hG ks).bind (fun p b ⟨hg, hb⟩ => ⟨hg, .elem1 op hb⟩)
  | @elem2 d o o' a a' op h h' ih ih' =>
    intro hd hu G hG keys
    rw [Arr.getitem]
    simp only [Heap.getitemWith]
    rw [all h hG]
    refine arrayGetitem_alike (fun s ks _ _ _ => ?_) keys
    refine (ih hd (fun k hk => hu k (hk.part (.left _ _ _))) G hG ks).bind (fun p b ⟨hg, hb⟩ => ?_)
    refine (ih' hd (fun k hk => hu k (hk.part (.right _ _ _))) p.1 (hG.trans hg) ks).bind (fun q c ⟨hg', hc⟩ => ?_)
    exact Alike.got (hg.trans hg') (Heap.mkElem2_alike (hb.grow hg' (fun k hk _ => hk)) hc op)

/-- Indexing an object does what indexing the expression does, exceptions included; the result is made of new object arrays, except that `Sh` may contain old ones used inside
broadcasts. -/
theorem Heap.getitem_alike [Inhabited α] {H0 : Heap α} {P Sh : Nat → Prop} : ∀ (n : Nat) {d : Nat} {o : ArrRef α} {a : Arr α}, H0.IsIn P d o a → d ≤ n →
    (∀ k, H0.UnderBcast o k → Sh k) → ∀ G, H0.Grow G → ∀ keys,
      Alike (Got G (fun k => H0.cells.length ≤ k ∨ Sh k) d) (G.getitem n o keys) (a.getitem keys)
  | 0, _, _, _, h, hd, hu, G, hG, keys => by
    simp only [Heap.getitem]
    exact Heap.getitemWith_alike (fun d o a _ hd => absurd hd (by omega)) h hd hu G hG keys
  | n + 1, _, _, _, h, hd, hu, G, hG, keys => by
    simp only [Heap.getitem]
    exact Heap.getitemWith_alike (n := n + 1) (fun d o a h hd hu G hG keys => Heap.getitem_alike n h (by omega) hu G hG keys) h hd hu G hG keys

/-! ### evaluation -/

theorem Heap.stream_eq [Inhabited α] {m : Mode α V} {limit n : Nat} {evalA : Arr α → Res (NDA V)} {evalP : Heap α → ArrRef α → Res (NDA V)} {H : Heap α} {P : Nat → Prop}
    (hev : ∀ G P d o a, Heap.IsIn G P d o a → d ≤ n → evalP G o = evalA a) :
    ∀ {d : Nat} {o : ArrRef α} {a : Arr α}, H.IsIn P d o a → d ≤ n → ∀ order, H.stream m limit n evalA evalP o order = a.stream m limit evalA order := by
  have prod : ∀ {d : Nat} {o : ArrRef α} {a : Arr α}, H.IsIn P d o a → d ≤ n → ∀ order, (do
      let s ← H.shape o
      (chunkIndexGen limit s order).mapM (fun key => do
        let p ← H.getitem n o key
        let d ← evalP p.1 p.2
        return (key, d)) : Res (List (Chunk V))) = (do
      let s ← a.shape
      (chunkIndexGen limit s order).mapM (fun key => do
        let b ← a.getitem key
        let d ← evalA b
        return (key, d)) : Res (List (Chunk V))) := by
    intro d o a h hd order
    rw [h.shape_eq]
    congr 1
    funext s
    refine mapM_congr' (fun key _ => ?_)
    have := Heap.getitem_alike (Sh := fun _ => True) n h hd (fun _ _ => trivial) H (Heap.Grow.refl H) key
    cases hx : H.getitem n o key with
    | error e =>
      rw [hx] at this
      cases hy : a.getitem key with
      | error e' => rw [hy] at this; cases this; rfl
      | ok b => rw [hy] at this; exact this.elim
    | ok p =>
      rw [hx] at this
      cases hy : a.getitem key with
      | error e' => rw [hy] at this; exact this.elim
      | ok b =>
        rw [hy] at this
        show (evalP p.1 p.2 >>= _) = (evalA b >>= _)
        rw [hev _ _ _ _ _ this.2 hd]
  intro d o a h
  induction h with
  | arr d a => intro _ order; rfl
  | agg axis k h ih =>
    intro hd order
    simp only [Heap.stream, Arr.stream, h.shape_eq, ih hd]
  | elem1 op h ih =>
    intro hd order
    simp only [Heap.stream, Arr.stream, ih hd]
    cases m.op1 op <;> rfl
  | elem2 op h h' ih ih' =>
    intro hd order
    simp only [Heap.stream, Arr.stream, ih hd, ih' hd]
    cases m.op2 op <;> rfl
  | stack h1 h2 h3 h4 h5 h6 _ => intro hd order; exact prod (.stack h1 h2 h3 h4 h5 h6) hd order
  | asType dt h _ => intro hd order; exact prod (.asType dt h) hd order
  | maskVal v h _ => intro hd order; exact prod (.maskVal v h) hd order
  | newAxes na h _ => intro hd order; exact prod (.newAxes na h) hd order
  | bcast d l h _ => intro hd order; exact prod (.bcast d l h) hd order
  | transposed ax h _ => intro hd order; exact prod (.transposed ax h) hd order
  | mosaic ax h _ => intro hd order; exact prod (.mosaic ax h) hd order

theorem Heap.engineOne_eq [Inhabited α] [Inhabited V] {m : Mode α V} {limit n : Nat} {evalA : Arr α → Res (NDA V)} {evalP : Heap α → ArrRef α → Res (NDA V)} {H : Heap α} {P : Nat → Prop}
    (hev : ∀ G P d o a, Heap.IsIn G P d o a → d ≤ n → evalP G o = evalA a) {d : Nat} {o : ArrRef α} {a : Arr α} (h : H.IsIn P d o a) (hd : d ≤ n) :
    H.engineOne m limit n evalA evalP o = Biggus.engineOne m limit evalA a := by
  unfold Heap.engineOne Biggus.engineOne
  rw [h.shape_eq]
  congr 1
  funext s
  rw [Heap.stream_eq hev h hd]

theorem Heap.evalWith_eq [Inhabited α] [Inhabited V] {m : Mode α V} {eng : Arr α → Res (NDA V)} {engH item : ArrRef α → Res (NDA V)} {H : Heap α} {P : Nat → Prop} {n : Nat}
    (heng : ∀ d o a, H.IsIn P d o a → d ≤ n → engH o = eng a)
    {N : Nat} (hN : N ≤ n) (hitem : ∀ d o a, H.IsIn P d o a → d < N → item o = a.evalWith m eng) :
    ∀ {d : Nat} {o : ArrRef α} {a : Arr α}, H.IsIn P d o a → d ≤ N → H.evalWith m (Arr.evalWith m eng) engH item o = a.evalWith m eng := by
  intro d o a h
  induction h with
  | arr d a => intro _; rfl
  | @stack d id s c f h1 h2 h3 h4 h5 h6 _ =>
    intro hd
    simp only [Heap.evalWith, Arr.evalWith]
    rw [Heap.find_of h1 h2, stack_arr_shape h4 h5]
    exact foldlM_congr' (fun data i hi => by rw [hitem _ _ _ (h6 i ((mem_ndindex _ _).mp hi)) (by omega)])
  | asType dt _ ih => intro hd; simp only [Heap.evalWith, Arr.evalWith, ih hd]
  | maskVal v _ ih => intro hd; simp only [Heap.evalWith, Arr.evalWith, ih hd]
  | newAxes na h ih => intro hd; simp only [Heap.evalWith, Arr.evalWith, ih hd, h.shape_eq]
  | bcast d l _ ih => intro hd; simp only [Heap.evalWith, Arr.evalWith, ih hd]
  | transposed ax _ ih => intro hd; simp only [Heap.evalWith, Arr.evalWith, ih hd]
  | @mosaic d k tiles f axis h ih =>
    intro hd
    simp only [Heap.evalWith, Arr.evalWith, (Heap.IsIn.mosaic axis h).shape_eq]
    congr 1
    funext s
    rw [foldlM_fin (g := fun (st : NDA V × Nat) i => do
        let ts ← (f i).shape
        let d ← (f i).evalWith m eng
        let data ← mosaicStore axis st.1 st.2 (ts.getD axis 0) d
        return (data, st.2 + ts.getD axis 0)) (fun st i => by rw [(h i).shape_eq, ih i hd])]
  | agg ax k h ih => intro hd; simp only [Heap.evalWith, Arr.evalWith]; exact heng _ _ _ (.agg ax k h) (by omega)
  | elem1 op h ih =>
    intro hd
    simp only [Heap.evalWith, Arr.evalWith, heng _ _ _ h (by omega)]
    cases m.op1 op <;> rfl
  | elem2 op h h' ih ih' =>
    intro hd
    simp only [Heap.evalWith, Arr.evalWith, heng _ _ _ h (by omega), heng _ _ _ h' (by omega)]
    cases m.op2 op <;> rfl

theorem Heap.evalStacks_eq [Inhabited α] [Inhabited V] {m : Mode α V} {eng : Arr α → Res (NDA V)} {engH : ArrRef α → Res (NDA V)} {H : Heap α} {P : Nat → Prop} {n : Nat}
    (heng : ∀ d o a, H.IsIn P d o a → d ≤ n → engH o = eng a) : ∀ {N : Nat}, N ≤ n → ∀ {d : Nat} {o : ArrRef α} {a : Arr α}, H.IsIn P d o a → d ≤ N →
      H.evalStacks m (Arr.evalWith m eng) engH N o = a.evalWith m eng
  | 0, hN, d, o, a, h, hd => by
    simp only [Heap.evalStacks]
    exact Heap.evalWith_eq heng hN (fun d o a _ hd => absurd hd (by omega)) h hd
  | N + 1, hN, d, o, a, h, hd => by
    simp only [Heap.evalStacks]
    exact Heap.evalWith_eq heng hN (fun d o a h hd => Heap.evalStacks_eq heng (by omega) h (by omega)) h hd

/-- Evaluating an object is evaluating the expression it is. -/
theorem Heap.eval_eq [Inhabited α] [Inhabited V] (m : Mode α V) (limit n : Nat) : ∀ (k : Nat) (H : Heap α) (P : Nat → Prop) (d : Nat) (o : ArrRef α) (a : Arr α), H.IsIn P d o a → d ≤ n →
    H.eval m limit n k o = a.eval m limit k
  | 0, H, P, d, o, a, h, hd => by
    simp only [Heap.eval, Arr.eval]
    exact Heap.evalStacks_eq (fun _ _ _ _ _ => rfl) (Nat.le_refl n) h hd
  | k + 1, H, P, d, o, a, h, hd => by
    simp only [Heap.eval, Arr.eval]
    exact Heap.evalStacks_eq (fun _ _ _ h hd => Heap.engineOne_eq (Heap.eval_eq m limit n k) h hd) (Nat.le_refl n) h hd

end Biggus

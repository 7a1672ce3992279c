import Verif.Proofs.Mutable
/-
Mutable stacks, continued: deep copies, assignments, programs.
-/
namespace Biggus

variable {α V : Type}

/-! ### deep copies -/

/-- The object `o'` is a copy of `o`, in object arrays from number `lo` on. -/
inductive Heap.Copies (H : Heap α) (lo : Nat) : ArrRef α → ArrRef α → Prop
  | arr (a : Arr α) : Copies H lo (.arr a) (.arr a)
  | asType {o o' : ArrRef α} (dt : Nat) : Copies H lo o o' → Copies H lo (.asType o dt) (.asType o' dt)
  | maskVal {o o' : ArrRef α} (v : α) : Copies H lo o o' → Copies H lo (.maskVal o v) (.maskVal o' v)
  | newAxes {o o' : ArrRef α} (na : List Nat) : Copies H lo o o' → Copies H lo (.newAxes o na) (.newAxes o' na)
  | bcast {o o' : ArrRef α} (d : List (Nat × Nat)) (l : List Nat) : Copies H lo o o' → Copies H lo (.bcast o d l) (.bcast o' d l)
  | transposed {o o' : ArrRef α} (axes : List Nat) : Copies H lo o o' → Copies H lo (.transposed o axes) (.transposed o' axes)
  | agg {o o' : ArrRef α} (axis : Nat) (k : AggKind α) : Copies H lo o o' → Copies H lo (.agg o axis k) (.agg o' axis k)
  | elem1 {o o' : ArrRef α} (op : Op1 α) : Copies H lo o o' → Copies H lo (.elem1 o op) (.elem1 o' op)
  | mosaic {n : Nat} {t t' : Fin (n + 1) → ArrRef α} (axis : Nat) : (∀ i, Copies H lo (t i) (t' i)) → Copies H lo (.mosaic n t axis) (.mosaic n t' axis)
  | elem2 {o o' p p' : ArrRef α} (op : Op2 α) : Copies H lo o o' → Copies H lo p p' → Copies H lo (.elem2 o p op) (.elem2 o' p' op)
  | stack {id j : Nat} {s s' : StackObj} {c c' : Cell α} : H.stackObjs[id]? = some s → H.cells[s.cell]? = some c →
      H.stackObjs[j]? = some s' → H.cells[s'.cell]? = some c' → lo ≤ s'.cell → c'.shape = c.shape → s'.itemShape = s.itemShape →
      (∀ i, InB c.shape i → Copies H lo (c.items i) (c'.items i)) → Copies H lo (.stack id) (.stack j)

theorem Heap.Copies.grow {H H' : Heap α} {lo : Nat} {o o' : ArrRef α} (h : H.Copies lo o o') (hg : H.Grow H') : H'.Copies lo o o' := by
  induction h with
  | arr a => exact .arr a
  | asType dt _ ih => exact .asType dt ih
  | maskVal v _ ih => exact .maskVal v ih
  | newAxes na _ ih => exact .newAxes na ih
  | bcast d l _ ih => exact .bcast d l ih
  | transposed axes _ ih => exact .transposed axes ih
  | agg axis k _ ih => exact .agg axis k ih
  | elem1 op _ ih => exact .elem1 op ih
  | mosaic ax _ ih => exact .mosaic ax ih
  | elem2 op _ _ ih ih' => exact .elem2 op ih ih'
  | stack h1 h2 h3 h4 h5 h6 h7 _ ih =>
    exact .stack (prefix_get hg.objs h1) (prefix_get hg.cells h2) (prefix_get hg.objs h3) (prefix_get hg.cells h4) h5 h6 h7 ih

theorem Heap.Copies.isIn {H : Heap α} {lo : Nat} {o o' : ArrRef α} (h : H.Copies lo o o') : ∀ {P : Nat → Prop} {d : Nat} {a : Arr α},
    H.IsIn P d o a → H.IsIn (fun k => lo ≤ k) d o' a := by
  induction h with
  | arr a => intro P d b h; cases h; exact .arr _ _
  | asType dt _ ih => intro P d b h; cases h with | asType _ h => exact .asType dt (ih h)
  | maskVal v _ ih => intro P d b h; cases h with | maskVal _ h => exact .maskVal v (ih h)
  | newAxes na _ ih => intro P d b h; cases h with | newAxes _ h => exact .newAxes na (ih h)
  | bcast dd l _ ih => intro P d b h; cases h with | bcast _ _ h => exact .bcast dd l (ih h)
  | transposed axes _ ih => intro P d b h; cases h with | transposed _ h => exact .transposed axes (ih h)
  | agg axis k _ ih => intro P d b h; cases h with | agg _ _ h => exact .agg axis k (ih h)
  | elem1 op _ ih => intro P d b h; cases h with | elem1 _ h => exact .elem1 op (ih h)
  | mosaic ax _ ih => intro P d b h; cases h with | mosaic _ h => exact .mosaic ax (fun i => ih i (h i))
  | elem2 op _ _ ih ih' => intro P d b h; cases h with | elem2 _ h h' => exact .elem2 op (ih h) (ih' h')
  | @stack id j s s' c c' h1 h2 h3 h4 h5 h6 h7 _ ih =>
    intro P d b h
    cases h with
    | stack k1 k2 k3 k4 k5 k6 =>
      rw [h1] at k1
      cases k1
      rw [h2] at k2
      cases k2
      rw [← h6]
      exact .stack h3 h4 h5 (by rw [h6]; exact k4) (fun i hi => by rw [h7]; exact k5 i (h6 ▸ hi)) (fun i hi => ih i (h6 ▸ hi) (k6 i (h6 ▸ hi)))

def MemoOk (lo : Nat) (H : Heap α) (memo : Memo) : Prop := ∀ id j, memo.lookup id = some j → H.Copies lo (.stack id) (.stack j)

theorem MemoOk.grow {lo : Nat} {H H' : Heap α} {memo : Memo} (h : MemoOk lo H memo) (hg : H.Grow H') : MemoOk lo H' memo :=
  fun id j hj => (h id j hj).grow hg

theorem Heap.push_grow {H0 H : Heap α} (hg : H0.Grow H) {cell : Nat} (hc : H0.cells.length ≤ cell) (hlt : cell < H.cells.length) (s : List Nat) :
    H0.Grow ⟨H.cells, H.stackObjs ++ [⟨cell, s⟩]⟩ := by
  refine ⟨hg.cells, hg.objs.trans (List.prefix_append _ _), fun id s' hs hid => ?_⟩
  change (H.stackObjs ++ [⟨cell, s⟩])[id]? = some s' at hs
  by_cases hlt' : id < H.stackObjs.length
  · rw [List.getElem?_append_left hlt'] at hs
    exact hg.new id s' hs hid
  · rw [List.getElem?_append_right (by omega)] at hs
    cases hk : id - H.stackObjs.length with
    | zero =>
      rw [hk] at hs
      simp at hs
      rw [← hs]
      exact ⟨hc, hlt⟩
    | succ k => rw [hk] at hs; simp at hs

theorem copyItems_grow {copy : Heap α → Memo → ArrRef α → Res (Heap α × Memo × ArrRef α)} (hcopy : ∀ H mm o r, copy H mm o = .ok r → H.Grow r.1)
    (items : List Nat → ArrRef α) : ∀ (is : List (List Nat)) (H : Heap α) (memo : Memo) (new : List Nat → ArrRef α) r,
    copyItems copy items is H memo new = .ok r → H.Grow r.1
  | [], H, memo, new, r, h => by
    simp only [copyItems] at h
    cases h
    exact Heap.Grow.refl _
  | i :: is, H, memo, new, r, h => by
    simp only [copyItems] at h
    obtain ⟨p, h1, h2⟩ := bind_ok.mp h
    exact (hcopy _ _ _ _ h1).trans (copyItems_grow hcopy items is _ _ _ _ h2)

theorem copyTiles_grow {n : Nat} {copy : Fin n → Heap α → Memo → Res (Heap α × Memo × ArrRef α)} (hcopy : ∀ i H mm r, copy i H mm = .ok r → H.Grow r.1) :
    ∀ (is : List (Fin n)) (H : Heap α) (memo : Memo) (new : Fin n → ArrRef α) r, copyTiles copy is H memo new = .ok r → H.Grow r.1
  | [], H, memo, new, r, h => by
    simp only [copyTiles] at h
    cases h
    exact Heap.Grow.refl _
  | i :: is, H, memo, new, r, h => by
    simp only [copyTiles] at h
    obtain ⟨p, h1, h2⟩ := bind_ok.mp h
    exact (hcopy _ _ _ _ h1).trans (copyTiles_grow hcopy is _ _ _ _ h2)

theorem Heap.copyWith_grow {st : Heap α → Memo → Nat → Res (Heap α × Memo × Nat)} (hst : ∀ H mm id r, st H mm id = .ok r → H.Grow r.1) (o : ArrRef α) :
    ∀ (H : Heap α) (memo : Memo) r, Heap.copyWith st o H memo = .ok r → H.Grow r.1 := by
  induction o with
  | arr a =>
    intro H memo r h
    simp only [Heap.copyWith] at h
    cases h
    exact Heap.Grow.refl _
  | stack id =>
    intro H memo r h
    simp only [Heap.copyWith] at h
    obtain ⟨p, h1, h⟩ := bind_ok.mp h
    cases h
    exact hst _ _ _ _ h1
  | asType o dt ih =>
    intro H memo r h
    simp only [Heap.copyWith] at h
    obtain ⟨p, h1, h⟩ := bind_ok.mp h
    cases h
    exact ih H memo p h1
  | maskVal o v ih =>
    intro H memo r h
    simp only [Heap.copyWith] at h
    obtain ⟨p, h1, h⟩ := bind_ok.mp h
    cases h
    exact ih H memo p h1
  | newAxes o na ih =>
    intro H memo r h
    simp only [Heap.copyWith] at h
    obtain ⟨p, h1, h⟩ := bind_ok.mp h
    cases h
    exact ih H memo p h1
  | bcast o d l ih =>
    intro H memo r h
    simp only [Heap.copyWith] at h
    obtain ⟨p, h1, h⟩ := bind_ok.mp h
    cases h
    exact ih H memo p h1
  | transposed o axes ih =>
    intro H memo r h
    simp only [Heap.copyWith] at h
    obtain ⟨p, h1, h⟩ := bind_ok.mp h
    cases h
    exact ih H memo p h1
  | agg o axis k ih =>
    intro H memo r h
    simp only [Heap.copyWith] at h
    obtain ⟨p, h1, h⟩ := bind_ok.mp h
    cases h
    exact ih H memo p h1
  | elem1 o op ih =>
    intro H memo r h
    simp only [Heap.copyWith] at h
    obtain ⟨p, h1, h⟩ := bind_ok.mp h
    cases h
    exact ih H memo p h1
  | mosaic n tiles axis ih =>
    intro H memo r h
    simp only [Heap.copyWith] at h
    obtain ⟨p, h1, h⟩ := bind_ok.mp h
    cases h
    exact copyTiles_grow (fun i H mm r h => ih i H mm r h) _ _ _ _ _ h1
  | elem2 o o' op ih ih' =>
    intro H memo r h
    simp only [Heap.copyWith] at h
    obtain ⟨p, h1, h⟩ := bind_ok.mp h
    obtain ⟨q, h2, h⟩ := bind_ok.mp h
    cases h
    exact (ih H memo p h1).trans (ih' _ _ q h2)

theorem Heap.copyStack_grow {copy : Heap α → Memo → ArrRef α → Res (Heap α × Memo × ArrRef α)} (hcopy : ∀ H mm o r, copy H mm o = .ok r → H.Grow r.1)
    (H : Heap α) (memo : Memo) (id : Nat) (r) (h : H.copyStack copy memo id = .ok r) : H.Grow r.1 := by
  unfold Heap.copyStack at h
  split at h
  · cases h
    exact Heap.Grow.refl _
  · obtain ⟨⟨s, c⟩, _, h⟩ := bind_ok.mp h
    obtain ⟨p, h1, h⟩ := bind_ok.mp h
    cases h
    have hg := copyItems_grow hcopy _ _ _ _ _ _ h1
    exact Heap.push_grow (hg.trans (Heap.newCell_grow p.1 ⟨c.shape, p.2.2⟩)) hg.cells.length_le (by simp [Heap.newCell]) _

theorem Heap.deepcopy_grow : ∀ (n : Nat) (H : Heap α) (memo : Memo) (o : ArrRef α) r, H.deepcopy n memo o = .ok r → H.Grow r.1
  | 0, H, memo, o, r, h => Heap.copyWith_grow (fun _ _ _ _ h => by cases h) o H memo r h
  | n + 1, H, memo, o, r, h => Heap.copyWith_grow (fun H mm id r h => Heap.copyStack_grow (fun G mm o r h => Heap.deepcopy_grow n G mm o r h) H mm id r h) o H memo r h

theorem copyItems_sim {copy : Heap α → Memo → ArrRef α → Res (Heap α × Memo × ArrRef α)} {H0 : Heap α} {lo : Nat} {shape : List Nat}
    {items : List Nat → ArrRef α}
    (hcopy : ∀ i, InB shape i → ∀ (G : Heap α) (mm : Memo), H0.Grow G → MemoOk lo G mm → ∃ r, copy G mm (items i) = .ok r ∧
      MemoOk lo r.1 r.2.1 ∧ r.1.Copies lo (items i) r.2.2)
    (hgrow : ∀ H mm o r, copy H mm o = .ok r → H.Grow r.1) :
    ∀ (is : List (List Nat)) (G : Heap α) (mm : Memo) (new : List Nat → ArrRef α), H0.Grow G → MemoOk lo G mm → (∀ i ∈ is, InB shape i) →
      (∀ i, InB shape i → i ∉ is → G.Copies lo (items i) (new i)) →
      ∃ r, copyItems copy items is G mm new = .ok r ∧ MemoOk lo r.1 r.2.1 ∧ ∀ i, InB shape i → r.1.Copies lo (items i) (r.2.2 i)
  | [], G, mm, new, hg, hm, _, hn => ⟨(G, mm, new), rfl, hm, fun i hi => hn i hi (by simp)⟩
  | i :: is, G, mm, new, hg, hm, hin, hn => by
    obtain ⟨r, h1, h2, h3⟩ := hcopy i (hin i List.mem_cons_self) G mm hg hm
    have hg' := hgrow _ _ _ _ h1
    obtain ⟨q, h4, h5, h6⟩ := copyItems_sim hcopy hgrow is r.1 r.2.1 (fun j => if j = i then r.2.2 else new j) (hg.trans hg') h2
      (fun j hj => hin j (List.mem_cons_of_mem _ hj))
      (fun j hj hnj => by
        by_cases hji : j = i
        · rw [if_pos hji, hji]; exact h3
        · rw [if_neg hji]
          exact (hn j hj (by simp [hji, hnj])).grow hg')
    refine ⟨q, ?_, h5, h6⟩
    simp only [copyItems]
    rw [h1]
    exact h4

theorem copyTiles_sim {n : Nat} {copy : Fin n → Heap α → Memo → Res (Heap α × Memo × ArrRef α)} {H0 : Heap α} {lo : Nat} {tiles : Fin n → ArrRef α}
    (hcopy : ∀ i, ∀ (G : Heap α) (mm : Memo), H0.Grow G → MemoOk lo G mm → ∃ r, copy i G mm = .ok r ∧ MemoOk lo r.1 r.2.1 ∧ r.1.Copies lo (tiles i) r.2.2)
    (hgrow : ∀ i H mm r, copy i H mm = .ok r → H.Grow r.1) :
    ∀ (is : List (Fin n)) (G : Heap α) (mm : Memo) (new : Fin n → ArrRef α), H0.Grow G → MemoOk lo G mm →
      (∀ i, i ∉ is → G.Copies lo (tiles i) (new i)) →
      ∃ r, copyTiles copy is G mm new = .ok r ∧ MemoOk lo r.1 r.2.1 ∧ ∀ i, r.1.Copies lo (tiles i) (r.2.2 i)
  | [], G, mm, new, hg, hm, hn => ⟨(G, mm, new), rfl, hm, fun i => hn i (by simp)⟩
  | i :: is, G, mm, new, hg, hm, hn => by
    obtain ⟨r, h1, h2, h3⟩ := hcopy i G mm hg hm
    have hg' := hgrow _ _ _ _ h1
    obtain ⟨q, h4, h5, h6⟩ := copyTiles_sim hcopy hgrow is r.1 r.2.1 (fun j => if j = i then r.2.2 else new j) (hg.trans hg') h2
      (fun j hnj => by
        by_cases hji : j = i
        · rw [if_pos hji, hji]; exact h3
        · rw [if_neg hji]
          exact (hn j (by simp [hji, hnj])).grow hg')
    refine ⟨q, ?_, h5, h6⟩
    simp only [copyTiles]
    rw [h1]
    exact h4

theorem Heap.copyWith_sim {st : Heap α → Memo → Nat → Res (Heap α × Memo × Nat)} {H0 : Heap α} {P : Nat → Prop} {lo n : Nat}
    (hst : ∀ d id a, H0.IsIn P d (.stack id) a → d ≤ n → ∀ (G : Heap α) (mm : Memo), H0.Grow G → MemoOk lo G mm →
      ∃ r, st G mm id = .ok r ∧ MemoOk lo r.1 r.2.1 ∧ r.1.Copies lo (.stack id) (.stack r.2.2))
    (hgrow : ∀ H mm id r, st H mm id = .ok r → H.Grow r.1) {d : Nat} {o : ArrRef α} {a : Arr α} (h : H0.IsIn P d o a) :
    d ≤ n → ∀ (G : Heap α) (mm : Memo), H0.Grow G → MemoOk lo G mm →
      ∃ r, Heap.copyWith st o G mm = .ok r ∧ MemoOk lo r.1 r.2.1 ∧ r.1.Copies lo o r.2.2 := by
  induction h with
  | arr d a => intro _ G mm _ hm; exact ⟨_, rfl, hm, .arr a⟩
  | @stack d id s c f h1 h2 h3 h4 h5 h6 _ =>
    intro hd G mm hG hm
    obtain ⟨r, k1, k2, k3⟩ := hst _ id _ (.stack h1 h2 h3 h4 h5 h6) hd G mm hG hm
    exact ⟨(r.1, r.2.1, .stack r.2.2), by simp only [Heap.copyWith, k1]; rfl, k2, k3⟩
  | asType dt _ ih =>
    intro hd G mm hG hm
    obtain ⟨r, k1, k2, k3⟩ := ih hd G mm hG hm
    exact ⟨(r.1, r.2.1, .asType r.2.2 dt), by simp only [Heap.copyWith, k1]; rfl, k2, .asType dt k3⟩
  | maskVal v _ ih =>
    intro hd G mm hG hm
    obtain ⟨r, k1, k2, k3⟩ := ih hd G mm hG hm
    exact ⟨(r.1, r.2.1, .maskVal r.2.2 v), by simp only [Heap.copyWith, k1]; rfl, k2, .maskVal v k3⟩
  | newAxes na _ ih =>
    intro hd G mm hG hm
    obtain ⟨r, k1, k2, k3⟩ := ih hd G mm hG hm
    exact ⟨(r.1, r.2.1, .newAxes r.2.2 na), by simp only [Heap.copyWith, k1]; rfl, k2, .newAxes na k3⟩
  | bcast dd l _ ih =>
    intro hd G mm hG hm
    obtain ⟨r, k1, k2, k3⟩ := ih hd G mm hG hm
    exact ⟨(r.1, r.2.1, .bcast r.2.2 dd l), by simp only [Heap.copyWith, k1]; rfl, k2, .bcast dd l k3⟩
  | transposed axes _ ih =>
    intro hd G mm hG hm
    obtain ⟨r, k1, k2, k3⟩ := ih hd G mm hG hm
    exact ⟨(r.1, r.2.1, .transposed r.2.2 axes), by simp only [Heap.copyWith, k1]; rfl, k2, .transposed axes k3⟩
  | agg axis k _ ih =>
    intro hd G mm hG hm
    obtain ⟨r, k1, k2, k3⟩ := ih hd G mm hG hm
    exact ⟨(r.1, r.2.1, .agg r.2.2 axis k), by simp only [Heap.copyWith, k1]; rfl, k2, .agg axis k k3⟩
  | elem1 op _ ih =>
    intro hd G mm hG hm
    obtain ⟨r, k1, k2, k3⟩ := ih hd G mm hG hm
    exact ⟨(r.1, r.2.1, .elem1 r.2.2 op), by simp only [Heap.copyWith, k1]; rfl, k2, .elem1 op k3⟩
  | @mosaic d k tiles f axis h ih =>
    intro hd G mm hG hm
    obtain ⟨r, k1, k2, k3⟩ := copyTiles_sim (copy := fun i G mm => Heap.copyWith st (tiles i) G mm) (fun i G mm hG hm => ih i hd G mm hG hm)
      (fun i H mm r h => Heap.copyWith_grow hgrow _ H mm r h) (List.finRange (k + 1)) G mm tiles hG hm (fun i hi => absurd (List.mem_finRange i) hi)
    exact ⟨(r.1, r.2.1, .mosaic k r.2.2 axis), by simp only [Heap.copyWith, k1]; rfl, k2, .mosaic axis k3⟩
  | @elem2 d o o' a a' op h h' ih ih' =>
    intro hd G mm hG hm
    obtain ⟨r, k1, k2, k3⟩ := ih hd G mm hG hm
    have hg := Heap.copyWith_grow hgrow _ _ _ _ k1
    obtain ⟨q, l1, l2, l3⟩ := ih' hd r.1 r.2.1 (hG.trans hg) k2
    have hg' := Heap.copyWith_grow hgrow _ _ _ _ l1
    exact ⟨(q.1, q.2.1, .elem2 r.2.2 q.2.2 op), by simp only [Heap.copyWith, k1, bind, Except.bind, l1]; rfl, l2, .elem2 op (k3.grow hg') l3⟩

/-- `copy.deepcopy` makes a copy in new object arrays. -/
theorem Heap.deepcopy_sim (lo : Nat) : ∀ (n : Nat) (H : Heap α) (P : Nat → Prop) (memo : Memo) (d : Nat) (o : ArrRef α) (a : Arr α),
    H.IsIn P d o a → d ≤ n → MemoOk lo H memo → lo ≤ H.cells.length →
    ∃ r, H.deepcopy n memo o = .ok r ∧ MemoOk lo r.1 r.2.1 ∧ r.1.Copies lo o r.2.2 := by
  intro n
  induction n with
  | zero =>
    intro H P memo d o a h hd hm hlo
    exact Heap.copyWith_sim (n := 0) (fun d id a h hd => by cases h; omega) (fun _ _ _ _ h => by cases h) h hd H memo (Heap.Grow.refl H) hm
  | succ n ih =>
    intro H0 P memo d o a h hd hm hlo
    have hgrow : ∀ (G : Heap α) mm o r, G.deepcopy n mm o = .ok r → G.Grow r.1 := fun G mm o r h => Heap.deepcopy_grow n G mm o r h
    refine Heap.copyWith_sim (n := n + 1) ?_ (fun H mm id r h => Heap.copyStack_grow hgrow H mm id r h) h hd H0 memo (Heap.Grow.refl H0) hm
    intro d id a h hd H memo hG hm
    have hlo : lo ≤ H.cells.length := le_trans hlo hG.cells.length_le
    cases h with
    | @stack d id s c f h1 h2 h3 h4 h5 h6 =>
      unfold Heap.copyStack
      cases hlk : memo.lookup id with
      | some j => exact ⟨_, rfl, hm, hm id j hlk⟩
      | none =>
        replace h1 := prefix_get hG.objs h1
        replace h2 := prefix_get hG.cells h2
        simp only [Heap.find, h1, h2, bind, Except.bind]
        obtain ⟨r, r1, r2, r3⟩ := copyItems_sim (H0 := H) (lo := lo) (shape := c.shape) (items := c.items)
          (copy := fun G mm o => G.deepcopy n mm o)
          (fun i hi G mm hG' hmm => ih G (fun _ => True) mm d _ _ ((h6 i hi).grow (hG.trans hG') (fun _ _ _ => trivial)) (by omega) hmm
            (le_trans hlo hG'.cells.length_le)) hgrow
          (ndindex c.shape) H memo c.items (Heap.Grow.refl H) hm (fun i hi => (mem_ndindex _ _).mp hi)
          (fun i hi hn => absurd ((mem_ndindex _ _).mpr hi) hn)
        rw [r1]
        have hg0 := copyItems_grow hgrow c.items _ _ _ _ _ r1
        have hg1 : r.1.Grow ⟨(r.1.newCell ⟨c.shape, r.2.2⟩).1.cells, (r.1.newCell ⟨c.shape, r.2.2⟩).1.stackObjs ++
            [⟨(r.1.newCell ⟨c.shape, r.2.2⟩).2, s.itemShape⟩]⟩ :=
          Heap.push_grow (Heap.newCell_grow r.1 ⟨c.shape, r.2.2⟩) (le_refl _) (by simp [Heap.newCell]) _
        have hcp : (⟨(r.1.newCell ⟨c.shape, r.2.2⟩).1.cells, (r.1.newCell ⟨c.shape, r.2.2⟩).1.stackObjs ++
            [⟨(r.1.newCell ⟨c.shape, r.2.2⟩).2, s.itemShape⟩]⟩ : Heap α).Copies lo (.stack id)
            (.stack (r.1.newCell ⟨c.shape, r.2.2⟩).1.stackObjs.length) := by
          refine .stack (s' := ⟨(r.1.newCell ⟨c.shape, r.2.2⟩).2, s.itemShape⟩) (c' := ⟨c.shape, r.2.2⟩)
            (prefix_get (hg0.trans hg1).objs h1) (prefix_get (hg0.trans hg1).cells h2) (by simp) (by simp [Heap.newCell])
            (le_trans hlo hg0.cells.length_le) rfl rfl (fun i hi => (r3 i hi).grow hg1)
        refine ⟨_, rfl, fun id' j' hj => ?_, hcp⟩
        simp only [List.lookup_cons] at hj
        by_cases he : id' = id
        · subst he
          simp at hj
          rw [← hj]
          exact hcp
        · have : (id' == id) = false := by simpa using he
          rw [this] at hj
          exact (r2 id' j' hj).grow hg1

/-! ### programs -/

/-- The stacks outside `S` do not use the object arrays `C`, which exist. -/
structure Heap.Apart (C S : Nat → Prop) (H : Heap α) : Prop where
  cells : ∀ k, C k → k < H.cells.length
  objs : ∀ (id : Nat) (s : StackObj), H.stackObjs[id]? = some s → ¬ S id → ¬ C s.cell

/-- The later heap has the same stacks, and the object arrays `C` are unchanged. -/
structure Heap.Keeps (C : Nat → Prop) (H H' : Heap α) : Prop where
  objs : H.stackObjs <+: H'.stackObjs
  cells : ∀ k, C k → H'.cells[k]? = H.cells[k]?

theorem Heap.Apart.grow {C S : Nat → Prop} {H H' : Heap α} (h : H.Apart C S) (hg : H.Grow H') : H'.Apart C S ∧ H.Keeps C H' := by
  refine ⟨⟨fun k hk => lt_of_lt_of_le (h.cells k hk) hg.cells.length_le, fun id s hs hS hC => ?_⟩, hg.objs, fun k hk => prefix_get' hg.cells (h.cells k hk)⟩
  by_cases hlt : id < H.stackObjs.length
  · rw [prefix_get' hg.objs hlt] at hs
    exact h.objs id s hs hS hC
  · have := (hg.new id s hs (by omega)).1
    have := h.cells _ hC
    omega

theorem Heap.Apart.set {C S : Nat → Prop} {H : Heap α} (h : H.Apart C S) {k : Nat} (hk : ¬ C k) (c : Cell α) :
    (⟨H.cells.set k c, H.stackObjs⟩ : Heap α).Apart C S ∧ H.Keeps C ⟨H.cells.set k c, H.stackObjs⟩ := by
  refine ⟨⟨fun j hj => by simpa using h.cells j hj, fun id s hs hS => h.objs id s hs hS⟩, List.prefix_rfl, fun j hj => ?_⟩
  have : k ≠ j := fun e => hk (e ▸ hj)
  simp [this]

theorem Heap.perform_apart [Inhabited α] {C S : Nat → Prop} {n : Nat} {H H' : Heap α} (h : H.Apart C S) {op : Op α} (hop : op.Avoids C S)
    (hp : H.perform n op = .ok H') : H'.Apart C S ∧ H.Keeps C H' := by
  cases op with
  | objects c =>
    simp only [Heap.perform] at hp
    cases hp
    exact h.grow (Heap.newCell_grow _ _)
  | put cell pos value =>
    simp only [Heap.perform] at hp
    split at hp
    · cases hp
    · cases hp
      exact h.set hop _
  | wrap cell =>
    simp only [Heap.perform] at hp
    obtain ⟨r, h1, h2⟩ := bind_ok.mp hp
    cases h2
    unfold Heap.newStack at h1
    split at h1
    · cases h1
    · split at h1
      · cases h1
      · obtain ⟨s0, _, h1⟩ := bind_ok.mp h1
        obtain ⟨_, _, h1⟩ := bind_ok.mp h1
        cases h1
        refine ⟨⟨h.cells, fun id s hs hS => ?_⟩, List.prefix_append _ _, fun _ _ => rfl⟩
        change (H.stackObjs ++ [⟨cell, s0⟩])[id]? = some s at hs
        by_cases hlt : id < H.stackObjs.length
        · rw [List.getElem?_append_left hlt] at hs
          exact h.objs id s hs hS
        · rw [List.getElem?_append_right (by omega)] at hs
          cases hk : id - H.stackObjs.length with
          | zero =>
            rw [hk] at hs
            simp at hs
            rw [← hs]
            exact hop
          | succ k => rw [hk] at hs; simp at hs
  | index o keys =>
    simp only [Heap.perform] at hp
    obtain ⟨r, h1, h2⟩ := bind_ok.mp hp
    cases h2
    exact h.grow (Heap.getitem_grow n H o keys r.1 r.2 h1)
  | copy o =>
    simp only [Heap.perform] at hp
    obtain ⟨r, h1, h2⟩ := bind_ok.mp hp
    cases h2
    exact h.grow (Heap.deepcopy_grow n H [] o r h1)
  | assign id keys value =>
    simp only [Heap.perform, Heap.setitem] at hp
    obtain ⟨⟨s, c⟩, h1, hp⟩ := bind_ok.mp hp
    have hs : H.stackObjs[id]? = some s := by
      unfold Heap.find at h1
      split at h1
      · cases h1
      · rename_i hs
        split at h1
        · cases h1
        · cases h1; exact hs
    split at hp
    · cases hp
    · split at hp
      · cases hp
      · split at hp
        · cases hp
        · obtain ⟨σ, _, hp⟩ := bind_ok.mp hp
          cases hp
          exact h.set (h.objs id s hs hop) _

theorem Heap.step_apart [Inhabited α] {C S : Nat → Prop} {n : Nat} {H : Heap α} (h : H.Apart C S) {op : Op α} (hop : op.Avoids C S) :
    (H.step n op).Apart C S ∧ H.Keeps C (H.step n op) := by
  unfold Heap.step
  cases hp : H.perform n op with
  | ok H' => exact Heap.perform_apart h hop hp
  | error e => exact ⟨h, List.prefix_rfl, fun _ _ => rfl⟩

theorem Heap.run_apart [Inhabited α] {C S : Nat → Prop} {n : Nat} : ∀ (ops : List (Op α)) {H : Heap α}, H.Apart C S →
    (∀ op ∈ ops, op.Avoids C S) → (H.run n ops).Apart C S ∧ H.Keeps C (H.run n ops)
  | [], H, h, _ => ⟨h, List.prefix_rfl, fun _ _ => rfl⟩
  | op :: ops, H, h, ho => by
    obtain ⟨h1, h2⟩ := Heap.step_apart (n := n) h (ho op List.mem_cons_self)
    obtain ⟨h3, h4⟩ := Heap.run_apart (n := n) ops h1 (fun o hm => ho o (List.mem_cons_of_mem _ hm))
    exact ⟨h3, h2.objs.trans h4.objs, fun k hk => (h4.cells k hk).trans (h2.cells k hk)⟩

/-- An object whose object arrays are all in `C` is not changed by a program avoiding `C`. -/
theorem Heap.run_isIn [Inhabited α] {C S : Nat → Prop} {n d : Nat} {ops : List (Op α)} {H : Heap α} {o : ArrRef α} {a : Arr α} (h : H.Apart C S)
    (ho : ∀ op ∈ ops, op.Avoids C S) (hi : H.IsIn C d o a) : (H.run n ops).IsIn C d o a := by
  obtain ⟨_, h2⟩ := Heap.run_apart (n := n) ops h ho
  exact hi.frame (fun _ _ h _ => prefix_get h2.objs h) (fun k c hk hc => by rw [h2.cells k hk]; exact hc) (fun k hk _ => hk)

/-- What was made by `H → H'` is apart from the rest. -/
theorem Heap.Grow.apart_new {H H' : Heap α} (hv : H.Valid) (hg : H.Grow H') : H'.Apart (H.newCells H') (H.newStacks H') := by
  refine ⟨fun k hk => hk.2, fun id s hs hS hC => ?_⟩
  have hlt : id < H'.stackObjs.length := (List.getElem?_eq_some_iff.mp hs).1
  have hlt' : id < H.stackObjs.length := by
    by_contra hc
    exact hS ⟨by omega, hlt⟩
  rw [prefix_get' hg.objs hlt'] at hs
  have := hv id s hs
  have := hC.1
  omega

/-- What was there before is apart from what was made. -/
theorem Heap.Grow.apart_old {H H' : Heap α} (hg : H.Grow H') : H'.Apart (fun k => k < H.cells.length) (fun id => id < H.stackObjs.length) := by
  refine ⟨fun k hk => lt_of_lt_of_le hk hg.cells.length_le, fun id s hs hS hC => ?_⟩
  have := (hg.new id s hs (by omega)).1
  omega

/-! ### assignments -/

theorem Heap.IsIn.both {H : Heap α} {P Q : Nat → Prop} {n : Nat} {o : ArrRef α} {a : Arr α} (h : H.IsIn P n o a) :
    ∀ {d : Nat} {a' : Arr α}, H.IsIn Q d o a' → H.IsIn (fun k => P k ∧ Q k) n o a := by
  induction h with
  | arr n a => intro d a' _; exact .arr n a
  | asType dt _ ih => intro d a' h; cases h with | asType _ h => exact .asType dt (ih h)
  | maskVal v _ ih => intro d a' h; cases h with | maskVal _ h => exact .maskVal v (ih h)
  | newAxes na _ ih => intro d a' h; cases h with | newAxes _ h => exact .newAxes na (ih h)
  | bcast dd l _ ih => intro d a' h; cases h with | bcast _ _ h => exact .bcast dd l (ih h)
  | transposed axes _ ih => intro d a' h; cases h with | transposed _ h => exact .transposed axes (ih h)
  | agg axis k _ ih => intro d a' h; cases h with | agg _ _ h => exact .agg axis k (ih h)
  | elem1 op _ ih => intro d a' h; cases h with | elem1 _ h => exact .elem1 op (ih h)
  | mosaic ax _ ih => intro d a' h; cases h with | mosaic _ h => exact .mosaic ax (fun i => ih i (h i))
  | elem2 op _ _ ih ih' => intro d a' h; cases h with | elem2 _ h h' => exact .elem2 op (ih h) (ih' h')
  | stack h1 h2 h3 h4 h5 _ ih =>
    intro d a' h
    cases h with
    | stack k1 k2 k3 k4 k5 k6 =>
      rw [h1] at k1
      cases k1
      rw [h2] at k2
      cases k2
      exact .stack h1 h2 ⟨h3, k3⟩ h4 h5 (fun i hi => ih i hi (k6 i hi))

/-- An object either avoids the object array `k`, or reaches it at a smaller depth. -/
theorem Heap.IsIn.avoid_or {H : Heap α} {P : Nat → Prop} {n k : Nat} {c : Cell α} (hc : H.cells[k]? = some c) {o : ArrRef α} {a : Arr α}
    (h : H.IsIn P n o a) : H.IsIn (fun j => j ≠ k) n o a ∨ ∃ d, d < n ∧ ∀ i, InB c.shape i → ∃ b, H.IsIn P d (c.items i) b := by
  induction h with
  | arr n a => exact Or.inl (.arr n a)
  | asType dt _ ih => exact ih.imp_left (.asType dt)
  | maskVal v _ ih => exact ih.imp_left (.maskVal v)
  | newAxes na _ ih => exact ih.imp_left (.newAxes na)
  | bcast dd l _ ih => exact ih.imp_left (.bcast dd l)
  | transposed axes _ ih => exact ih.imp_left (.transposed axes)
  | agg axis k _ ih => exact ih.imp_left (.agg axis k)
  | elem1 op _ ih => exact ih.imp_left (.elem1 op)
  | @mosaic n k' tiles f axis _ ih =>
    by_cases hall : ∀ i : Fin (k' + 1), H.IsIn (fun j => j ≠ k) n (tiles i) (f i)
    · exact Or.inl (.mosaic axis hall)
    · push Not at hall
      obtain ⟨i, hn⟩ := hall
      exact Or.inr ((ih i).resolve_left hn)
  | elem2 op _ _ ih ih' =>
    rcases ih with h | h
    · rcases ih' with h' | h'
      · exact Or.inl (.elem2 op h h')
      · exact Or.inr h'
    · exact Or.inr h
  | @stack n id s c' f h1 h2 h3 h4 h5 h6 ih =>
    by_cases hk : s.cell = k
    · rw [hk, hc] at h2
      cases h2
      exact Or.inr ⟨n, by omega, fun i hi => ⟨f i, h6 i hi⟩⟩
    · by_cases hall : ∀ i, InB c'.shape i → H.IsIn (fun j => j ≠ k) n (c'.items i) (f i)
      · exact Or.inl (.stack h1 h2 hk h4 h5 hall)
      · push Not at hall
        obtain ⟨i, hi, hn⟩ := hall
        rcases ih i hi with h | ⟨d, h1, h2⟩
        · exact absurd h hn
        · exact Or.inr ⟨d, by omega, h2⟩

/-- The items of an object array do not reach the object array itself. -/
theorem Heap.items_avoid {H : Heap α} {P : Nat → Prop} {k : Nat} {c : Cell α} (hc : H.cells[k]? = some c) : ∀ (n : Nat),
    (∀ i, InB c.shape i → ∃ b, H.IsIn P n (c.items i) b) → ∀ i, InB c.shape i → ∃ d b, H.IsIn (fun j => j ≠ k) d (c.items i) b := by
  intro n
  induction n using Nat.strong_induction_on with
  | _ n ih =>
    intro h i hi
    obtain ⟨b, hb⟩ := h i hi
    rcases hb.avoid_or hc with h1 | ⟨d, h1, h2⟩
    · exact ⟨n, b, h1⟩
    · exact ih d h1 h2 i hi

theorem selSrc_ints {keys : List Key} {sh : List Nat} {σ : List Sel} (h : resolve keys sh = .ok σ) (hk : keys.all Key.isScalar = true) :
    InB sh (selSrc σ []) := by
  refine selSrc_inB h [] ?_
  have : selShape σ = [] := by
    induction keys generalizing sh σ with
    | nil => obtain ⟨_, rfl⟩ := resolve_nil_iff.mp h; rfl
    | cons k ks ih =>
      simp only [List.all_cons, Bool.and_eq_true] at hk
      obtain ⟨i, rfl⟩ := scalar_int hk.1
      obtain ⟨_, _, t, τ, rfl, rfl, h1, h2⟩ := (resolve_cons_iff rfl).mp h
      simp only [resolve1] at h1
      split at h1
      · cases h1
        exact (ih h2 hk.2 : selShape τ = [])
      · cases h1
  rw [this]
  trivial

/-- `stack[keys] = value` replaces exactly the addressed item; what does not use the object array is unchanged. -/
theorem Heap.setitem_ok {H : Heap α} {id n d : Nat} {P : Nat → Prop} {ss : List Nat} {f : List Nat → Arr α} {s : StackObj} {keys : List Key}
    {σ : List Sel} {v : ArrRef α} {b : Arr α} (h : H.IsIn P n (.stack id) (.stack ss f)) (hs : H.stackObjs[id]? = some s)
    (hk : keys.all Key.isScalar = true) (hne : keys ≠ []) (hσ : resolve keys ss = .ok σ) (hv : H.IsIn (fun j => j ≠ s.cell) d v b)
    (hb : b.shape = .ok s.itemShape) :
    ∃ H', H.setitem id keys v = .ok H' ∧ H'.Is (.stack id) (.stack ss (fun i => if i = selSrc σ [] then b else f i)) ∧
      ∀ o a d, H.IsIn (fun j => j ≠ s.cell) d o a → H'.IsIn (fun j => j ≠ s.cell) d o a := by
  cases h with
  | @stack n id s' c f h1 h2 h3 h4 h5 h6 =>
    rw [hs] at h1
    cases h1
    have hex : Exact keys := fun k hk' => by
      obtain ⟨i, rfl⟩ := scalar_int (List.all_eq_true.mp hk k hk')
      exact ⟨rfl, rfl⟩
    have hl := (resolve_length hex hσ).1
    set H' : Heap α := ⟨H.cells.set s.cell ⟨c.shape, fun j => if j = selSrc σ [] then v else c.items j⟩, H.stackObjs⟩ with hH'
    have hfr : ∀ o a d, H.IsIn (fun j => j ≠ s.cell) d o a → H'.IsIn (fun j => j ≠ s.cell) d o a := by
      intro o a d ho
      refine ho.frame (fun _ _ h _ => h) (fun k c hk hc => ?_) (fun k hk _ => hk)
      simp only [hH', List.getElem?_set]
      rw [if_neg (fun e => hk e.symm)]
      exact hc
    have hit : ∀ i, InB c.shape i → H'.IsIn (fun j => j ≠ s.cell) n (c.items i) (f i) := by
      intro i hi
      obtain ⟨d', b', hb'⟩ := Heap.items_avoid h2 n (fun i hi => ⟨f i, h6 i hi⟩) i hi
      exact hfr _ _ _ (((h6 i hi).both hb').mono (fun k hk _ => hk.2))
    refine ⟨H', ?_, ⟨max n d + 1, ?_⟩, hfr⟩
    · unfold Heap.setitem
      simp only [Heap.find, hs, h2, bind, Except.bind]
      rw [if_neg (by simp [hl]), if_neg (by simp [hk]), if_neg (by simpa using hne), hσ]
      rfl
    · have hlt : s.cell < H.cells.length := (List.getElem?_eq_some_iff.mp h2).1
      have hfin : H'.IsIn (fun _ => True) (max n d + 1) (.stack id) (.stack (Cell.mk c.shape fun j => if j = selSrc σ [] then v else c.items j).shape
          (fun i => if i = selSrc σ [] then b else f i)) := by
        refine .stack (s := s) hs (by simp [hH', hlt]) trivial h4 (fun i hi => ?_) (fun i hi => ?_)
        · split
          · exact hb
          · exact h5 i hi
        · dsimp only
          split
          · exact ((hfr _ _ _ hv).le (le_max_right _ _)).mono (fun _ _ _ => trivial)
          · exact ((hit i hi).le (le_max_left _ _)).mono (fun _ _ _ => trivial)
      exact hfin

end Biggus

import Verif.Proofs.MutableRun
/-
Deep copies keep the sharing of stacks.
-/
namespace Biggus

variable {α : Type}

/-! ### no stack is inside itself -/

theorem Heap.Part.isIn {H : Heap α} {o o' : ArrRef α} (h : H.Part o o') {P : Nat → Prop} {n : Nat} {a : Arr α} (hi : H.IsIn P n o a) :
    ∃ b, H.IsIn P n o' b := by
  cases h with
  | item h1 h2 hb =>
    cases hi with
    | stack k1 k2 _ _ _ k6 =>
      rw [h1] at k1; cases k1
      rw [h2] at k2; cases k2
      exact ⟨_, (k6 _ hb).succ⟩
  | asType => cases hi with | asType _ h => exact ⟨_, h⟩
  | maskVal => cases hi with | maskVal _ h => exact ⟨_, h⟩
  | newAxes => cases hi with | newAxes _ h => exact ⟨_, h⟩
  | bcast => cases hi with | bcast _ _ h => exact ⟨_, h⟩
  | transposed => cases hi with | transposed _ h => exact ⟨_, h⟩
  | agg => cases hi with | agg _ _ h => exact ⟨_, h⟩
  | elem1 => cases hi with | elem1 _ h => exact ⟨_, h⟩
  | tile t ax i => cases hi with | mosaic _ h => exact ⟨_, h i⟩
  | left => cases hi with | elem2 _ h h' => exact ⟨_, h⟩
  | right => cases hi with | elem2 _ h h' => exact ⟨_, h'⟩

theorem Heap.Within.isIn {H : Heap α} {o o' : ArrRef α} (h : H.Within o o') {P : Nat → Prop} {n : Nat} {a : Arr α} (hi : H.IsIn P n o a) :
    ∃ b, H.IsIn P n o' b := by
  induction h with
  | refl => exact ⟨a, hi⟩
  | tail _ hp ih =>
    obtain ⟨b, hb⟩ := ih
    exact hp.isIn hb

theorem Heap.not_inside {H : Heap α} {P : Nat → Prop} {id : Nat} {s : StackObj} {c : Cell α} {i : List Nat} (h1 : H.stackObjs[id]? = some s)
    (h2 : H.cells[s.cell]? = some c) (hi : InB c.shape i) : ∀ (n : Nat) (a : Arr α), H.IsIn P n (.stack id) a → ¬ H.Uses (c.items i) id := by
  intro n
  induction n with
  | zero => intro a h; cases h
  | succ n ih =>
    intro a h hu
    cases h with
    | stack k1 k2 _ _ _ k6 =>
      rw [h1] at k1; cases k1
      rw [h2] at k2; cases k2
      obtain ⟨b, hb⟩ := Heap.Within.isIn hu (k6 _ hi)
      exact ih b hb hu

/-! ### the memo is an isomorphism -/

/-- The stacks that occur in an expression. -/
def ArrRef.tops : ArrRef α → Nat → Prop
  | .arr _, _ => False
  | .stack id, k => k = id
  | .asType o _, k => o.tops k
  | .maskVal o _, k => o.tops k
  | .newAxes o _, k => o.tops k
  | .bcast o _ _, k => o.tops k
  | .transposed o _, k => o.tops k
  | .agg o _ _, k => o.tops k
  | .elem1 o _, k => o.tops k
  | .mosaic _ tiles _, k => ∃ i, (tiles i).tops k
  | .elem2 o o' _, k => o.tops k ∨ o'.tops k

/-- The new number of a stack. -/
def memoFun (mm : Memo) (id : Nat) : Nat := (mm.lookup id).getD 0

def InMemo (mm : Memo) (o : ArrRef α) : Prop := ∀ id, o.tops id → ∃ j, mm.lookup id = some j

def MemoExt (mm mm' : Memo) : Prop := ∀ id j, mm.lookup id = some j → mm'.lookup id = some j

theorem rename_ext {mm mm' : Memo} (he : MemoExt mm mm') (o : ArrRef α) : InMemo mm o → o.rename (memoFun mm') = o.rename (memoFun mm) := by
  induction o with
  | arr a => intro _; rfl
  | stack id =>
    intro h
    obtain ⟨j, hj⟩ := h id rfl
    simp [ArrRef.rename, memoFun, hj, he id j hj]
  | asType o dt ih => intro h; simp only [ArrRef.rename]; rw [ih h]
  | maskVal o v ih => intro h; simp only [ArrRef.rename]; rw [ih h]
  | newAxes o na ih => intro h; simp only [ArrRef.rename]; rw [ih h]
  | bcast o dd l ih => intro h; simp only [ArrRef.rename]; rw [ih h]
  | transposed o axes ih => intro h; simp only [ArrRef.rename]; rw [ih h]
  | agg o axis k ih => intro h; simp only [ArrRef.rename]; rw [ih h]
  | elem1 o op ih => intro h; simp only [ArrRef.rename]; rw [ih h]
  | mosaic n tiles axis ih =>
    intro h
    simp only [ArrRef.rename]
    congr 1
    funext i
    exact ih i (fun id hid => h id ⟨i, hid⟩)
  | elem2 o o' op ih ih' =>
    intro h
    simp only [ArrRef.rename]
    rw [ih (fun id hid => h id (Or.inl hid)), ih' (fun id hid => h id (Or.inr hid))]

theorem InMemo.ext {mm mm' : Memo} {o : ArrRef α} (h : InMemo mm o) (he : MemoExt mm mm') : InMemo mm' o := fun id hid => by
  obtain ⟨j, hj⟩ := h id hid
  exact ⟨j, he id j hj⟩

/-- The entries of the memo: each is a copy of an old stack, in the new part of the heap, with the items renamed. -/
structure MemoIso (H0 G : Heap α) (mm : Memo) : Prop where
  entry : ∀ id j, mm.lookup id = some j → H0.stackObjs.length ≤ j ∧ ∃ s c s' c', H0.stackObjs[id]? = some s ∧ H0.cells[s.cell]? = some c ∧
    G.stackObjs[j]? = some s' ∧ G.cells[s'.cell]? = some c' ∧ H0.cells.length ≤ s'.cell ∧ s'.itemShape = s.itemShape ∧ c'.shape = c.shape ∧
    ∀ i, InB c.shape i → c'.items i = (c.items i).rename (memoFun mm) ∧ InMemo mm (c.items i)
  inj : ∀ id id' j j' s s', mm.lookup id = some j → mm.lookup id' = some j' → G.stackObjs[j]? = some s → G.stackObjs[j']? = some s' →
    s.cell = s'.cell → id = id'

theorem MemoIso.grow {H0 G G' : Heap α} {mm : Memo} (h : MemoIso H0 G mm) (hg : G.Grow G') : MemoIso H0 G' mm := by
  refine ⟨fun id j hj => ?_, fun id id' j j' s s' h1 h2 h3 h4 h5 => ?_⟩
  · obtain ⟨k0, s, c, s', c', k1, k2, k3, k4, k5⟩ := h.entry id j hj
    exact ⟨k0, s, c, s', c', k1, k2, prefix_get hg.objs k3, prefix_get hg.cells k4, k5⟩
  · obtain ⟨_, _, _, t, _, _, _, k3, _⟩ := h.entry id j h1
    obtain ⟨_, _, _, t', _, _, _, k3', _⟩ := h.entry id' j' h2
    rw [prefix_get hg.objs k3] at h3; cases h3
    rw [prefix_get hg.objs k3'] at h4; cases h4
    exact h.inj id id' j j' _ _ h1 h2 k3 k3' h5

/-- What one call of `deepcopy` does to the memo. -/
structure CopyPost (H0 : Heap α) (mm : Memo) (U : Nat → Prop) (G' : Heap α) (mm' : Memo) : Prop where
  iso : MemoIso H0 G' mm'
  ext : MemoExt mm mm'
  new : ∀ id, mm'.lookup id ≠ none → mm.lookup id ≠ none ∨ U id

theorem copyItems_iso {H0 : Heap α} {copy : Heap α → Memo → ArrRef α → Res (Heap α × Memo × ArrRef α)} {shape : List Nat} {items : List Nat → ArrRef α}
    (hcopy : ∀ i, InB shape i → ∀ (G : Heap α) (mm : Memo) r, H0.Grow G → MemoIso H0 G mm → copy G mm (items i) = .ok r →
      CopyPost H0 mm (H0.Uses (items i)) r.1 r.2.1 ∧ r.2.2 = (items i).rename (memoFun r.2.1) ∧ InMemo r.2.1 (items i))
    (hgrow : ∀ H mm o r, copy H mm o = .ok r → H.Grow r.1) :
    ∀ (is : List (List Nat)) (G : Heap α) (mm : Memo) (new : List Nat → ArrRef α) r, H0.Grow G → MemoIso H0 G mm → (∀ i ∈ is, InB shape i) →
      (∀ i, InB shape i → i ∉ is → new i = (items i).rename (memoFun mm) ∧ InMemo mm (items i)) →
      copyItems copy items is G mm new = .ok r →
      CopyPost H0 mm (fun k => ∃ i, InB shape i ∧ H0.Uses (items i) k) r.1 r.2.1 ∧
      ∀ i, InB shape i → r.2.2 i = (items i).rename (memoFun r.2.1) ∧ InMemo r.2.1 (items i)
  | [], G, mm, new, r, hg, hm, _, hn, h => by
    simp only [copyItems] at h
    cases h
    exact ⟨⟨hm, fun _ _ h => h, fun _ h => Or.inl h⟩, fun i hi => hn i hi (by simp)⟩
  | i :: is, G, mm, new, r, hg, hm, hin, hn, h => by
    simp only [copyItems] at h
    obtain ⟨p, h1, h2⟩ := bind_ok.mp h
    obtain ⟨q, k1, k2⟩ := hcopy i (hin i List.mem_cons_self) G mm p hg hm h1
    have hg' := hgrow _ _ _ _ h1
    obtain ⟨e1, e2⟩ := copyItems_iso hcopy hgrow is p.1 p.2.1 (fun j => if j = i then p.2.2 else new j) r (hg.trans hg') q.iso
      (fun j hj => hin j (List.mem_cons_of_mem _ hj))
      (fun j hj hnj => by
        by_cases hji : j = i
        · rw [if_pos hji, hji]; exact ⟨k1, k2⟩
        · rw [if_neg hji]
          obtain ⟨a1, a2⟩ := hn j hj (by simp [hji, hnj])
          exact ⟨by rw [a1, rename_ext q.ext _ a2], a2.ext q.ext⟩) h2
    refine ⟨⟨e1.iso, fun id j hj => e1.ext id j (q.ext id j hj), fun id hid => ?_⟩, e2⟩
    rcases e1.new id hid with h | h
    · rcases q.new id h with h | h
      · exact Or.inl h
      · exact Or.inr ⟨i, hin i List.mem_cons_self, h⟩
    · exact Or.inr h

theorem copyTiles_iso {H0 : Heap α} {n : Nat} {copy : Fin n → Heap α → Memo → Res (Heap α × Memo × ArrRef α)} {tiles : Fin n → ArrRef α}
    (hcopy : ∀ i, ∀ (G : Heap α) (mm : Memo) r, H0.Grow G → MemoIso H0 G mm → copy i G mm = .ok r →
      CopyPost H0 mm (H0.Uses (tiles i)) r.1 r.2.1 ∧ r.2.2 = (tiles i).rename (memoFun r.2.1) ∧ InMemo r.2.1 (tiles i))
    (hgrow : ∀ i H mm r, copy i H mm = .ok r → H.Grow r.1) :
    ∀ (is : List (Fin n)) (G : Heap α) (mm : Memo) (new : Fin n → ArrRef α) r, H0.Grow G → MemoIso H0 G mm →
      (∀ i, i ∉ is → new i = (tiles i).rename (memoFun mm) ∧ InMemo mm (tiles i)) →
      copyTiles copy is G mm new = .ok r →
      CopyPost H0 mm (fun k => ∃ i, H0.Uses (tiles i) k) r.1 r.2.1 ∧
      ∀ i, r.2.2 i = (tiles i).rename (memoFun r.2.1) ∧ InMemo r.2.1 (tiles i)
  | [], G, mm, new, r, hg, hm, hn, h => by
    simp only [copyTiles] at h
    cases h
    exact ⟨⟨hm, fun _ _ h => h, fun _ h => Or.inl h⟩, fun i => hn i (by simp)⟩
  | i :: is, G, mm, new, r, hg, hm, hn, h => by
    simp only [copyTiles] at h
    obtain ⟨p, h1, h2⟩ := bind_ok.mp h
    obtain ⟨q, k1, k2⟩ := hcopy i G mm p hg hm h1
    have hg' := hgrow _ _ _ _ h1
    obtain ⟨e1, e2⟩ := copyTiles_iso hcopy hgrow is p.1 p.2.1 (fun j => if j = i then p.2.2 else new j) r (hg.trans hg') q.iso
      (fun j hnj => by
        by_cases hji : j = i
        · rw [if_pos hji, hji]; exact ⟨k1, k2⟩
        · rw [if_neg hji]
          obtain ⟨a1, a2⟩ := hn j (by simp [hji, hnj])
          exact ⟨by rw [a1, rename_ext q.ext _ a2], a2.ext q.ext⟩) h2
    refine ⟨⟨e1.iso, fun id j hj => e1.ext id j (q.ext id j hj), fun id hid => ?_⟩, e2⟩
    rcases e1.new id hid with h | h
    · rcases q.new id h with h | h
      · exact Or.inl h
      · exact Or.inr ⟨i, h⟩
    · exact Or.inr h

theorem Heap.copyWith_iso {H0 : Heap α} {st : Heap α → Memo → Nat → Res (Heap α × Memo × Nat)} {n : Nat}
    (hst : ∀ d id a, H0.IsIn (fun _ => True) d (.stack id) a → d ≤ n → ∀ (G : Heap α) (mm : Memo) r, H0.Grow G → MemoIso H0 G mm → st G mm id = .ok r →
      CopyPost H0 mm (H0.Uses (.stack id)) r.1 r.2.1 ∧ r.2.2 = memoFun r.2.1 id ∧ ∃ j, r.2.1.lookup id = some j)
    (hgrow : ∀ H mm id r, st H mm id = .ok r → H.Grow r.1) {d : Nat} {o : ArrRef α} {a : Arr α} (h : H0.IsIn (fun _ => True) d o a) :
    d ≤ n → ∀ (G : Heap α) (mm : Memo) r, H0.Grow G → MemoIso H0 G mm → Heap.copyWith st o G mm = .ok r →
      CopyPost H0 mm (H0.Uses o) r.1 r.2.1 ∧ r.2.2 = o.rename (memoFun r.2.1) ∧ InMemo r.2.1 o := by
  have part : ∀ {o o' : ArrRef α} {mm : Memo} {G : Heap α} {mm' : Memo}, H0.Part o o' → CopyPost H0 mm (H0.Uses o') G mm' → CopyPost H0 mm (H0.Uses o) G mm' :=
    fun hp h => ⟨h.iso, h.ext, fun id hid => (h.new id hid).imp_right (Relation.ReflTransGen.head hp)⟩
  induction h with
  | arr d a =>
    intro _ G mm r hg hm hr
    simp only [Heap.copyWith] at hr
    cases hr
    exact ⟨⟨hm, fun _ _ h => h, fun _ h => Or.inl h⟩, rfl, fun id h => h.elim⟩
  | @stack d id s c f h1 h2 h3 h4 h5 h6 _ =>
    intro hd G mm r hg hm hr
    simp only [Heap.copyWith] at hr
    obtain ⟨p, hp, hr⟩ := bind_ok.mp hr
    cases hr
    obtain ⟨k1, k2, k3⟩ := hst _ id _ (.stack h1 h2 h3 h4 h5 h6) hd G mm p hg hm hp
    exact ⟨k1, by simp only [ArrRef.rename]; rw [← k2], fun k hk => by cases hk; exact k3⟩
  | asType dt h ih =>
    intro hd G mm r hg hm hr
    simp only [Heap.copyWith] at hr
    obtain ⟨p, h1, hr⟩ := bind_ok.mp hr
    cases hr
    obtain ⟨k1, k2, k3⟩ := ih hd G mm p hg hm h1
    exact ⟨part (.asType _ _) k1, by simp only [ArrRef.rename]; rw [← k2], k3⟩
  | maskVal v h ih =>
    intro hd G mm r hg hm hr
    simp only [Heap.copyWith] at hr
    obtain ⟨p, h1, hr⟩ := bind_ok.mp hr
    cases hr
    obtain ⟨k1, k2, k3⟩ := ih hd G mm p hg hm h1
    exact ⟨part (.maskVal _ _) k1, by simp only [ArrRef.rename]; rw [← k2], k3⟩
  | newAxes na h ih =>
    intro hd G mm r hg hm hr
    simp only [Heap.copyWith] at hr
    obtain ⟨p, h1, hr⟩ := bind_ok.mp hr
    cases hr
    obtain ⟨k1, k2, k3⟩ := ih hd G mm p hg hm h1
    exact ⟨part (.newAxes _ _) k1, by simp only [ArrRef.rename]; rw [← k2], k3⟩
  | bcast dd l h ih =>
    intro hd G mm r hg hm hr
    simp only [Heap.copyWith] at hr
    obtain ⟨p, h1, hr⟩ := bind_ok.mp hr
    cases hr
    obtain ⟨k1, k2, k3⟩ := ih hd G mm p hg hm h1
    exact ⟨part (.bcast _ _ _) k1, by simp only [ArrRef.rename]; rw [← k2], k3⟩
  | transposed axes h ih =>
    intro hd G mm r hg hm hr
    simp only [Heap.copyWith] at hr
    obtain ⟨p, h1, hr⟩ := bind_ok.mp hr
    cases hr
    obtain ⟨k1, k2, k3⟩ := ih hd G mm p hg hm h1
    exact ⟨part (.transposed _ _) k1, by simp only [ArrRef.rename]; rw [← k2], k3⟩
  | agg axis k h ih =>
    intro hd G mm r hg hm hr
    simp only [Heap.copyWith] at hr
    obtain ⟨p, h1, hr⟩ := bind_ok.mp hr
    cases hr
    obtain ⟨k1, k2, k3⟩ := ih hd G mm p hg hm h1
    exact ⟨part (.agg _ _ _) k1, by simp only [ArrRef.rename]; rw [← k2], k3⟩
  | elem1 op h ih =>
    intro hd G mm r hg hm hr
    simp only [Heap.copyWith] at hr
    obtain ⟨p, h1, hr⟩ := bind_ok.mp hr
    cases hr
    obtain ⟨k1, k2, k3⟩ := ih hd G mm p hg hm h1
    exact ⟨part (.elem1 _ _) k1, by simp only [ArrRef.rename]; rw [← k2], k3⟩
  | @mosaic d k tiles f axis h ih =>
    intro hd G mm r hg hm hr
    simp only [Heap.copyWith] at hr
    obtain ⟨p, h1, hr⟩ := bind_ok.mp hr
    cases hr
    obtain ⟨k1, k2⟩ := copyTiles_iso (copy := fun i G mm => Heap.copyWith st (tiles i) G mm) (fun i G mm r hg hm hr => ih i hd G mm r hg hm hr)
      (fun i H mm r h => Heap.copyWith_grow hgrow _ H mm r h) (List.finRange (k + 1)) G mm tiles p hg hm (fun i hi => absurd (List.mem_finRange i) hi) h1
    refine ⟨⟨k1.iso, k1.ext, fun id hid => (k1.new id hid).imp_right (fun ⟨i, hi⟩ => Relation.ReflTransGen.head (.tile _ _ i) hi)⟩, ?_, fun id ⟨i, hi⟩ => (k2 i).2 id hi⟩
    simp only [ArrRef.rename]
    congr 1
    funext i
    exact (k2 i).1
  | @elem2 d o o' a a' op h h' ih ih' =>
    intro hd G mm r hg hm hr
    simp only [Heap.copyWith] at hr
    obtain ⟨p, h1, hr⟩ := bind_ok.mp hr
    obtain ⟨q, h2, hr⟩ := bind_ok.mp hr
    cases hr
    obtain ⟨k1, k2, k3⟩ := ih hd G mm p hg hm h1
    obtain ⟨l1, l2, l3⟩ := ih' hd p.1 p.2.1 q (hg.trans (Heap.copyWith_grow hgrow _ _ _ _ h1)) k1.iso h2
    refine ⟨⟨l1.iso, fun id j hj => l1.ext id j (k1.ext id j hj), fun id hid => ?_⟩, ?_, ?_⟩
    · rcases l1.new id hid with h | h
      · exact (k1.new id h).imp_right (Relation.ReflTransGen.head (.left _ _ _))
      · exact Or.inr (Relation.ReflTransGen.head (.right _ _ _) h)
    · simp only [ArrRef.rename]
      rw [← l2, k2, rename_ext l1.ext _ k3]
    · rintro id (hid | hid)
      · exact k3.ext l1.ext id hid
      · exact l3 id hid

theorem Heap.deepcopy_iso (H0 : Heap α) : ∀ (n : Nat) (G : Heap α) (mm : Memo) (d : Nat) (o : ArrRef α) (a : Arr α) r,
    H0.IsIn (fun _ => True) d o a → d ≤ n → H0.Grow G → MemoIso H0 G mm → G.deepcopy n mm o = .ok r →
    CopyPost H0 mm (H0.Uses o) r.1 r.2.1 ∧ r.2.2 = o.rename (memoFun r.2.1) ∧ InMemo r.2.1 o := by
  intro n
  induction n with
  | zero =>
    intro G mm d o a r h hd hg hm hr
    exact Heap.copyWith_iso (n := 0) (fun d id a h hd => by cases h; omega) (fun _ _ _ _ h => by cases h) h hd G mm r hg hm hr
  | succ n ih =>
    intro G mm d o a r h hd hg hm hr
    have hgrow : ∀ (G : Heap α) mm o r, G.deepcopy n mm o = .ok r → G.Grow r.1 := fun G mm o r h => Heap.deepcopy_grow n G mm o r h
    refine Heap.copyWith_iso (n := n + 1) ?_ (fun H mm id r h => Heap.copyStack_grow hgrow H mm id r h) h hd G mm r hg hm hr
    clear h hr hd hg hm
    intro d id a h hd G mm r hg hm hr
    cases h with
    | @stack d id s c f h1 h2 h3 h4 h5 h6 =>
      unfold Heap.copyStack at hr
      cases hlk : mm.lookup id with
      | some j =>
        rw [hlk] at hr
        cases hr
        exact ⟨⟨hm, fun _ _ h => h, fun _ h => Or.inl h⟩, by simp [memoFun, hlk], ⟨j, hlk⟩⟩
      | none =>
        rw [hlk] at hr
        simp only [Heap.find, prefix_get hg.objs h1, prefix_get hg.cells h2, bind, Except.bind] at hr
        split at hr
        · cases hr
        rename_i p hp
        have hgrow : ∀ (G : Heap α) mm o r, G.deepcopy n mm o = .ok r → G.Grow r.1 := fun G mm o r h => Heap.deepcopy_grow n G mm o r h
        obtain ⟨e1, e2⟩ := copyItems_iso (H0 := H0) (shape := c.shape) (items := c.items) (copy := fun G mm o => G.deepcopy n mm o)
          (fun i hi G mm r hG hmm hr => ih G mm d _ _ r (h6 i hi) (by omega) hG hmm hr) hgrow
          (ndindex c.shape) G mm c.items p hg hm (fun i hi => (mem_ndindex _ _).mp hi)
          (fun i hi hn => absurd ((mem_ndindex _ _).mpr hi) hn) hp
        have hg0 := copyItems_grow hgrow c.items _ _ _ _ _ hp
        have hnew : p.2.1.lookup id = none := by
          by_contra hne
          rcases e1.new id hne with h | ⟨i, hi, h⟩
          · exact h hlk
          · exact Heap.not_inside h1 h2 hi (d + 1) _ (.stack (P := fun _ => True) h1 h2 h3 h4 h5 h6) h
        cases hr
        set N := p.1.stackObjs.length with hN
        set G' : Heap α := ⟨(p.1.newCell ⟨c.shape, p.2.2⟩).1.cells, (p.1.newCell ⟨c.shape, p.2.2⟩).1.stackObjs ++
            [⟨(p.1.newCell ⟨c.shape, p.2.2⟩).2, s.itemShape⟩]⟩ with hG'
        have hg1 : p.1.Grow G' := Heap.push_grow (Heap.newCell_grow p.1 ⟨c.shape, p.2.2⟩) (le_refl _) (by simp [Heap.newCell]) _
        have hlook : ∀ k, List.lookup k ((id, N) :: p.2.1) = if k = id then some N else p.2.1.lookup k := by
          intro k
          rw [List.lookup_cons]
          by_cases hk : k = id
          · simp [hk]
          · have : (k == id) = false := by simpa using hk
            simp [this, hk]
        have hext : MemoExt p.2.1 ((id, N) :: p.2.1) := by
          intro k j hj
          rw [hlook, if_neg (by rintro rfl; rw [hnew] at hj; cases hj)]
          exact hj
        have hobj : G'.stackObjs[N]? = some ⟨p.1.cells.length, s.itemShape⟩ := by simp [hG', Heap.newCell, hN]
        have hcell : G'.cells[p.1.cells.length]? = some ⟨c.shape, p.2.2⟩ := by simp [hG', Heap.newCell]
        have hiso := e1.iso.grow hg1
        show CopyPost H0 mm (H0.Uses (.stack id)) G' ((id, N) :: p.2.1) ∧
          N = memoFun ((id, N) :: p.2.1) id ∧ ∃ j, List.lookup id ((id, N) :: p.2.1) = some j
        refine ⟨⟨⟨?_, ?_⟩, ?_, ?_⟩, ?_, ?_⟩
        · intro k j hj
          rw [hlook] at hj
          split at hj
          · rename_i hk
            cases hj
            subst hk
            refine ⟨(hg.trans hg0).objs.length_le, s, c, _, _, h1, h2, hobj, hcell, (hg.trans hg0).cells.length_le, rfl, rfl, fun i hi => ?_⟩
            obtain ⟨a1, a2⟩ := e2 i hi
            exact ⟨by rw [rename_ext hext _ a2]; exact a1, a2.ext hext⟩
          · obtain ⟨k0, t, u, t', u', k1, k2, k3, k4, k5, k6, k7, k8⟩ := hiso.entry k j hj
            refine ⟨k0, t, u, t', u', k1, k2, k3, k4, k5, k6, k7, fun i hi => ?_⟩
            obtain ⟨a1, a2⟩ := k8 i hi
            exact ⟨by rw [rename_ext hext _ a2]; exact a1, a2.ext hext⟩
        · have hold : ∀ k j t, p.2.1.lookup k = some j → G'.stackObjs[j]? = some t → t.cell < p.1.cells.length := by
            intro k j t hj ht
            obtain ⟨_, _, _, t', _, _, _, k3, k4, _⟩ := e1.iso.entry k j hj
            rw [prefix_get hg1.objs k3] at ht
            cases ht
            by_contra hc
            rw [List.getElem?_eq_none (by omega)] at k4
            cases k4
          intro k k' j j' t t' hj hj' ht ht' he
          rw [hlook] at hj hj'
          split at hj <;> split at hj'
          · rename_i a b; rw [a, b]
          · cases hj
            rw [hobj] at ht; cases ht
            have := hold k' j' t' hj' ht'
            simp only at he
            omega
          · cases hj'
            rw [hobj] at ht'; cases ht'
            have := hold k j t hj ht
            simp only at he
            omega
          · exact hiso.inj k k' j j' t t' hj hj' ht ht' he
        · intro k j hj
          exact hext k j (e1.ext k j hj)
        · intro k hk
          rw [hlook] at hk
          split at hk
          · rename_i hk'
            subst hk'
            exact Or.inr Relation.ReflTransGen.refl
          · rcases e1.new k hk with h | ⟨i, hi, h⟩
            · exact Or.inl h
            · exact Or.inr (Relation.ReflTransGen.head (.item h1 h2 hi) h)
        · simp [memoFun, hlook]
        · exact ⟨N, by rw [hlook, if_pos rfl]⟩

/-- Everything used by an object in the memo is in the memo. -/
theorem MemoIso.uses {H0 G : Heap α} {mm : Memo} (hm : MemoIso H0 G mm) {o : ArrRef α} {k : Nat} (h : H0.Uses o k) :
    InMemo mm o → ∃ j, mm.lookup k = some j := by
  have key : ∀ o', H0.Within o o' → InMemo mm o → InMemo mm o' := by
    intro o' h hi
    induction h with
    | refl => exact hi
    | tail _ hp ih =>
      cases hp with
      | @item id s c i h1 h2 hb =>
        obtain ⟨j, hj⟩ := ih id rfl
        obtain ⟨_, s', c', _, _, k1, k2, _, _, _, _, _, k8⟩ := hm.entry id j hj
        rw [h1] at k1; cases k1
        rw [h2] at k2; cases k2
        exact (k8 i hb).2
      | asType => exact ih
      | maskVal => exact ih
      | newAxes => exact ih
      | bcast => exact ih
      | transposed => exact ih
      | agg => exact ih
      | elem1 => exact ih
      | tile t ax i => exact fun id hid => ih id ⟨i, hid⟩
      | left => exact fun id hid => ih id (Or.inl hid)
      | right => exact fun id hid => ih id (Or.inr hid)
  exact fun hi => key _ h hi k rfl

end Biggus

import Verif.Props.Exact
import Verif.Props.Containers2
/-
C12, exactly: what a stack gives for any keys on its stack dimensions.
-/
namespace Biggus
open Spec

variable {α V : Type}

theorem bcastLen_zero : ∀ {l : List Nat} {L : Nat}, bcastLen l = some L → 0 ∈ l → L = 0
  | [], _, _, h0 => by cases h0
  | n :: ns, L, h, h0 => by
    unfold bcastLen at h
    cases hm : bcastLen ns with
    | none => rw [hm] at h; cases h
    | some k =>
      rw [hm] at h
      have ih := fun h0 => bcastLen_zero hm h0
      simp only at h
      rcases List.mem_cons.mp h0 with rfl | h0
      · split at h
        · simp_all
        · split at h
          · simp_all
          · split at h
            · simp_all
            · cases h
      · have := ih h0
        subst this
        split at h
        · simp_all
        · split at h
          · simp_all
          · simp at h

theorem fancy_dims {ks : List Key} : ∀ {sh : List Nat} {σ : List Sel}, Exact ks → resolve ks sh = .ok σ →
    (selShape σ).length = (basicDims ((ks.map Key.isAdv).zip σ)).length + (ks.filter Key.isArr).length ∧
    ∀ d ∈ selShape σ, d ∈ basicDims ((ks.map Key.isAdv).zip σ) ∨ d ∈ (((ks.map Key.isAdv).zip σ).filter (·.1)).map (·.2.lenOf) := by
  induction ks with
  | nil =>
    intro sh σ _ h
    obtain ⟨_, rfl⟩ := resolve_nil_iff.mp h
    exact ⟨rfl, by simp [selShape]⟩
  | cons k ks ih =>
    intro sh σ he h
    obtain ⟨n, ns, s, σ', rfl, rfl, h1, h2⟩ := (resolve_cons_iff (he k List.mem_cons_self).1).mp h
    obtain ⟨a1, a2⟩ := ih he.tail h2
    by_cases harr : k.isArr = true
    · have hs : ∃ l, s = .pick l := by
        cases k with
        | tuple l | list l | iarr l | barr l =>
          simp only [resolve1] at h1
          split at h1
          · cases h1; exact ⟨_, rfl⟩
          · cases h1
        | _ => simp [Key.isArr] at harr
      obtain ⟨l, rfl⟩ := hs
      have hadv : k.isAdv = true := by cases k <;> simp_all [Key.isArr, Key.isAdv]
      rw [List.filter_cons, if_pos harr]
      refine ⟨?_, ?_⟩
      · simp only [List.map_cons, List.zip_cons_cons, hadv, basicDims, selShape, List.length_cons, a1]; omega
      · intro d hd
        simp only [selShape, List.mem_cons] at hd
        simp only [List.map_cons, List.zip_cons_cons, hadv, basicDims, List.filter_cons, if_true, List.map_cons, List.mem_cons, lenOf_pick]
        rcases hd with rfl | hd
        · exact Or.inr (Or.inl rfl)
        · rcases a2 d hd with h | h
          · exact Or.inl h
          · exact Or.inr (Or.inr h)
    · rw [List.filter_cons, if_neg harr]
      cases k with
      | int i =>
        simp only [resolve1] at h1
        split at h1
        · cases h1
          refine ⟨by simpa [Key.isAdv, basicDims, selShape] using a1, fun d hd => ?_⟩
          rcases a2 d (by simpa [selShape] using hd) with h | h
          · exact Or.inl (by simpa [Key.isAdv, basicDims] using h)
          · right
            simp only [List.map_cons, List.zip_cons_cons, Key.isAdv, List.filter_cons, if_true, List.mem_cons]
            exact Or.inr h
        · cases h1
      | slice s' =>
        have hs : s.isPick = true := by
          rw [resolve1_scalar (he _ List.mem_cons_self).1 h1]; rfl
        cases s with
        | pick l =>
          refine ⟨?_, fun d hd => ?_⟩
          · simp only [List.map_cons, List.zip_cons_cons, Key.isAdv, Key.isArr, basicDims, selShape, List.length_cons, a1]; omega
          · simp only [selShape, List.mem_cons] at hd
            simp only [List.map_cons, List.zip_cons_cons, Key.isAdv, Key.isArr, basicDims, List.filter_cons, Bool.false_eq_true, if_false, List.mem_cons, lenOf_pick]
            rcases hd with rfl | hd
            · exact Or.inl (Or.inl rfl)
            · rcases a2 d hd with h | h
              · exact Or.inl (Or.inr h)
              · exact Or.inr h
        | «at» v => cases hs
        | new => cases hs
      | tuple l | list l | iarr l | barr l => exact absurd rfl harr
      | newaxis => exact absurd (he _ List.mem_cons_self).1 (by decide)
      | ellipsis | bad => simp [resolve1] at h1

theorem resolved_not_bad {ks : List Key} : ∀ {sh : List Nat} {σ : List Sel}, Exact ks → resolve ks sh = .ok σ → Key.bad ∉ ks := by
  induction ks with
  | nil => intro _ _ _ _ h; cases h
  | cons k ks ih =>
    intro sh σ he h hb
    obtain ⟨n, ns, s, σ', rfl, rfl, h1, h2⟩ := (resolve_cons_iff (he k List.mem_cons_self).1).mp h
    rcases List.mem_cons.mp hb with rfl | hb
    · simp [resolve1] at h1
    · exact ih he.tail h2 hb

/-- As `separated_iff`, for any keys which NumPy accepts. -/
theorem separated_iff_exact {keys : List Key} (he : Exact keys) (hb : Key.bad ∉ keys) :
    Separated keys ↔ contiguousAdv (keys.map Key.isAdv) = false := by
  rw [contiguousAdv_false_iff]
  have hadv : ∀ i, (keys.getD i Key.full).isAdv = true ↔ (keys.map Key.isAdv)[i]? = some true := by
    intro i
    rw [List.getD_eq_getElem?_getD, List.getElem?_map]
    cases keys[i]? with
    | none => simp [Key.full, Key.isAdv, Key.isArr]
    | some k => simp
  have hslice : ∀ j : Nat, (∃ s, keys[j]? = some (Key.slice s)) ↔ (keys.map Key.isAdv)[j]? = some false := by
    intro j
    rw [List.getElem?_map]
    cases hj : keys[j]? with
    | none => simp
    | some k =>
      have hm := List.mem_of_getElem? hj
      have := he k hm
      cases k with
      | bad => exact absurd hm hb
      | newaxis => exact absurd this.1 (by decide)
      | ellipsis => exact absurd this.2 (by decide)
      | _ => simp [Key.isAdv, Key.isArr]
  unfold Separated
  simp only [hadv, hslice]

/-- The object array of the stack indexed by NumPy: the announced shape, and what is selected. -/
theorem stack_shape_ok {ss : List Nat} {sk : List Key} {τ : List Sel} (he : Exact sk) (hl : sk.length = ss.length) (hlist : ∀ l, Key.list l ∉ sk)
    (hτ : resolve sk ss = .ok τ) : slicedShape ss sk = .ok (selShape τ) :=
  C02_sliced_shape_is_numpy_shape (⟨ss, fun _ => ()⟩ : NDA Unit) _ sk hlist (npIndex_exact (⟨ss, fun _ => ()⟩ : NDA Unit) _ τ hl he hτ)

theorem mkStack_empty {ss : List Nat} (items : List Nat → Arr α) (h : ss.prod = 0) : mkStack ss items = .error .index := by
  unfold mkStack
  rw [if_pos h]; rfl

theorem prod_zero_iff : ∀ l : List Nat, l.prod = 0 ↔ 0 ∈ l
  | [] => by simp
  | n :: l => by
    rw [List.prod_cons, Nat.mul_eq_zero, prod_zero_iff l, List.mem_cons, eq_comm]

theorem ndindex_zero {ss : List Nat} (h : ss.prod = 0) : ndindex ss = [] := by
  rw [List.eq_nil_iff_forall_not_mem]
  intro i hi'
  have hi := (mem_ndindex ss i).mp hi'
  clear hi'
  have h0 : 0 ∈ ss := (prod_zero_iff _).mp h
  clear h
  induction ss generalizing i with
  | nil => cases h0
  | cons n ss ih =>
    cases i with
    | nil => exact hi
    | cons j i =>
      obtain ⟨h1, h2⟩ := hi
      rcases List.mem_cons.mp h0 with rfl | h0
      · omega
      · exact ih i h2 h0

/-- Two index arrays or more: `IndexError`. -/
theorem stackFull_many {inner : List Nat → List Key → Res (Arr α)} {ss : List Nat} {items : List Nat → Arr α} {fk : List Key} {τ : List Sel}
    (he : Exact (fk.take ss.length)) (hl : (fk.take ss.length).length = ss.length) (hlist : ∀ l, Key.list l ∉ fk.take ss.length)
    (hτ : resolve (fk.take ss.length) ss = .ok τ) (h2 : 2 ≤ ((fk.take ss.length).filter Key.isArr).length) :
    stackFull inner ss items fk = .error .index := by
  obtain ⟨d1, d2⟩ := fancy_dims he hτ
  unfold stackFull
  simp only [stack_shape_ok he hl hlist hτ, bind, Except.bind]
  have hany : (fk.take ss.length).any Key.isArr = true := by
    cases hf : (fk.take ss.length).filter Key.isArr with
    | nil => rw [hf] at h2; simp at h2
    | cons k l =>
      have : k ∈ (fk.take ss.length).filter Key.isArr := by rw [hf]; exact List.mem_cons_self
      exact List.any_eq_true.mpr ⟨k, (List.mem_filter.mp this).1, (List.mem_filter.mp this).2⟩
  unfold npFancy
  rw [if_neg (by simp only; omega), show (⟨ss, id⟩ : NDA (List Nat)).shape.length - (fk.take ss.length).length = 0 by simp only; omega]
  simp only [List.replicate_zero, List.append_nil, hτ, bind, Except.bind, if_pos hany]
  cases hL : bcastLen ((((fk.take ss.length).map Key.isAdv).zip τ).filter (·.1) |>.map (·.2.lenOf)) with
  | none => rfl
  | some L =>
    simp only
    have hne : (selShape τ).isEmpty = false := by
      cases hse : selShape τ with
      | nil => rw [hse] at d1; simp at d1; omega
      | cons => rfl
    rw [hne]
    simp only [Bool.false_eq_true, if_false]
    generalize hp : (if contiguousAdv ((fk.take ss.length).map Key.isAdv) = true then
      (((fk.take ss.length).map Key.isAdv).takeWhile (!·)).length else 0) = p
    generalize hd : basicDims (((fk.take ss.length).map Key.isAdv).zip τ) = dims at *
    by_cases hz : (selShape τ).prod = 0
    · rw [ndindex_zero hz]
      simp only [List.mapM_nil, pure, Except.pure]
      apply mkStack_empty
      have h0 : 0 ∈ selShape τ := (prod_zero_iff _).mp hz
      refine (prod_zero_iff _).mpr ?_
      rcases d2 0 h0 with h | h
      · rw [← List.take_append_drop p dims] at h
        rcases List.mem_append.mp h with h | h
        · simp [h]
        · simp [h]
      · rw [bcastLen_zero hL h]; simp
    · have hz1 := inB_zeros _ hz
      have hmem := (mem_ndindex _ _).mpr hz1
      cases hnd : ndindex (selShape τ) with
      | nil => rw [hnd] at hmem; cases hmem
      | cons i is =>
        have hi : InB (selShape τ) i := (mem_ndindex _ _).mp (by rw [hnd]; exact List.mem_cons_self)
        rw [List.mapM_cons, if_pos]
        · rfl
        · intro hin
          have e1 := hin.length
          have e2 := hi.length
          simp only [List.length_append, List.length_take, List.length_drop, List.length_singleton] at e1
          omega

/-- The items at the positions `sel`, each indexed with the keys of the items. -/
theorem stackFull_sel [Inhabited α] [Inhabited V] {m : Mode α V} {limit : Nat} {inner : List Nat → List Key → Res (Arr α)} {ss s : List Nat} {items : List Nat → Arr α} {fk : List Key} {rs : List Nat}
    {sel : NDA (List Nat)} {y : List Nat → NDA V} (hls : slicedShape ss (fk.take ss.length) = .ok rs) (hsel : npFancy (⟨ss, id⟩ : NDA (List Nat)) (fk.take ss.length) = .ok sel)
    (hin : ∀ i, InB sel.shape i → InB ss (sel.get i))
    (hy : ∀ i, InB ss i → (∃ c, inner i (fk.drop ss.length) = .ok c ∧ c.Yields m limit (y i)) ∧ (y i).shape = s) :
    (sel.shape.prod = 0 → rs.prod = 0 → stackFull inner ss items fk = .error .index) ∧
    (rs ≠ [] → (∃ i, InB rs i ∧ ¬ InB sel.shape i) → stackFull inner ss items fk = .error .index) ∧
    (rs.prod ≠ 0 → sel.shape = rs → ∃ c, stackFull inner ss items fk = .ok c ∧ c.Yields m limit (NDA.stacked rs (fun i => y (sel.get i)))) := by
  unfold stackFull
  simp only [hls, hsel, bind, Except.bind]
  refine ⟨fun h1 h2 => ?_, fun h1 h2 => ?_, fun h1 h2 => ?_⟩
  · have hne : rs.isEmpty = false := by
      cases rs with
      | nil => simp at h2
      | cons => rfl
    rw [hne, ndindex_zero h2]
    simp only [Bool.false_eq_true, if_false, List.mapM_nil, pure, Except.pure]
    exact mkStack_empty _ h1
  · obtain ⟨i, hi, hni⟩ := h2
    · rw [if_neg (by simpa using h1)]
      rcases mapM_error' (fun i => if ¬ InB sel.shape i then .error PyErr.index else inner (sel.get i) (fk.drop ss.length)) .index (ndindex rs) (fun x _ e' hx => by
        split at hx
        · cases hx; rfl
        · rename_i hn
          obtain ⟨c, hc, _⟩ := (hy _ (hin x (by simpa using hn))).1
          rw [hc] at hx; cases hx) with ⟨r, hr⟩ | hr
      · have := mapM_ok_inv _ _ _ hr
        obtain ⟨v, _, hv⟩ := forall₂_mem_left this ((mem_ndindex rs i).mpr hi)
        rw [if_pos hni] at hv; cases hv
      · rw [hr]
  · by_cases hrs : rs = []
    · subst hrs
      rw [if_pos (by rfl)]
      obtain ⟨⟨c, hc1, hc2⟩, _⟩ := hy (sel.get []) (hin [] (by rw [h2]; trivial))
      exact ⟨c, hc1, hc2.congr ⟨by simp [NDA.stacked], fun idx hi => by simp [NDA.stacked]⟩⟩
    · rw [if_neg (by simpa using hrs)]
      set F : List Nat → Arr α := fun i => if i ∈ ndindex rs then okOr (inner (sel.get i) (fk.drop ss.length)) (items (sel.get i)) else items (sel.get i) with hF
      have hFi : ∀ i, InB rs i → inner (sel.get i) (fk.drop ss.length) = .ok (F i) ∧ (F i).Yields m limit (y (sel.get i)) ∧ (y (sel.get i)).shape = s := by
        intro i h
        obtain ⟨⟨c, hc1, hc2⟩, hc3⟩ := hy (sel.get i) (hin i (by rw [h2]; exact h))
        have : F i = c := by simp only [hF, if_pos ((mem_ndindex _ _).mpr h), hc1, okOr]
        rw [this]; exact ⟨hc1, hc2, hc3⟩
      rw [mapM_ok _ _ F (fun i h => by
        have h' := (mem_ndindex _ _).mp h
        rw [if_neg (by rw [h2]; simpa using h')]
        exact (hFi i h').1)]
      simp only [h2]
      refine ⟨_, mkStack_iff.mpr ⟨h1, ⟨s, fun i hi => ?_⟩, rfl⟩, yields_stack h1 (fun i hi => (hFi i hi).2)⟩
      rw [(hFi i hi).2.1.1, (hFi i hi).2.2]

theorem inB_pred {a b : List Nat} (h0 : 0 ∉ a) (hs : a.sum = b.sum) (h : InB b (a.map (· - 1))) : a = b := by
  have key : ∀ {a b : List Nat}, 0 ∉ a → InB b (a.map (· - 1)) → a.sum ≤ b.sum ∧ (a.sum = b.sum → a = b) := by
    intro a
    induction a with
    | nil =>
      intro b _ h
      cases b with
      | nil => simp
      | cons => exact h.elim
    | cons n a ih =>
      intro b h0 h
      cases b with
      | nil => exact h.elim
      | cons k b =>
        obtain ⟨h1, h2⟩ : n - 1 < k ∧ InB b (a.map (· - 1)) := h
        obtain ⟨i1, i2⟩ := ih (fun hm => h0 (List.mem_cons_of_mem _ hm)) h2
        have hn : n ≠ 0 := fun e => h0 (by simp [e])
        refine ⟨by simp; omega, fun e => ?_⟩
        simp only [List.sum_cons] at e
        rw [i2 (by omega), show n = k by omega]
  exact (key h0 h).2 hs

theorem inB_pred_self : ∀ {a : List Nat}, 0 ∉ a → InB a (a.map (· - 1))
  | [], _ => trivial
  | n :: a, h0 => ⟨by
      have hn : n ≠ 0 := fun e => h0 (by simp [e])
      show n - 1 < n
      omega, inB_pred_self (fun hm => h0 (List.mem_cons_of_mem _ hm))⟩

theorem moveFront_sum {β : Type} {p : Nat} {x : NDA β} (hp : p < x.shape.length) : (moveFront p x).shape.sum = x.shape.sum := by
  have h : x.shape = x.shape.take p ++ x.shape.getD p 0 :: x.shape.drop (p + 1) := by
    rw [List.getD_eq_getElem?_getD, List.getElem?_eq_getElem hp, Option.getD_some, List.getElem_cons_drop, List.take_append_drop]
  simp only [moveFront, List.eraseIdx_eq_take_drop_succ]
  conv_rhs => rw [h]
  simp
  omega

theorem moveFront_length {β : Type} {p : Nat} {x : NDA β} (hp : p < x.shape.length) : (moveFront p x).shape.length = x.shape.length := by
  simp only [moveFront, List.length_cons, List.length_eraseIdx_of_lt hp]; omega

theorem moveFront_inB {β : Type} {p : Nat} {x : NDA β} (hp : p < x.shape.length) {idx : List Nat} (h : InB (moveFront p x).shape idx) :
    InB x.shape (idx.tail.take p ++ idx.headD 0 :: idx.tail.drop p) := by
  have e : x.shape = x.shape.take p ++ ([x.shape.getD p 0] ++ x.shape.drop (p + 1)) := by
    rw [List.getD_eq_getElem?_getD, List.getElem?_eq_getElem hp, Option.getD_some, List.singleton_append, List.getElem_cons_drop, List.take_append_drop]
  cases idx with
  | nil => exact h.elim
  | cons j idx =>
    obtain ⟨h1, h2⟩ : j < x.shape.getD p 0 ∧ InB (x.shape.eraseIdx p) idx := h
    rw [List.eraseIdx_eq_take_drop_succ] at h2
    obtain ⟨h3, h4⟩ := inB_split h2
    have hl : (x.shape.take p).length = p := by rw [List.length_take]; omega
    rw [hl] at h3 h4
    rw [e]
    exact inB_append h3 ⟨h1, h4⟩

/-- Moving a stack dimension of the stacked array to the front is moving it in the array of positions. -/
theorem moveFront_stacked {p : Nat} {P : NDA (List Nat)} {y : List Nat → NDA V} {s : List Nat} (hp : p < P.shape.length) (hys : ∀ i, (y i).shape = s) :
    NDA.stacked (moveFront p P).shape (fun i => y ((moveFront p P).get i)) ≈ₐ moveFront p (NDA.stacked P.shape (fun i => y (P.get i))) := by
  have hsh : ∀ (r : List Nat) (f : List Nat → List Nat), (NDA.stacked r (fun i => y (f i))).shape = r ++ s := by
    intro r f; simp only [NDA.stacked, hys]
  refine ⟨?_, fun idx hi => ?_⟩
  · rw [hsh]
    simp only [moveFront, NDA.stacked, hys]
    rw [List.getD_append _ _ _ _ hp, List.eraseIdx_append_of_lt_length hp]; rfl
  · rw [hsh] at hi
    have hml := moveFront_length hp
    have hi1 := (inB_split hi).1
    cases idx with
    | nil =>
      have := hi.length
      rw [List.length_append, hml] at this
      simp at this; omega
    | cons j idx =>
      have hlen : idx.length + 1 = P.shape.length + s.length := by
        have := hi.length
        rw [List.length_append, hml] at this
        simpa using this
      simp only [NDA.stacked, hml]
      simp only [moveFront]
      obtain ⟨r, hr⟩ : ∃ r, P.shape.length = r + 1 := ⟨P.shape.length - 1, by omega⟩
      have hpr : p ≤ r := by omega
      have h1 : (idx.take p ++ j :: idx.drop p).take (r + 1) = (idx.take r).take p ++ j :: (idx.take r).drop p := by
        rw [List.take_append, List.take_take, List.take_take, List.length_take, show min p idx.length = p by omega, show min (r + 1) p = p by omega, show min p r = p by omega,
          show r + 1 - p = (r - p) + 1 by omega, List.take_succ_cons, List.drop_take]
      have h2 : (idx.take p ++ j :: idx.drop p).drop (r + 1) = idx.drop r := by
        rw [List.drop_append, List.length_take, show min p idx.length = p by omega, List.drop_take, show p - (r + 1) = 0 by omega, List.take_zero, List.nil_append,
          show r + 1 - p = (r - p) + 1 by omega, List.drop_succ_cons, List.drop_drop, show p + (r - p) = r by omega]
      simp only [hr, List.take_succ_cons, List.drop_succ_cons, List.tail_cons, List.headD_cons, h1, h2]

theorem stack_getitem [Inhabited α] {ss s : List Nat} {items : List Nat → Arr α} (hs : (Arr.stack ss items).shape = .ok s) {fk : List Key} (he : Exact fk) (hl : fk.length = s.length) :
    (Arr.stack ss items).getitem fk = stackFull (fun i ks => (items i).getitem ks) ss items fk := by
  have hfk : fullKeys fk s.length = .ok fk := by
    rw [fullKeys_eq_expandKeys, expand_exact he hl]
    rw [List.filter_eq_nil_iff.mpr (fun x hx => by simp [(he x hx).2])]
    simp
  have hnew : fk.any Key.isNewaxis = false := by
    rw [List.any_eq_false]
    intro x hx
    simp [(he x hx).1]
  rw [Arr.getitem]
  unfold arrayGetitem
  rw [hs]
  simp only [bind, Except.bind, hfk, hnew, Bool.false_eq_true, if_false]

theorem ortho_stacked {ss : List Nat} {X : List Nat → NDA V} {sk : List Key} {τ1 τ2 : List Sel} (h1 : resolve sk ss = .ok τ1) :
    (NDA.stacked ss X).ortho (τ1 ++ τ2) ≈ₐ NDA.stacked (selShape τ1) (fun i => (X (selSrc τ1 i)).ortho τ2) := by
  refine ⟨by simp only [NDA.ortho, NDA.stacked, selShape_append], fun idx hi => ?_⟩
  have hi' : InB (selShape τ1 ++ selShape τ2) idx := by simpa only [NDA.ortho, selShape_append] using hi
  obtain ⟨a1, a2⟩ := inB_split hi'
  simp only [NDA.ortho, NDA.stacked]
  have hsl : (selSrc τ1 (idx.take (selShape τ1).length)).length = ss.length := (selSrc_inB h1 _ a1).length
  rw [selSrc_append a1, List.take_left' hsl, List.drop_left' hsl]

/-- C12, exact.  A stack of shape `ss` of arrays `X i`, keys `sk` for the dimensions of the stack and `ik` for those of the items; `P` is what the keys `sk` select (orthogonally) in the
array of positions.  Every item can be indexed with `ik`.  Then `stack[sk + ik]`
* raises `IndexError` if nothing is selected, or if there are two or more index arrays in `sk`;
* is the orthogonal selection of the stacked array if there is no index array in `sk`, or one and no slice between it and an integer;
* otherwise has the dimension of the index array in front, if this does not change the shape `P.shape`, and raises `IndexError` if it does. -/
theorem C12_exact [Inhabited α] [Inhabited V] (m : Mode α V) (limit : Nat) (ss s : List Nat) (items : List Nat → Arr α) (b : Arr α) (X : List Nat → NDA V) (hb : mkStack ss items = .ok b)
    (hX : ∀ i, InB ss i → (items i).Yields m limit (X i) ∧ (X i).shape = s)
    (sk ik : List Key) (P : NDA (List Nat)) (hsk : sk.length = ss.length) (hik : ik.length = s.length)
    (hkeys : ∀ k ∈ sk ++ ik, k.isNewaxis = false ∧ k.isEllipsis = false) (hlist : ∀ l, Key.list l ∉ sk)
    (hP : npIndex (⟨ss, fun i => i⟩ : NDA (List Nat)) sk = .ok P)
    (hitem : ∀ i, InB ss i → ∃ c y, (items i).getitem ik = .ok c ∧ npIndex (X i) ik = .ok y ∧ c.Yields m limit y) :
    ∃ z, npIndex (NDA.stacked ss X) (sk ++ ik) = .ok z ∧ b.Yields m limit (NDA.stacked ss X) ∧
    (P.shape.prod = 0 ∨ 2 ≤ (sk.filter Key.isArr).length → b.getitem (sk ++ ik) = .error .index) ∧
    (P.shape.prod ≠ 0 → (sk.filter Key.isArr).length ≤ 1 → ¬ ((sk.filter Key.isArr).length = 1 ∧ Separated sk) →
      ∃ c, b.getitem (sk ++ ik) = .ok c ∧ c.Yields m limit z) ∧
    (P.shape.prod ≠ 0 → (sk.filter Key.isArr).length = 1 → Separated sk →
      ((moveFront (slicesBefore sk) P).shape = P.shape → ∃ c, b.getitem (sk ++ ik) = .ok c ∧ c.Yields m limit (moveFront (slicesBefore sk) z)) ∧
      ((moveFront (slicesBefore sk) P).shape ≠ P.shape → b.getitem (sk ++ ik) = .error .index)) := by
  obtain ⟨h0, _, rfl⟩ := mkStack_iff.mp hb
  have hyst := yields_stack h0 hX
  have hz := inB_zeros ss h0
  have he1 : Exact sk := fun k hk => hkeys k (List.mem_append_left _ hk)
  have he2 : Exact ik := fun k hk => hkeys k (List.mem_append_right _ hk)
  have hxs : (NDA.stacked ss X).shape = ss ++ s := by simp only [NDA.stacked]; rw [(hX _ hz).2]
  -- the selections
  obtain ⟨fk1, τ1, q1, hτ1, rfl⟩ := npIndex_ok_iff.mp hP
  rw [expand_exact he1 hsk] at q1
  cases q1
  have hτ2 : ∃ τ2, resolve ik s = .ok τ2 := by
    obtain ⟨_, y, _, hy, _⟩ := hitem _ hz
    obtain ⟨fk2, τ2, q2, hτ2, _⟩ := npIndex_ok_iff.mp hy
    rw [(hX _ hz).2] at q2 hτ2
    rw [expand_exact he2 hik] at q2
    cases q2
    exact ⟨τ2, hτ2⟩
  obtain ⟨τ2, hτ2⟩ := hτ2
  have hτ1' : resolve sk ss = .ok τ1 := hτ1
  have hPs : ((⟨ss, fun i => i⟩ : NDA (List Nat)).ortho τ1).shape = selShape τ1 := rfl
  have hPg : ∀ i, ((⟨ss, fun i => i⟩ : NDA (List Nat)).ortho τ1).get i = selSrc τ1 i := fun _ => rfl
  have hzz : npIndex (NDA.stacked ss X) (sk ++ ik) = .ok ((NDA.stacked ss X).ortho (τ1 ++ τ2)) := by
    refine npIndex_ok_iff.mpr ⟨_, _, expand_exact hkeys (by rw [hxs, List.length_append, List.length_append, hsk, hik]), ?_, rfl⟩
    rw [hxs]; exact resolve_append he1 hτ1' hτ2
  have hitem' : ∀ i, InB ss i → (∃ c, (items i).getitem ik = .ok c ∧ c.Yields m limit ((X i).ortho τ2)) ∧ ((X i).ortho τ2).shape = selShape τ2 := by
    intro i hi
    obtain ⟨c, y, g1, g2, g3⟩ := hitem i hi
    obtain ⟨fk2, τ2', q2, hτ2', rfl⟩ := npIndex_ok_iff.mp g2
    rw [(hX _ hi).2, expand_exact he2 hik] at q2
    cases q2
    rw [(hX _ hi).2, hτ2] at hτ2'
    cases hτ2'
    exact ⟨⟨c, g1, g3⟩, rfl⟩
  have hget : (Arr.stack ss items).getitem (sk ++ ik) = stackFull (fun i ks => (items i).getitem ks) ss items (sk ++ ik) := by
    refine stack_getitem (s := ss ++ s) (by rw [hyst.1, hxs]) hkeys (by rw [List.length_append, List.length_append, hsk, hik])
  have htk : (sk ++ ik).take ss.length = sk := List.take_left' hsk
  have hdr : (sk ++ ik).drop ss.length = ik := List.drop_left' hsk
  have hls := stack_shape_ok he1 hsk hlist hτ1'
  have hcore := fun (sel : NDA (List Nat)) (hsel : npFancy (⟨ss, id⟩ : NDA (List Nat)) sk = .ok sel) (hin : ∀ i, InB sel.shape i → InB ss (sel.get i)) =>
    stackFull_sel (m := m) (limit := limit) (inner := fun i ks => (items i).getitem ks) (items := items) (fk := sk ++ ik) (rs := selShape τ1) (sel := sel) (y := fun i => (X i).ortho τ2)
      (s := selShape τ2) (by rw [htk]; exact hls) (by rw [htk]; exact hsel) hin (by rw [hdr]; exact hitem')
  have hmany : 2 ≤ (sk.filter Key.isArr).length → (Arr.stack ss items).getitem (sk ++ ik) = .error .index := by
    intro h2
    rw [hget]
    exact stackFull_many (by rw [htk]; exact he1) (by rw [htk]; exact hsk) (by rw [htk]; exact hlist) (by rw [htk]; exact hτ1') (by rw [htk]; exact h2)
  have hsafe : (sk.filter Key.isArr).length ≤ 1 → ¬ ((sk.filter Key.isArr).length = 1 ∧ Separated sk) → fancySafe sk := by
    intro h1 h2
    by_cases h3 : (sk.filter Key.isArr).length = 1
    · refine Or.inr ⟨h3, ?_⟩
      have : ¬ Separated sk := fun h => h2 ⟨h3, h⟩
      rw [separated_iff_exact he1 (resolved_not_bad he1 hτ1')] at this
      simpa using this
    · left
      rw [List.any_eq_false]
      intro k hk1 hk2
      have : k ∈ sk.filter Key.isArr := List.mem_filter.mpr ⟨hk1, hk2⟩
      rw [List.length_eq_zero_iff.mp (show (sk.filter Key.isArr).length = 0 by omega)] at this; cases this
  have hort := ortho_stacked (X := X) (τ2 := τ2) hτ1'
  have hpos : (sk.filter Key.isArr).length = 1 → slicesBefore sk < (selShape τ1).length := by
    intro h1
    obtain ⟨L, _, a2, a3, _⟩ := advItems_one he1 h1 hτ1'
    rw [a3]
    simp only [List.length_append, List.length_cons, List.length_take, List.length_drop]
    omega
  have hapart : (sk.filter Key.isArr).length = 1 → Separated sk → ∃ sel, npFancy (⟨ss, id⟩ : NDA (List Nat)) sk = .ok sel ∧
      sel ≈ₐ moveFront (slicesBefore sk) ((⟨ss, fun i => i⟩ : NDA (List Nat)).ortho τ1) ∧ (∀ i, InB sel.shape i → InB ss (sel.get i)) := by
    intro h1 h2
    obtain ⟨sel, g1, g2⟩ := npFancy_apart (⟨ss, id⟩ : NDA (List Nat)) he1 hτ1' h1 ((separated_iff_exact he1 (resolved_not_bad he1 hτ1')).mp h2)
    refine ⟨sel, g1, g2, fun i hi => ?_⟩
    rw [g2.2 i hi]
    have hi' := hi
    rw [g2.1] at hi'
    exact selSrc_inB hτ1' _ (moveFront_inB (x := (⟨ss, id⟩ : NDA (List Nat)).ortho τ1) (hpos h1) hi')
  have hsafe' : fancySafe sk → ∃ sel, npFancy (⟨ss, id⟩ : NDA (List Nat)) sk = .ok sel ∧ sel.shape = selShape τ1 ∧ (∀ i, InB sel.shape i → sel.get i = selSrc τ1 i) ∧
      (∀ i, InB sel.shape i → InB ss (sel.get i)) := by
    intro hs
    obtain ⟨sel, g1, g2, g3⟩ := npFancy_ok (⟨ss, id⟩ : NDA (List Nat)) he1 hτ1' hs
    refine ⟨sel, g1, g2, g3, fun i hi => ?_⟩
    rw [g3 i hi]
    have hi' := hi
    rw [g2] at hi'
    exact selSrc_inB hτ1' i hi'
  refine ⟨_, hzz, hyst, ?_, ?_, ?_⟩
  · rintro (h | h)
    · by_cases h2 : 2 ≤ (sk.filter Key.isArr).length
      · exact hmany h2
      · rw [hget]
        by_cases h3 : (sk.filter Key.isArr).length = 1 ∧ Separated sk
        · obtain ⟨sel, g1, g2, g3⟩ := hapart h3.1 h3.2
          refine (hcore sel g1 g3).1 ?_ h
          rw [g2.1, prod_zero_iff]
          have h0' := (prod_zero_iff _).mp h
          rw [hPs] at h0'
          simp only [moveFront, hPs]
          obtain ⟨i, hi, he⟩ := List.getElem_of_mem h0'
          by_cases hip : i = slicesBefore sk
          · subst hip
            rw [List.getD_eq_getElem?_getD, List.getElem?_eq_getElem hi, he]; simp
          · exact List.mem_cons_of_mem _ (List.mem_eraseIdx_iff_getElem.mpr ⟨i, hi, hip, he⟩)
        · obtain ⟨sel, g1, g2, _, g3⟩ := hsafe' (hsafe (by omega) h3)
          exact (hcore sel g1 g3).1 (by rw [g2]; exact h) h
    · exact hmany h
  · intro hp h1 h2
    obtain ⟨sel, g1, g2, g3, g4⟩ := hsafe' (hsafe h1 h2)
    obtain ⟨c, c1, c2⟩ := (hcore sel g1 g4).2.2 hp g2
    rw [hget]
    have e : (NDA.stacked (selShape τ1) fun i => (X (sel.get i)).ortho τ2) ≈ₐ NDA.stacked (selShape τ1) fun i => (X (selSrc τ1 i)).ortho τ2 := by
      refine ⟨rfl, fun idx hi => ?_⟩
      have hi' : InB (selShape τ1 ++ selShape τ2) idx := hi
      simp only [NDA.stacked]
      rw [g3 _ (by rw [g2]; exact (inB_split hi').1)]
    exact ⟨c, c1, c2.congr (e.trans hort.symm)⟩
  · intro hp h1 h2
    obtain ⟨sel, g1, g2, g3⟩ := hapart h1 h2
    have hpp := hpos h1
    rw [hget]
    refine ⟨fun he => ?_, fun he => ?_⟩
    · have hss : sel.shape = selShape τ1 := by rw [g2.1, he]; rfl
      obtain ⟨c, c1, c2⟩ := (hcore sel g1 g3).2.2 hp hss
      refine ⟨c, c1, c2.congr ?_⟩
      refine NDA.Eqv.trans ?_ (NDA.Eqv.trans (moveFront_stacked (P := (⟨ss, fun i => i⟩ : NDA (List Nat)).ortho τ1) (y := fun i => (X i).ortho τ2) (s := selShape τ2) hpp (fun _ => rfl)) ?_)
      · refine ⟨by simp only [NDA.stacked, he]; rfl, fun idx hi => ?_⟩
        have hi' : InB (selShape τ1 ++ selShape τ2) idx := hi
        simp only [NDA.stacked, he]
        rw [g2.2 _ (by rw [hss]; exact (inB_split hi').1)]
        rfl
      · refine ⟨?_, fun idx hi => ?_⟩
        · simp only [moveFront]; rw [hort.1]; rfl
        · have hlt : slicesBefore sk < (NDA.stacked (selShape τ1) fun i => (X (selSrc τ1 i)).ortho τ2).shape.length := by
            simp only [NDA.stacked, List.length_append]; omega
          have := moveFront_inB hlt (idx := idx) hi
          exact (hort.2 _ (by rw [hort.1]; exact this)).symm
    · refine (hcore sel g1 g3).2.1 (fun e => by rw [e] at hpp; simp at hpp) ?_
      have h00 : 0 ∉ selShape τ1 := fun h => hp ((prod_zero_iff _).mpr h)
      refine ⟨(selShape τ1).map (· - 1), inB_pred_self h00, fun hin => ?_⟩
      rw [g2.1] at hin
      apply he
      rw [hPs]
      exact (inB_pred h00 (moveFront_sum (x := (⟨ss, fun i => i⟩ : NDA (List Nat)).ortho τ1) hpp).symm hin).symm

/-- A 2 x 2 x 3 stack of scalars `100 i + 10 j + k`: with the keys `0, :, (0, 1)` the dimension of the tuple moves to the front of a 2 x 2 result; with `0, :, (0, 1, 2)` (and 2 x 3) `IndexError`
is raised; with `:, 0, (0, 1, 2)` the result is right; two tuples: `IndexError`. -/
example :
    let st : Arr ℚ := .stack [2, 2, 3] (fun i => .const [] (i.foldl (fun a j => 10 * a + (j : ℚ)) 0) 0)
    let z : PySlice := ⟨none, none, none⟩
    Separated [.int 0, .slice z, .tuple [0, 1]] ∧ slicesBefore [.int 0, .slice z, .tuple [0, 1]] = 1 ∧
    Res.view (st.getitem ([.int 0, .slice z, .tuple [0, 1]] ++ []) >>= fun c => c.eval exMode 100 1) = .ok ([2, 2], [0, 10, 1, 11]) ∧
    (st.getitem ([.int 0, .slice z, .tuple [0, 1, 2]] ++ [])).map (fun _ => ()) = .error .index ∧
    Res.view (st.getitem ([.slice z, .int 0, .tuple [0, 2]] ++ []) >>= fun c => c.eval exMode 100 1) = .ok ([2, 2], [0, 2, 100, 102]) ∧
    (st.getitem ([.int 0, .tuple [0], .tuple [0]] ++ [])).map (fun _ => ()) = .error .index := by
  refine ⟨⟨0, 1, 2, by decide, by decide, rfl, ⟨_, rfl⟩, rfl⟩, by decide, by decide +kernel, by decide +kernel, by decide +kernel, by decide +kernel⟩

end Biggus

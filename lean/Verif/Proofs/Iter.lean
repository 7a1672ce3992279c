import Verif.Spec.Iter
import Verif.Spec.Den
import Verif.Proofs.EvalClosed
import Verif.Proofs.Meta
/-
Integers out of range are rejected.
-/
namespace Biggus

variable {α : Type}

theorem oneInt_exact (p : Nat) (i : Int) (q : Nat) : Exact (oneInt p i q) := by
  intro k hk
  simp only [oneInt, List.mem_append, List.mem_cons, List.mem_replicate] at hk
  rcases hk with ⟨_, rfl⟩ | rfl | ⟨_, rfl⟩ <;> exact ⟨rfl, rfl⟩

theorem oneInt_length (p : Nat) (i : Int) (q : Nat) : (oneInt p i q).length = p + q + 1 := by
  simp [oneInt]; omega

theorem fullKeys_self {fk : List Key} {n : Nat} (he : Exact fk) (h : fk.length = n) : fullKeys fk n = .ok fk :=
  fullKeys_of_expandKeys _ _ _ (expand_exact he h)

theorem fullKeys_oneInt {p : Nat} {i : Int} {q n : Nat} (h : p + q + 1 = n) : fullKeys (oneInt p i q) n = .ok (oneInt p i q) :=
  fullKeys_self (oneInt_exact p i q) (by rw [oneInt_length, h])

theorem fullKeys_first {i : Int} {n : Nat} : fullKeys [.int i] (n + 1) = .ok (oneInt 0 i n) := by
  have h := expandKeys_pad (ks := [.int i]) (r := n) (fun k hk => by simp at hk; subst hk; exact ⟨rfl, rfl⟩)
  rw [List.length_singleton, Nat.add_comm] at h
  exact fullKeys_of_expandKeys _ _ _ h

theorem exact_noNew {ks : List Key} (h : Exact ks) : ks.any Key.isNewaxis = false := by
  simpa using fun k hk => (h k hk).1

theorem oneInt_zero (i : Int) (q : Nat) : oneInt 0 i q = .int i :: List.replicate q Key.full := rfl
theorem oneInt_succ (p : Nat) (i : Int) (q : Nat) : oneInt (p + 1) i q = Key.full :: oneInt p i q := rfl

theorem range_full (n : Nat) : ∃ r, PySlice.full.range n = .ok r ∧ r.length = n := by
  have h := resolve1_full n
  obtain ⟨r, h1, h2⟩ := resolve1_slice h
  refine ⟨r, h1, ?_⟩
  have := congrArg List.length (Sel.pick.inj h2)
  simpa using this.symm

theorem cleanup_err {sh : List Nat} : ∀ {p : Nat} {i : Int} {q n : Nat}, sh[p]? = some n → ¬ inRange i n = true →
    ((oneInt p i q).zip sh).mapM (fun p => cleanupKey p.1 p.2) = .error .index := by
  induction sh with
  | nil => intro p i q n h; simp at h
  | cons x sh ih =>
    intro p i q n h hi
    cases p with
    | zero =>
      simp only [List.getElem?_cons_zero, Option.some.injEq] at h
      subst h
      rw [oneInt_zero, List.zip_cons_cons, List.mapM_cons]
      simp [cleanupKey, hi, bind, Except.bind]
    | succ p =>
      rw [List.getElem?_cons_succ] at h
      rw [oneInt_succ, List.zip_cons_cons, List.mapM_cons, ih h hi]
      rfl

theorem adapterLoop_err : ∀ (stored : List Key) {sh s : List Nat} {r p : Nat} {i : Int} {q n : Nat}, (∀ k ∈ stored, k.storable = true) →
    (∀ l, Key.barr l ∉ stored) → stored.length + r = sh.length → slicedShapeLoop (stored ++ List.replicate r Key.full) sh = .ok s →
    s[p]? = some n → ¬ inRange i n = true → adapterLoop stored sh (oneInt p i q) = .error .index := by
  intro stored
  induction stored with
  | nil =>
    intro sh s r p i q n _ _ hl hs hp hi
    have : s = sh := by
      simp only [List.nil_append, List.length_nil, Nat.zero_add] at hl hs
      subst hl
      clear hp
      induction sh generalizing s with
      | nil => simp [slicedShapeLoop] at hs; exact hs
      | cons x sh ih =>
        rw [List.length_cons, List.replicate_succ] at hs
        obtain ⟨w, hw, hwl⟩ := range_full x
        simp only [Key.full, slicedShapeLoop] at hs
        obtain ⟨w', hw', hs⟩ := bind_ok.mp hs
        rw [hw] at hw'
        cases hw'
        obtain ⟨rest, h1, h2⟩ := bind_ok.mp hs
        cases h2
        rw [hwl, ih h1]
    subst this
    unfold adapterLoop
    exact cleanup_err hp hi
  | cons k stored ih =>
    intro sh s r p i q n hst hnb hl hs hp hi
    have hst' : ∀ k ∈ stored, k.storable = true := fun k hk => hst k (List.mem_cons_of_mem _ hk)
    have hnb' : ∀ l, Key.barr l ∉ stored := fun l hk => hnb l (List.mem_cons_of_mem _ hk)
    obtain ⟨x, sh, rfl⟩ : ∃ x sh', sh = x :: sh' := by
      cases sh with
      | nil => simp at hl
      | cons x sh => exact ⟨_, _, rfl⟩
    have hl' : stored.length + r = sh.length := by simp at hl; omega
    have key : ∀ ind : List Int, s = ind.length :: s.tail → slicedShapeLoop (stored ++ List.replicate r Key.full) sh = .ok s.tail →
        (∃ k ks, oneInt p i q = k :: ks ∧ (remapKey ind k = .error .index ∨ ∃ k', remapKey ind k = .ok k' ∧ adapterLoop stored sh ks = .error .index)) := by
      intro ind h1 h2
      rw [h1] at hp
      cases p with
      | zero =>
        simp only [List.getElem?_cons_zero, Option.some.injEq] at hp
        refine ⟨_, _, oneInt_zero i q, Or.inl ?_⟩
        simp [remapKey, hp, hi]
      | succ p =>
        rw [List.getElem?_cons_succ] at hp
        obtain ⟨w, hw, hwl⟩ := range_full ind.length
        have hg : ∃ k', remapKey ind Key.full = .ok k' := by
          simp only [Key.full, remapKey]
          rw [pyGetSlice_eq hw]; exact ⟨_, rfl⟩
        obtain ⟨k', hg⟩ := hg
        exact ⟨_, _, oneInt_succ p i q, Or.inr ⟨k', hg, ih hst' hnb' hl' h2 hp hi⟩⟩
    cases k with
    | int j =>
      simp only [List.cons_append, slicedShapeLoop, List.tail_cons] at hs
      have h := ih (q := q) hst' hnb' hl' hs hp hi
      cases hk : oneInt p i q with
      | nil => have := oneInt_length p i q; rw [hk] at this; simp at this
      | cons k ks =>
        rw [hk] at h
        simp only [adapterLoop, List.tail_cons, h, bind, Except.bind]
    | slice sl =>
      simp only [List.cons_append, slicedShapeLoop] at hs
      obtain ⟨ind, h1, hs⟩ := bind_ok.mp hs
      obtain ⟨rest, h2, hs⟩ := bind_ok.mp hs
      cases hs
      obtain ⟨k, ks, hk, h⟩ := key ind rfl h2
      rw [hk]
      simp only [adapterLoop, List.headD_cons, h1, bind, Except.bind, List.tail_cons]
      rcases h with h | ⟨k', h, h'⟩
      · rw [h]
      · rw [h]; simp only [h']
    | tuple l =>
      simp only [List.cons_append, slicedShapeLoop, List.tail_cons] at hs
      obtain ⟨rest, h2, hs⟩ := bind_ok.mp hs
      cases hs
      obtain ⟨k, ks, hk, h⟩ := key l rfl h2
      rw [hk]
      simp only [adapterLoop, bind, Except.bind, List.tail_cons]
      rcases h with h | ⟨k', h, h'⟩
      · rw [h]
      · rw [h]; simp only [h']
    | barr l => exact absurd List.mem_cons_self (hnb l)
    | _ => have := hst _ List.mem_cons_self; simp [Key.storable] at this


/-! ### Broadcasts -/

theorem bcastLoop_full {dict : List (Nat × Nat)} (q : Nat) : ∀ {ax rem : Nat} {sizes : List Nat}, ∃ d, bcastLoop dict ax rem sizes (List.replicate q Key.full) = .ok (List.replicate q Key.full, d) := by
  induction q with
  | zero => intro ax rem sizes; exact ⟨[], rfl⟩
  | succ q ih =>
    intro ax rem sizes
    rw [List.replicate_succ]
    unfold bcastLoop
    split
    · obtain ⟨r, hr, _⟩ := range_full (sizes.headD 0)
      obtain ⟨d, hd⟩ := ih (ax := ax + 1) (rem := rem) (sizes := sizes.tail)
      exact ⟨_, by simp only [Key.full, hr, bind, Except.bind] at *; rw [hd]; rfl⟩
    · obtain ⟨d, hd⟩ := ih (ax := ax + 1) (rem := rem) (sizes := sizes.tail)
      exact ⟨_, by simp only [Key.full, Key.isScalar, bind, Except.bind] at *; simp only [Bool.false_eq_true, if_false]; rw [hd]; rfl⟩

theorem bcastLoop_pass {dict : List (Nat × Nat)} {i : Int} {q : Nat} : ∀ {p ax rem : Nat} {sizes : List Nat}, dict.any (fun x => x.1 == ax + p) = false →
    ∃ d, bcastLoop dict ax rem sizes (oneInt p i q) = .ok (oneInt p i q, d) := by
  intro p
  induction p with
  | zero =>
    intro ax rem sizes h
    rw [oneInt_zero]
    unfold bcastLoop
    rw [Nat.add_zero] at h
    obtain ⟨d, hd⟩ := bcastLoop_full (dict := dict) q (ax := ax + 1) (rem := rem + 1) (sizes := sizes.tail)
    refine ⟨d, ?_⟩
    simp only [h, Key.isScalar, bind, Except.bind, if_true, Bool.false_eq_true, if_false]
    rw [hd]; rfl
  | succ p ih =>
    intro ax rem sizes h
    rw [oneInt_succ]
    obtain ⟨d, hd⟩ := ih (ax := ax + 1) (rem := rem) (sizes := sizes.tail) (by rw [← h]; congr 1; funext x; congr 1; omega)
    unfold bcastLoop
    split
    · obtain ⟨r, hr, _⟩ := range_full (sizes.headD 0)
      exact ⟨_, by simp only [Key.full, hr, bind, Except.bind] at *; rw [hd]; rfl⟩
    · exact ⟨_, by simp only [Key.full, Key.isScalar, bind, Except.bind] at *; simp only [Bool.false_eq_true, if_false]; rw [hd]; rfl⟩

theorem bcastLoop_err {dict : List (Nat × Nat)} {i : Int} {q n : Nat} : ∀ {p ax rem : Nat} {sizes : List Nat}, dict.any (fun x => x.1 == ax + p) = true →
    sizes[p]? = some n → ¬ inRange i n = true → bcastLoop dict ax rem sizes (oneInt p i q) = .error .index := by
  intro p
  induction p with
  | zero =>
    intro ax rem sizes h hs hi
    rw [oneInt_zero]
    unfold bcastLoop
    rw [Nat.add_zero] at h
    cases sizes with
    | nil => cases hs
    | cons x sizes =>
      simp only [List.getElem?_cons_zero, Option.some.injEq] at hs
      subst hs
      simp only [h, if_true, List.headD_cons, hi, bind, Except.bind, Bool.false_eq_true, if_false]
      rfl
  | succ p ih =>
    intro ax rem sizes h hs hi
    rw [oneInt_succ]
    cases sizes with
    | nil => cases hs
    | cons x sizes =>
      rw [List.getElem?_cons_succ] at hs
      have hd := ih (ax := ax + 1) (rem := rem) (sizes := sizes) (by rw [← h]; congr 1; funext x; congr 1; omega) hs hi
      unfold bcastLoop
      split
      · obtain ⟨r, hr, _⟩ := range_full x
        simp only [Key.full, hr, bind, Except.bind, List.headD_cons, List.tail_cons] at *; rw [hd]
      · simp only [Key.full, Key.isScalar, bind, Except.bind, List.tail_cons] at *; simp only [Bool.false_eq_true, if_false]; rw [hd]

theorem allFull_oneInt (p : Nat) (i : Int) (q : Nat) : allFull (oneInt p i q) = .ok false := by
  induction p with
  | zero => rw [oneInt_zero]; unfold allFull; rw [if_neg (by simp [Key.full])]
  | succ p ih => rw [oneInt_succ]; unfold allFull; rw [if_pos rfl, ih]

theorem shapeFromDict_get : ∀ {d : List (Nat × Nat)} {s s' : List Nat}, shapeFromDict d s = .ok s' → s'.length = s.length ∧
    ∀ p, d.any (fun x => x.1 == p) = false → s'[p]? = s[p]?
  | [], s, s', h => by cases h; exact ⟨rfl, fun _ _ => rfl⟩
  | (ax, len) :: d, s, s', h => by
    unfold shapeFromDict at h
    split at h
    · cases h
    · split at h
      · cases h
      · obtain ⟨h1, h2⟩ := shapeFromDict_get h
        refine ⟨by simpa using h1, fun p hp => ?_⟩
        simp only [List.any_cons, Bool.or_eq_false_iff, beq_eq_false_iff_ne] at hp
        rw [h2 p hp.2, List.getElem?_set_ne hp.1]

/-! ### Selections -/

theorem resolve_err : ∀ {p : Nat} {i : Int} {q n : Nat} {sh : List Nat}, sh[p]? = some n → ¬ inRange i n = true → resolve (oneInt p i q) sh = .error .index := by
  intro p
  induction p with
  | zero =>
    intro i q n sh h hi
    cases sh with
    | nil => cases h
    | cons x sh =>
      simp only [List.getElem?_cons_zero, Option.some.injEq] at h
      subst h
      rw [oneInt_zero]
      simp [resolve, resolve1, hi, bind, Except.bind]
  | succ p ih =>
    intro i q n sh h hi
    cases sh with
    | nil => cases h
    | cons x sh =>
      rw [List.getElem?_cons_succ] at h
      rw [oneInt_succ]
      have h' := ih (q := q) h hi
      have := resolve1_full x
      simp only [Key.full] at this ⊢
      simp only [resolve, this, h', bind, Except.bind]

theorem mapM_head_err {β γ : Type} {f : β → Res γ} {x : β} {l : List β} {e : PyErr} (h : f x = .error e) : (x :: l).mapM f = .error e := by
  rw [List.mapM_cons, h]; rfl

/-! ### New axes -/

theorem naFold_full : ∀ (L L' : List Bool) (st : NAState) (n : Nat), st.isNew = L ++ L' →
    ∃ st', ((List.replicate L.length Key.full).zipIdx n).foldlM naStep st = .ok st' ∧ st'.keys = st.keys ++ List.replicate (L.count false) Key.full ∧ st'.isNew = L'
  | [], L', st, n, h => ⟨st, rfl, by simp, h⟩
  | true :: L, L', st, n, h => by
    obtain ⟨r, hr, hl⟩ := range_full 1
    have hs : naStep st (Key.full, n) = .ok { st with isNew := L ++ L' } := by
      unfold naStep
      simp only [Key.full, h, List.cons_append, hr, bind, Except.bind, hl]
      rfl
    obtain ⟨st', h1, h2, h3⟩ := naFold_full L L' { st with isNew := L ++ L' } (n + 1) rfl
    refine ⟨st', ?_, ?_, h3⟩
    · rw [List.length_cons, List.replicate_succ, List.zipIdx_cons, List.foldlM_cons, hs]; exact h1
    · rw [h2]; simp
  | false :: L, L', st, n, h => by
    have hs : naStep st (Key.full, n) = .ok { st with isNew := L ++ L', keys := st.keys ++ [Key.full], axis := st.axis + 1 } := by
      unfold naStep
      simp only [Key.full, h, List.cons_append, Key.isScalar, Bool.false_eq_true, if_false]
    obtain ⟨st', h1, h2, h3⟩ := naFold_full L L' { st with isNew := L ++ L', keys := st.keys ++ [Key.full], axis := st.axis + 1 } (n + 1) rfl
    refine ⟨st', ?_, ?_, h3⟩
    · rw [List.length_cons, List.replicate_succ, List.zipIdx_cons, List.foldlM_cons, hs]; exact h1
    · rw [h2]; simp [List.replicate_succ]

theorem naFold_err {L : List Bool} {st : NAState} {i : Int} {q p n : Nat} (hs : st.isNew = L) (hp : L[p]? = some true) (hi : ¬ inRange i 1 = true) :
    ((oneInt p i q).zipIdx n).foldlM naStep st = .error .index := by
  obtain ⟨hlt, hp⟩ := List.getElem?_eq_some_iff.mp hp
  have hL : L = L.take p ++ true :: L.drop (p + 1) := by rw [← hp, List.getElem_cons_drop, List.take_append_drop]
  have hl : (L.take p).length = p := by simp; omega
  obtain ⟨st', h1, h2, h3⟩ := naFold_full (L.take p) (true :: L.drop (p + 1)) st n (by rw [hs, ← hL])
  rw [hl] at h1
  unfold oneInt
  rw [List.zipIdx_append, List.foldlM_append, h1]
  change List.foldlM naStep st' _ = _
  rw [List.zipIdx_cons, List.foldlM_cons]
  have : ∀ m, naStep st' (.int i, m) = .error .index := by
    intro m
    unfold naStep
    simp only [h3]
    rw [if_neg (by simpa [inRange] using hi)]
  rw [this]
  rfl

theorem naFold_pass {L : List Bool} {st : NAState} {i : Int} {q p n : Nat} (hs : st.isNew = L) (hk : st.keys = []) (hp : L[p]? = some false) (hq : p + q + 1 = L.length) :
    ∃ st', ((oneInt p i q).zipIdx n).foldlM naStep st = .ok st' ∧ st'.keys = oneInt ((L.take p).count false) i ((L.drop (p + 1)).count false) := by
  obtain ⟨hlt, hp⟩ := List.getElem?_eq_some_iff.mp hp
  have hL : L = L.take p ++ false :: L.drop (p + 1) := by rw [← hp, List.getElem_cons_drop, List.take_append_drop]
  have hl : (L.take p).length = p := by simp; omega
  have hl' : (L.drop (p + 1)).length = q := by simp; omega
  obtain ⟨st', h1, h2, h3⟩ := naFold_full (L.take p) (false :: L.drop (p + 1)) st n (by rw [hs, ← hL])
  rw [hl] at h1
  unfold oneInt
  rw [List.zipIdx_append, List.foldlM_append, h1]
  change ∃ st'', List.foldlM naStep st' _ = .ok st'' ∧ _
  rw [List.zipIdx_cons, List.foldlM_cons]
  have : ∀ m, ∃ st2, naStep st' (.int i, m) = .ok st2 ∧ st2.isNew = L.drop (p + 1) ∧ st2.keys = st'.keys ++ [.int i] := by
    intro m
    unfold naStep
    simp only [h3]
    exact ⟨_, rfl, rfl, rfl⟩
  obtain ⟨st2, k1, k2, k3⟩ := this (n + (List.replicate p Key.full).length)
  rw [k1]
  obtain ⟨st3, j1, j2, j3⟩ := naFold_full (L.drop (p + 1)) [] st2 (n + (List.replicate p Key.full).length + 1) (by rw [k2]; simp)
  rw [hl'] at j1
  refine ⟨st3, j1, ?_⟩
  rw [j2, k3, h2, hk]
  simp

theorem isNewOf_shape : ∀ (s : List Nat) (c : Nat) (ns : List Nat), ns.length = s.length → (isNewOf c ns).length = (naShape (c :: ns) s).length ∧
    (isNewOf c ns).count false = s.length ∧ ∀ p, ((isNewOf c ns)[p]? = some true → (naShape (c :: ns) s)[p]? = some 1) ∧
    ((isNewOf c ns)[p]? = some false → (naShape (c :: ns) s)[p]? = s[((isNewOf c ns).take p).count false]?)
  | s, c + 1, ns, h => by
    obtain ⟨h1, h2, h3⟩ := isNewOf_shape s c ns h
    rw [isNewOf_succ, naShape_succ]
    refine ⟨by simp [h1], by simp [h2], fun p => ?_⟩
    cases p with
    | zero => simp
    | succ p => simpa using h3 p
  | [], 0, ns, h => by
    simp only [List.length_nil, List.length_eq_zero_iff] at h
    subst h
    simp [isNewOf, naShape]
  | x :: s, 0, n :: ns, h => by
    obtain ⟨h1, h2, h3⟩ := isNewOf_shape s n ns (by simpa using h)
    rw [naShape_zero, show isNewOf 0 (n :: ns) = false :: isNewOf n ns from rfl]
    refine ⟨by simp [h1], by simp [h2], fun p => ?_⟩
    cases p with
    | zero => simp
    | succ p => simpa using h3 p
  | x :: s, 0, [], h => by simp at h


/-! ### The theorem -/

theorem trimKeys_oneInt (p : Nat) (i : Int) (q : Nat) : trimKeys (oneInt p i q) = List.replicate p Key.full ++ [.int i] := by
  unfold trimKeys oneInt
  rw [List.reverse_append, List.reverse_cons, List.reverse_replicate, List.append_assoc, List.dropWhile_append_of_pos]
  · simp [Key.full]
  · intro k hk; simp [List.eq_of_mem_replicate hk]

theorem expand_trimmed {p n : Nat} {i : Int} (h : p < n) : expandKeys (List.replicate p Key.full ++ [.int i]) n = .ok (oneInt p i (n - p - 1)) := by
  have he : Exact (List.replicate p Key.full ++ [.int i]) := by
    intro k hk
    simp only [List.mem_append, List.mem_replicate, List.mem_singleton] at hk
    rcases hk with ⟨_, rfl⟩ | rfl <;> exact ⟨rfl, rfl⟩
  have := expandKeys_pad (r := n - p - 1) he
  rw [show (List.replicate p Key.full ++ [Key.int i]).length + (n - p - 1) = n by simp; omega] at this
  rw [this, oneInt, List.append_assoc]
  rfl

theorem expand_oneInt {p q n : Nat} {i : Int} (h : p + q + 1 = n) : expandKeys (oneInt p i q) n = .ok (oneInt p i q) :=
  expand_exact (oneInt_exact p i q) (by rw [oneInt_length, h])

theorem mapM_first_err {β γ : Type} {f : β → Res γ} {l : List β} {x : β} {e : PyErr} (hx : l[0]? = some x) (h : f x = .error e) : l.mapM f = .error e := by
  cases l with
  | nil => cases hx
  | cons y l => cases hx; exact mapM_head_err h

theorem mapM_all_err {β γ : Type} {f : β → Res γ} {l : List β} {e : PyErr} (hl : l ≠ []) (h : ∀ x ∈ l, f x = .error e) : l.mapM f = .error e := by
  cases l with
  | nil => exact absurd rfl hl
  | cons y l => exact mapM_head_err (h y List.mem_cons_self)

theorem bind_err {β γ : Type} {r : Res β} {f : β → Res γ} {e : PyErr} (h : r = .error e) : (r >>= f) = .error e := by rw [h]; rfl
theorem bind_val {β γ : Type} {r : Res β} {x : β} {f : β → Res γ} (h : r = .ok x) : (r >>= f) = f x := by rw [h]; rfl

theorem slicedShapeLoop_oneInt : ∀ {p : Nat} {i : Int} {q : Nat} {sh : List Nat}, p + q + 1 = sh.length → slicedShapeLoop (oneInt p i q) sh = .ok (sh.eraseIdx p) := by
  have hfull : ∀ (sh : List Nat), slicedShapeLoop (List.replicate sh.length Key.full) sh = .ok sh := by
    intro sh
    induction sh with
    | nil => rfl
    | cons x sh ih =>
      obtain ⟨r, hr, hl⟩ := range_full x
      rw [List.length_cons, List.replicate_succ]
      simp only [Key.full, slicedShapeLoop] at *
      rw [bind_val hr, bind_val ih, hl]; rfl
  intro p
  induction p with
  | zero =>
    intro i q sh h
    cases sh with
    | nil => simp at h
    | cons x sh =>
      rw [oneInt_zero]
      simp only [slicedShapeLoop, List.tail_cons, List.eraseIdx_zero]
      rw [show q = sh.length by simp at h; omega]
      exact hfull sh
  | succ p ih =>
    intro i q sh h
    cases sh with
    | nil => simp at h
    | cons x sh =>
      obtain ⟨r, hr, hl⟩ := range_full x
      have h' := ih (i := i) (q := q) (sh := sh) (by simp at h; omega)
      rw [oneInt_succ]
      simp only [Key.full, slicedShapeLoop] at *
      rw [bind_val hr, bind_val h', hl]; rfl

theorem slicedShape_oneInt {p : Nat} {i : Int} {q : Nat} {sh : List Nat} (h : p + q + 1 = sh.length) : slicedShape sh (oneInt p i q) = .ok (sh.eraseIdx p) := by
  unfold slicedShape
  rw [bind_val (fullKeys_oneInt h), slicedShapeLoop_oneInt h]

theorem slicedShape_full (sh : List Nat) : slicedShape sh (List.replicate sh.length Key.full) = .ok sh := by
  have hex : Exact (List.replicate sh.length Key.full) := fun k hk => by rw [List.eq_of_mem_replicate hk]; exact ⟨rfl, rfl⟩
  unfold slicedShape
  rw [bind_val (fullKeys_self hex (by simp))]
  induction sh with
  | nil => rfl
  | cons x sh ih =>
    obtain ⟨r, hr, hl⟩ := range_full x
    have ih := ih (fun k hk => by rw [List.eq_of_mem_replicate hk]; exact ⟨rfl, rfl⟩)
    rw [List.length_cons, List.replicate_succ]
    simp only [Key.full, slicedShapeLoop] at *
    rw [bind_val hr, bind_val ih, hl]; rfl

theorem bcastLoop_nil : ∀ {ax rem : Nat} {sizes : List Nat} {ks : List Key}, bcastLoop [] ax rem sizes ks = .ok (ks, [])
  | _, _, _, [] => rfl
  | ax, rem, sizes, k :: ks => by
    unfold bcastLoop
    simp only [List.any_nil, Bool.false_eq_true, if_false]
    rw [bcastLoop_nil]; rfl

theorem allFull_full (q : Nat) : allFull (List.replicate q Key.full) = .ok true := by
  induction q with
  | zero => rfl
  | succ q ih => rw [List.replicate_succ]; unfold allFull; rw [if_pos rfl, ih]

theorem take_oneInt {p i q m} (h : p < m) (h' : m ≤ p + q + 1) : (oneInt p i q).take m = oneInt p i (m - p - 1) := by
  unfold oneInt
  rw [List.take_append, List.length_replicate, List.take_of_length_le (by simp; omega), show m - p = (m - p - 1) + 1 by omega, List.take_succ_cons, List.take_replicate]
  congr 3; omega

theorem drop_oneInt_after {p i q m} (h : p < m) : (oneInt p i q).drop m = List.replicate (p + q + 1 - m) Key.full := by
  unfold oneInt
  rw [List.drop_append, List.length_replicate, List.drop_of_length_le (by simp; omega), show m - p = (m - p - 1) + 1 by omega, List.drop_succ_cons, List.drop_replicate]
  simp only [List.nil_append]
  congr 1; omega

theorem take_oneInt_before {p i q m} (h : m ≤ p) : (oneInt p i q).take m = List.replicate m Key.full := by
  unfold oneInt
  rw [List.take_append_of_le_length (by simpa using h), List.take_replicate, Nat.min_eq_left h]

theorem drop_oneInt {p i q m} (h : m ≤ p) : (oneInt p i q).drop m = oneInt (p - m) i q := by
  unfold oneInt
  rw [List.drop_append_of_le_length (by simpa using h), List.drop_replicate]

theorem oneInt_getElem? {p i q} (k : Nat) : (oneInt p i q)[k]? = if k = p then some (.int i) else if k < p + q + 1 then some Key.full else none := by
  unfold oneInt
  rw [List.getElem?_append, List.length_replicate]
  split_ifs with h1 h2 h3 h3 h3
  · omega
  · rw [List.getElem?_replicate, if_pos h1]
  · omega
  · rw [h3]; simp
  · rw [show k - p = (k - p - 1) + 1 by omega, List.getElem?_cons_succ, List.getElem?_replicate, if_pos (by omega)]
  · rw [show k - p = (k - p - 1) + 1 by omega, List.getElem?_cons_succ, List.getElem?_replicate, if_neg (by omega)]

theorem axesInverse_oneInt {axes : List Nat} {p i q x} (hp : axes.Perm (List.range (p + q + 1))) (hx : axes[p]? = some x) :
    axesInverse axes (oneInt p i q) = .ok (oneInt x i (p + q - x)) ∧ x < p + q + 1 := by
  have hl : (oneInt p i q).length = p + q + 1 := oneInt_length p i q
  have hxl : x < p + q + 1 := by
    have := hp.mem_iff.mp (List.mem_of_getElem? hx); simpa using this
  refine ⟨?_, hxl⟩
  have hnd : axes.Nodup := hp.nodup_iff.mpr List.nodup_range
  rw [axesInverse_ok axes (oneInt p i q) Key.full (by rw [hl]; exact hp), hl]
  congr 1
  apply List.ext_getElem?
  intro k
  rw [oneInt_getElem?, List.getElem?_map]
  by_cases hk : k < p + q + 1
  · rw [List.getElem?_range hk]
    simp only [Option.map_some]
    rw [List.getD_eq_getElem?_getD, oneInt_getElem?]
    have hmem : k ∈ axes := hp.mem_iff.mpr (by simpa using hk)
    have hlt := List.idxOf_lt_length_iff.mpr hmem
    have hgl := hp.length_eq
    rw [List.length_range] at hgl
    by_cases hkx : k = x
    · subst hkx
      obtain ⟨h1, h2⟩ := List.getElem?_eq_some_iff.mp hx
      have : axes.idxOf k = p := by
        conv_lhs => rw [← h2]
        exact hnd.idxOf_getElem p h1
      rw [if_pos this, if_pos rfl]; rfl
    · have : axes.idxOf k ≠ p := by
        intro e
        have := List.getElem_idxOf hlt
        rw [← e, List.getElem?_eq_getElem hlt, this] at hx
        exact hkx (Option.some.inj hx)
      rw [if_neg this, if_neg hkx, if_pos (by omega), if_pos (by omega)]; rfl
  · rw [List.getElem?_eq_none (by simpa using hk), if_neg (by omega), if_neg (by omega)]; rfl

theorem oneInt_agg {p i q axis} (h : axis ≤ p + q + 1) : (oneInt p i q).take axis ++ [Key.full] ++ (oneInt p i q).drop axis =
    if p < axis then oneInt p i (q + 1) else oneInt (p + 1) i q := by
  split
  · rename_i hp
    rw [take_oneInt hp h, drop_oneInt_after hp]
    unfold oneInt
    rw [List.append_assoc, List.append_assoc, List.cons_append, ← List.replicate_one, ← List.append_assoc (List.replicate _ _), ← List.replicate_add, ← List.replicate_add]
    congr 3; omega
  · rename_i hp
    rw [take_oneInt_before (by omega), drop_oneInt (by omega)]
    unfold oneInt
    rw [← List.replicate_one, ← List.replicate_add, ← List.append_assoc, ← List.replicate_add]
    congr 2; omega

theorem offset_last {lens : List Nat} (h : lens ≠ []) : (tileOffsets lens).getD (lens.length - 1) 0 + lens.getD (lens.length - 1) 0 = lens.sum := by
  have hp := List.length_pos_iff.mpr h
  rw [tileOffsets_getD _ _ (by omega)]
  conv_rhs => rw [← List.take_append_drop (lens.length - 1) lens]
  rw [List.sum_append]
  congr 1
  rw [List.drop_eq_getElem_cons (by omega), show lens.length - 1 + 1 = lens.length by omega, List.drop_length]
  simp [List.getD_eq_getElem?_getD, List.getElem?_eq_getElem (show lens.length - 1 < lens.length by omega)]

theorem tileIndex_out {lens : List Nat} (h : lens ≠ []) {i : Int} (hi : ¬ inRange i lens.sum = true) : tileIndex lens i = lens.length - 1 := by
  have hb : ∀ o ∈ tileOffsets lens, o ≤ lens.sum := by
    intro o ho
    simp only [tileOffsets, List.mem_map, List.mem_range] at ho
    obtain ⟨j, _, rfl⟩ := ho
    conv_rhs => rw [← List.take_append_drop j lens]
    rw [List.sum_append]; omega
  have hl : (tileOffsets lens).length = lens.length := by simp [tileOffsets]
  have hp := List.length_pos_iff.mpr h
  simp only [inRange, Bool.and_eq_true, decide_eq_true_eq, not_and_or, not_le, not_lt] at hi
  unfold tileIndex
  rcases hi with hi | hi
  · have : (tileOffsets lens).countP (fun (o : Nat) => decide ((o : Int) ≤ i)) = 0 := by
      rw [List.countP_eq_zero]
      intro o _
      simp only [decide_eq_true_eq]; omega
    rw [this]
  · have : (tileOffsets lens).countP (fun (o : Nat) => decide ((o : Int) ≤ i)) = lens.length := by
      rw [← hl, List.countP_eq_length]
      intro o ho
      have := hb o ho
      simp only [decide_eq_true_eq]; omega
    rw [this]
    obtain ⟨k, hk⟩ : ∃ k, lens.length = k + 1 := ⟨lens.length - 1, by omega⟩
    rw [hk]; rfl

theorem inRange_last {lens : List Nat} (h : lens ≠ []) {i : Int} (hi : ¬ inRange i lens.sum = true) :
    ¬ inRange (i - ((tileOffsets lens).getD (lens.length - 1) 0 : Nat)) (lens.getD (lens.length - 1) 0) = true := by
  have := offset_last h
  simp only [inRange, Bool.and_eq_true, decide_eq_true_eq] at hi ⊢
  omega

theorem set_trimmed {p : Nat} {i j : Int} : (List.replicate p Key.full ++ [Key.int i]).set p (.int j) = List.replicate p Key.full ++ [Key.int j] := by
  rw [List.set_append_right _ _ (by simp)]; simp

theorem getitem_rejects [Inhabited α] (a : Arr α) : ∀ {s : List Nat} {keys : List Key} {p q : Nat} {i : Int} {n : Nat}, a.WF → a.shape = .ok s → a.checks p →
    s[p]? = some n → ¬ inRange i n = true → p + q + 1 = s.length → expandKeys keys s.length = .ok (oneInt p i q) → a.getitem keys = .error .index := by
  induction a with
  | adapter o c stored =>
    intro s keys p q i n hwf hs hc hp hi hq hk
    rw [Arr.getitem, arrayGetitem_exact (by rw [Arr.shape] at hs; exact hs) hk (oneInt_exact _ _ _)]
    unfold adapterFull
    refine bind_err ?_
    rw [Arr.shape] at hs
    unfold slicedShape at hs
    have hex : Exact stored := fun k hk => storable_exact (hwf.1 k hk)
    obtain ⟨fk, h1, h2⟩ := bind_ok.mp hs
    by_cases hle : stored.length ≤ c.data.shape.length
    · have h3 := expandKeys_pad (r := c.data.shape.length - stored.length) hex
      rw [show stored.length + (c.data.shape.length - stored.length) = c.data.shape.length by omega] at h3
      rw [fullKeys_of_expandKeys _ _ _ h3] at h1
      cases h1
      exact adapterLoop_err stored hwf.1 hc (by omega) h2 hp hi
    · obtain ⟨r, hr⟩ := hwf.2
      unfold npIndex at hr
      obtain ⟨fk', h4, _⟩ := bind_ok.mp hr
      have := expandKeys_noEllipsis stored c.data.shape.length (by simpa using fun k hk => (hex k hk).2)
      rw [nConsuming_exact hex, if_neg hle] at this
      rw [this] at h4; cases h4
  | const s v dt => intro s keys p q i n hwf hs hc; exact hc.elim
  | newAxes a na ih =>
    intro s keys p q i n hwf hs hc hp hi hq hk
    obtain ⟨hwa, sa, hsa, hna⟩ := hwf
    rw [Arr.shape, bind_val hsa] at hs
    cases hs
    rw [naInsert_one na sa hna] at *
    rw [Arr.getitem, bind_val hsa]
    obtain ⟨c, ns, rfl⟩ : ∃ c ns, na = c :: ns := by cases na with
      | nil => simp at hna
      | cons c ns => exact ⟨c, ns, rfl⟩
    have hns : ns.length = sa.length := by simpa using hna
    obtain ⟨g1, g2, g3⟩ := isNewOf_shape sa c ns hns
    have hlen : (c :: ns).sum + sa.length = (naShape (c :: ns) sa).length := (naShape_length hna).symm
    unfold newAxesGetitem
    rw [hlen, bind_val (fullKeys_of_expandKeys _ _ _ hk), ← hns, naInsert_true]
    simp only [Arr.checks, List.length_cons, Nat.add_sub_cancel, naInsert_true] at hc
    split at hc
    · rename_i hb
      rw [(g3 p).1 hb] at hp
      cases hp
      exact bind_err (naFold_err rfl hb hi)
    · rename_i hb
      obtain ⟨st', k1, k2⟩ := naFold_pass (i := i) (q := q) (n := 0) (st := { newAxes := c :: ns, combine := [], isNew := isNewOf c ns, keys := [], axis := 0, dict := [] })
        rfl rfl hb (by rw [g1]; exact hq)
      rw [bind_val k1, k2]
      rw [(g3 p).2 hb] at hp
      have hcnt : ((isNewOf c ns).take p).count false + ((isNewOf c ns).drop (p + 1)).count false + 1 = sa.length := by
        rw [← g2]
        conv_rhs => rw [← List.take_append_drop p (isNewOf c ns)]
        obtain ⟨hlt, hb⟩ := List.getElem?_eq_some_iff.mp hb
        rw [List.count_append, List.drop_eq_getElem_cons hlt, hb]
        simp; omega
      exact bind_err (ih hwa hsa hc hp hi hcnt (expand_oneInt hcnt))
    · exact hc.elim
  | bcast a d lead ih =>
    intro s keys p q i n hwf hs hc hp hi hq hk
    have hs0 := hs
    obtain ⟨hwa, _, _, hnd, hpos, sa, hsa, hd⟩ := hwf
    rw [Arr.shape, bind_val hsa] at hs
    obtain ⟨s', h1, hs⟩ := bind_ok.mp hs
    cases hs
    rw [Arr.getitem, arrayGetitem_exact hs0 hk (oneInt_exact _ _ _)]
    obtain ⟨hpl, hc⟩ := hc
    obtain ⟨e1, e2⟩ := shapeFromDict_get h1
    rw [List.length_append] at hq
    rw [List.getElem?_append_right hpl] at hp
    unfold bcastFull
    rw [take_oneInt_before hpl, drop_oneInt hpl, bind_val (slicedShape_full lead), bind_val hsa, bind_val h1]
    by_cases hdict : d.any (fun x => x.1 == 0 + (p - lead.length)) = true
    · exact bind_err (bcastLoop_err hdict hp hi)
    · rw [Bool.not_eq_true] at hdict
      obtain ⟨d', hd'⟩ := bcastLoop_pass (rem := 0) (sizes := s') (i := i) (q := q) hdict
      rw [bind_val hd']
      refine bind_err ?_
      unfold bcastSub
      rw [bind_val (allFull_oneInt _ _ _)]
      simp only [Bool.false_eq_true, if_false]
      rw [Nat.zero_add] at hdict
      rw [e2 _ hdict] at hp
      rcases hc with ⟨l, hl⟩ | hc
      · have : d.any (fun x => x.1 == p - lead.length) = true := List.any_eq_true.mpr ⟨_, hl, by simp⟩
        rw [this] at hdict; cases hdict
      · have hlen : p - lead.length + q + 1 = sa.length := by omega
        exact ih hwa hsa hc hp hi hlen (expand_oneInt hlen)
  | transposed a axes ih =>
    intro s keys p q i n hwf hs hc hp hi hq hk
    have hs0 := hs
    obtain ⟨hwa, sa, hsa, hperm⟩ := hwf
    rw [Arr.shape, bind_val hsa] at hs
    rw [Arr.getitem, arrayGetitem_exact hs0 hk (oneInt_exact _ _ _)]
    obtain ⟨x, hx, hc⟩ := hc
    rw [axesForward_ok axes sa 0 hperm] at hs
    cases hs
    have hal := hperm.length_eq
    rw [List.length_range] at hal
    rw [List.length_map] at hq
    obtain ⟨k1, k2⟩ := axesInverse_oneInt (i := i) (p := p) (q := q) (by rw [hq, hal]; exact hperm) hx
    unfold transposedFull
    rw [bind_val k1]
    rw [List.getElem?_map, hx, Option.map_some, Option.some.injEq] at hp
    have hxs : sa[x]? = some n := by
      rw [← hp, List.getD_eq_getElem?_getD, List.getElem?_eq_getElem (by omega)]; rfl
    have hlen : x + (p + q - x) + 1 = sa.length := by omega
    exact bind_err (ih hwa hsa hc hxs hi hlen (expand_oneInt hlen))
  | stack ss items ih =>
    intro s keys p q i n hwf hs hc hp hi hq hk
    have hs0 := hs
    obtain ⟨hprod, si, hit⟩ := hwf
    have hz := inB_zeros ss hprod
    rw [Arr.shape, bind_val (hit _ hz).2] at hs
    cases hs
    rw [Arr.getitem, arrayGetitem_exact hs0 hk (oneInt_exact _ _ _)]
    rw [List.length_append] at hq
    unfold stackFull
    by_cases hpl : p < ss.length
    · rw [List.getElem?_append_left hpl] at hp
      rw [take_oneInt hpl (by omega), bind_val (slicedShape_oneInt (by omega))]
      refine bind_err ?_
      unfold npFancy
      rw [oneInt_length, if_neg (by simp; omega)]
      rw [show (⟨ss, id⟩ : NDA (List Nat)).shape.length - (p + (ss.length - p - 1) + 1) = 0 by simp; omega, List.replicate_zero, List.append_nil]
      exact bind_err (resolve_err hp hi)
    · have hc : ∀ i, InB ss i → (items i).checks (p - ss.length) := hc.resolve_left hpl
      rw [List.getElem?_append_right (by omega)] at hp
      rw [take_oneInt_before (by omega), drop_oneInt (by omega), bind_val (slicedShape_full ss)]
      obtain ⟨σ, hσ⟩ := resolve_full_exists ss
      have hex : Exact (List.replicate ss.length Key.full) := fun k hk => by rw [List.eq_of_mem_replicate hk]; exact ⟨rfl, rfl⟩
      obtain ⟨sel, hsel, hse⟩ := npFancy_ok (⟨ss, id⟩ : NDA (List Nat)) hex hσ (Or.inl (by simp [Key.full, Key.isArr]))
      rw [bind_val hsel]
      have hlen : p - ss.length + q + 1 = si.length := by omega
      have herr : ∀ j, InB ss j → (items j).getitem (oneInt (p - ss.length) i q) = .error .index := fun j hj =>
        ih j (hit j hj).1 (hit j hj).2 (hc j hj) hp hi hlen (expand_oneInt hlen)
      have hin : ∀ j, InB sel.shape j → InB ss (sel.get j) := npFancy_inB hsel
      have hss : sel.shape = ss := by rw [hse.1]; exact (resolve_full hσ).1
      cases ss with
      | nil => exact herr _ (hin [] (by rw [hss]; trivial))
      | cons x ss =>
        simp only [List.isEmpty_cons, Bool.false_eq_true, if_false]
        refine bind_err (mapM_all_err (List.ne_nil_of_mem ((mem_ndindex _ _).mpr hz)) (fun j hj => ?_))
        have hj := (mem_ndindex _ _).mp hj
        rw [if_neg (by rw [not_not, hss]; exact hj)]
        exact herr _ (hin _ (by rw [hss]; exact hj))
  | mosaic m tiles axis ih =>
    intro s keys p q i n hwf hs hc hp hi hq hk
    have hs0 := hs
    obtain ⟨hm, st, hax, hit⟩ := hwf
    rw [Arr.getitem, arrayGetitem_exact hs0 hk (oneInt_exact _ _ _)]
    obtain ⟨k0, hk0⟩ := (hit 0 hm).2
    rw [Arr.shape, bind_val hk0] at hs
    obtain ⟨lens, hl, hs⟩ := bind_ok.mp hs
    cases hs
    have hfl := mapM_ok_inv _ _ _ hl
    have hll : lens.length = m := by have := hfl.length_eq; simpa using this.symm
    have hlg : ∀ j, j < m → ∀ t, (tiles j).shape = .ok t → lens.getD j 0 = t.getD axis 0 := by
      intro j hj t ht
      have := hfl.get (i := j) (by simpa using hj) (by omega)
      simp only [List.get_eq_getElem, List.getElem_range, ht] at this
      have e : t.getD axis 0 = lens[j]'(by omega) := Except.ok.inj this
      rw [e, List.getD_eq_getElem?_getD, List.getElem?_eq_getElem (by omega)]
      rfl
    obtain ⟨hpa, hc⟩ := hc
    unfold mosaicFull
    rw [trimKeys_oneInt]
    have hlen : ∀ k, (st.set axis k).length = st.length := fun k => by simp
    simp only [List.length_set] at hq
    by_cases hpax : p < axis
    · rw [if_pos (by simp; omega)]
      refine bind_err (mapM_first_err (x := 0) ?_ ?_)
      · rw [List.getElem?_range hm]
      · refine ih 0 (q := q) (hit 0 hm).1 hk0 (hc 0 hm) ?_ hi (by simpa using hq) ?_
        · rw [List.getElem?_set_ne (by omega)] at hp
          exact hp
        · rw [expand_trimmed (by simp; omega)]
          congr 2; simp; omega
    · have hpe : p = axis := by omega
      subst hpe
      rw [if_neg (by simp), bind_val hl]
      unfold mosaicAxis
      rw [List.getD_eq_getElem?_getD, List.getElem?_append_right (by simp)]
      simp only [List.length_replicate, Nat.sub_self, List.getElem?_cons_zero, Option.getD_some]
      have hne : lens ≠ [] := by rintro rfl; simp at hll; omega
      rw [List.getElem?_set_self (by simpa using hax), Option.some.injEq] at hp
      rw [← hp] at hi
      rw [tileIndex_out hne hi, set_trimmed]
      have hr := inRange_last hne hi
      rw [hll] at hr ⊢
      obtain ⟨k, hk'⟩ := (hit (m - 1) (by omega)).2
      rw [hlg (m - 1) (by omega) _ hk', show (st.set p k).getD p 0 = k by rw [List.getD_eq_getElem?_getD, List.getElem?_set_self hax]; rfl] at hr
      refine ih (m - 1) (q := q) (n := k) (hit _ (by omega)).1 hk' (hc _ (by omega)) (List.getElem?_set_self hax) hr (by simpa using hq) ?_
      rw [expand_trimmed (by simp; omega)]
      congr 2; simp; omega
  | asType a dt ih =>
    intro s keys p q i n hwf hs hc hp hi hq hk
    rw [Arr.getitem]
    exact bind_err (ih hwf hs hc hp hi hq hk)
  | maskVal a v ih =>
    intro s keys p q i n hwf hs hc hp hi hq hk
    rw [Arr.getitem]
    exact bind_err (ih hwf hs hc hp hi hq hk)
  | agg a axis k ih =>
    intro s keys p q i n hwf hs hc hp hi hq hk
    have hs0 := hs
    obtain ⟨hwa, sa, hsa, hax⟩ := hwf
    rw [Arr.shape, bind_val hsa] at hs
    cases hs
    rw [Arr.getitem, arrayGetitem_exact hs0 hk (oneInt_exact _ _ _)]
    rw [List.length_eraseIdx_of_lt hax] at hq
    unfold aggFull
    rw [oneInt_agg (by omega)]
    refine bind_err ?_
    simp only [Arr.checks] at hc
    rw [List.getElem?_eraseIdx] at hp
    split at hp
    · rename_i h
      rw [if_pos h] at hc ⊢
      exact ih hwa hsa hc hp hi (by omega) (expand_oneInt (by omega))
    · rename_i h
      rw [if_neg h] at hc ⊢
      exact ih hwa hsa hc hp hi (by omega) (expand_oneInt (by omega))
  | elem1 a op ih =>
    intro s keys p q i n hwf hs hc hp hi hq hk
    rw [Arr.shape] at hs
    rw [Arr.getitem, arrayGetitem_exact hs hk (oneInt_exact _ _ _)]
    exact bind_err (ih hwf hs hc hp hi hq (expand_oneInt hq))
  | elem2 a b op iha ihb =>
    intro s keys p q i n hwf hs hc hp hi hq hk
    obtain ⟨hwa, hwb, hsb⟩ := hwf
    rw [Arr.shape] at hs
    rw [Arr.getitem, arrayGetitem_exact hs hk (oneInt_exact _ _ _)]
    rcases hc with hc | ⟨hc, ha⟩
    · exact bind_err (iha hwa hs hc hp hi hq (expand_oneInt hq))
    · have hb := ihb (i := i) hwb (by rw [← hsb]; exact hs) hc hp hi hq (expand_oneInt hq)
      suffices h : ∃ a', a.getitem (oneInt p i q) = .ok a' by
        obtain ⟨a', h⟩ := h
        rw [bind_val h]
        exact bind_err hb
      rcases ha with ⟨s', v, dt, rfl⟩ | ⟨c, lead, rfl, hpl⟩
      · cases hs
        rw [Arr.getitem, bind_val (slicedShape_oneInt hq)]
        exact ⟨_, rfl⟩
      · obtain ⟨hwc, hnb, _, hnd, hpos, sa, hsa, hd⟩ := hwa
        rw [Arr.getitem, arrayGetitem_exact hs (expand_oneInt hq) (oneInt_exact _ _ _)]
        rw [Arr.shape, bind_val hsa] at hs
        cases hs
        rw [List.length_append] at hq
        unfold bcastFull
        rw [take_oneInt hpl (by omega), drop_oneInt_after hpl, bind_val (slicedShape_oneInt (by omega)), bind_val hsa]
        show ∃ a', (bcastLoop [] 0 0 sa _ >>= _) = _
        rw [bind_val bcastLoop_nil]
        simp only [bcastSub]
        rw [bind_val (allFull_full _)]
        simp only [if_true]
        have hb : ∃ a', mkBcast c [] (lead.eraseIdx p) = .ok a' := by
          have := mkBcastFlat_ok (lead := lead.eraseIdx p) hsa hnd hd (fun l hl => hpos l (List.mem_of_mem_eraseIdx hl))
          unfold mkBcast
          split
          · simp [Arr.notBcast] at hnb
          · exact ⟨_, this⟩
        exact hb

end Biggus

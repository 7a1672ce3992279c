import Verif.Proofs.Returns
/-
Adapters: errors, form of the result, evaluation.
-/
namespace Biggus

variable {α V : Type}

/-- All keys are ints or tuples. -/
def allIntTuple (ks : List Key) : Prop := ∀ k ∈ ks, (∃ i, k = .int i) ∨ ∃ l, k = .tuple l

theorem allIntTuple_nil : allIntTuple [] := by simp [allIntTuple]

theorem allIntTuple.cons {k : Key} {ks : List Key} (h : (∃ i, k = .int i) ∨ ∃ l, k = .tuple l) (h' : allIntTuple ks) :
    allIntTuple (k :: ks) := by
  intro x hx
  rcases List.mem_cons.mp hx with rfl | hx
  · exact h
  · exact h' x hx

theorem remapKey_form {ind : List Int} {k k' : Key} (h : remapKey ind k = .ok k') : (∃ i, k' = .int i) ∨ ∃ l, k' = .tuple l := by
  cases k with
  | int i => simp only [remapKey] at h; split at h <;> cases h; exact Or.inl ⟨_, rfl⟩
  | slice s =>
    simp only [remapKey] at h
    obtain ⟨l, _, h⟩ := bind_ok.mp h
    cases h; exact Or.inr ⟨_, rfl⟩
  | tuple l | list l | iarr l => simp only [remapKey] at h; split at h <;> cases h; exact Or.inr ⟨_, rfl⟩
  | barr l => simp only [remapKey] at h; split at h <;> cases h; exact Or.inr ⟨_, rfl⟩
  | newaxis | ellipsis | bad => cases h

/-- Re-indexing fully indexed data leaves only ints and tuples. -/
theorem adapterLoop_intTuple : ∀ (stored : List Key) (sh : List Nat) (new ks' : List Key) (σ : List Sel),
    (∀ k ∈ stored, k.storable = true ∧ ∀ l, k ≠ .barr l) → resolve stored sh = .ok σ → new.length = (selShape σ).length →
    adapterLoop stored sh new = .ok ks' → allIntTuple ks'
  | [], sh, new, ks', σ, _, hσ, hl, h => by
    obtain ⟨rfl, rfl⟩ := resolve_nil_iff.mp hσ
    have : new = [] := by simpa [selShape] using hl
    subst this
    unfold adapterLoop at h
    cases h
    exact allIntTuple_nil
  | k :: stored, sh, [], ks', σ, hst, hσ, hl, h => by
    unfold adapterLoop at h
    cases h
    have : selShape σ = [] := by simpa using hl.symm
    clear hl
    generalize hks : k :: stored = ks at *
    clear hks
    intro x hx
    induction ks generalizing sh σ with
    | nil => cases hx
    | cons y ks ih =>
      have hy := hst y List.mem_cons_self
      obtain ⟨n, ns, s, σ', rfl, rfl, h1, h2⟩ := (resolve_cons_iff (storable_exact hy.1).1).mp hσ
      rcases List.mem_cons.mp hx with rfl | hx
      · cases x with
        | int i => exact Or.inl ⟨i, rfl⟩
        | tuple l => exact Or.inr ⟨l, rfl⟩
        | slice sl =>
          obtain ⟨r, _, rfl⟩ := resolve1_slice h1
          simp [selShape] at this
        | barr l => exact absurd rfl (hy.2 l)
        | list l => simp [Key.storable] at hy
        | iarr l => simp [Key.storable] at hy
        | newaxis => simp [Key.storable] at hy
        | ellipsis => simp [Key.storable] at hy
        | bad => simp [Key.storable] at hy
      · refine ih ns σ' ?_ (fun k hk => hst k (List.mem_cons_of_mem _ hk)) h2 hx
        cases s <;> simp_all [selShape]
  | k :: stored, sh, nk :: new, ks', σ, hst, hσ, hl, h => by
    have hk := hst k List.mem_cons_self
    have hst' : ∀ k ∈ stored, k.storable = true ∧ ∀ l, k ≠ .barr l := fun k hk => hst k (List.mem_cons_of_mem _ hk)
    obtain ⟨n, ns, s, σ', rfl, rfl, h1, h2⟩ := (resolve_cons_iff (storable_exact hk.1).1).mp hσ
    cases k with
    | int i =>
      rw [adapterLoop] at h
      · obtain ⟨r, hr, h⟩ := bind_ok.mp h
        cases h
        have hs : selShape (s :: σ') = selShape σ' := by
          simp only [resolve1] at h1; split at h1 <;> cases h1; rfl
        rw [hs] at hl
        exact (adapterLoop_intTuple stored ns (nk :: new) r σ' hst' h2 hl hr).cons (Or.inl ⟨i, rfl⟩)
      · simp
    | slice sl =>
      rw [adapterLoop] at h
      obtain ⟨ind, _, h⟩ := bind_ok.mp h
      obtain ⟨k', hk', h⟩ := bind_ok.mp h
      obtain ⟨r, hr, h⟩ := bind_ok.mp h
      cases h
      obtain ⟨r', _, rfl⟩ := resolve1_slice h1
      exact (adapterLoop_intTuple stored ns new r σ' hst' h2 (by simpa [selShape] using hl) hr).cons (remapKey_form hk')
    | tuple l =>
      rw [adapterLoop] at h
      obtain ⟨k', hk', h⟩ := bind_ok.mp h
      obtain ⟨r, hr, h⟩ := bind_ok.mp h
      cases h
      have hs : (selShape (s :: σ')).length = (selShape σ').length + 1 := by
        simp only [resolve1] at h1; split at h1 <;> cases h1; rfl
      rw [hs] at hl
      exact (adapterLoop_intTuple stored ns new r σ' hst' h2 (by simpa using hl) hr).cons (remapKey_form hk')
    | barr l => exact absurd rfl (hk.2 l)
    | list l => simp [Key.storable] at hk
    | iarr l => simp [Key.storable] at hk
    | newaxis => simp [Key.storable] at hk
    | ellipsis => simp [Key.storable] at hk
    | bad => simp [Key.storable] at hk

theorem allIntTuple.takeSafe {ks : List Key} (h : allIntTuple ks) : takeSafe ks := by
  have := takeSafe_of (A := ks) (B := []) h (by simp) (Or.inl (by simp))
  simpa using this

theorem allIntTuple.no_barr {ks : List Key} (h : allIntTuple ks) : ∀ k ∈ ks, ∀ l, k ≠ .barr l := by
  rintro k hk l rfl
  rcases h _ hk with ⟨_, h⟩ | ⟨_, h⟩ <;> cases h

/-- Storing the first keys of a fresh adapter. -/
theorem cleanup_form {new : List Key} {sh : List Nat} {ks' : List Key} (hl : new.length = sh.length)
    (h : (new.zip sh).mapM (fun p => cleanupKey p.1 p.2) = .ok ks') :
    ks'.length = sh.length ∧ ((∀ l, Key.barr l ∉ new) → ∀ k ∈ ks', ∀ l, k ≠ .barr l) := by
  induction new generalizing sh ks' with
  | nil =>
    have : sh = [] := by simpa using hl.symm
    subst this
    cases h
    simp
  | cons k new ih =>
    match sh, hl with
    | n :: sh, hl =>
      rw [List.zip_cons_cons, List.mapM_cons] at h
      obtain ⟨k', hk, h⟩ := bind_ok.mp h
      obtain ⟨r, hr, h⟩ := bind_ok.mp h
      cases h
      obtain ⟨h1, h2⟩ := ih (by simpa using hl) hr
      refine ⟨by simp [h1], fun hb x hx l e => ?_⟩
      rcases List.mem_cons.mp hx with rfl | hx
      · subst e
        cases k with
        | int i => simp only [cleanupKey] at hk; split at hk <;> cases hk
        | slice s => cases hk
        | barr l' => exact hb l' List.mem_cons_self
        | tuple l' | list l' | iarr l' => simp only [cleanupKey] at hk; split at hk <;> cases hk
        | newaxis | ellipsis | bad => cases hk
      · exact h2 (fun l hl => hb l (List.mem_cons_of_mem _ hl)) x hx l e

/-- What a (well-formed) adapter indexed without `newaxis` becomes. -/
theorem adapter_getitem_form [Inhabited α] [Inhabited V] (m : Mode α V) {o : Bool} {c : Concrete α} {stored ks : List Key} {x r : NDA V}
    (hwf : (Arr.adapter o c stored).WF) (hb : ∀ k ∈ stored, ∀ l, k ≠ .barr l) (hn : Key.newaxis ∉ ks)
    (hx : (Arr.adapter o c stored).den m = x) (hr : npIndex x ks = .ok r) :
    ∃ fk keys, expandKeys ks x.shape.length = .ok fk ∧ Exact fk ∧ adapterLoop stored c.data.shape fk = .ok keys ∧
      (Arr.adapter o c stored).getitem ks = .ok (.adapter o c keys) ∧
      (Arr.adapter o c keys).WF ∧ (Arr.adapter o c keys).den m ≈ₐ r := by
  obtain ⟨fk, σ, h1, h2, rfl⟩ := npIndex_ok_iff.mp hr
  have hexact : Exact fk := by
    intro k hk
    refine ⟨?_, (expandKeys_spec h1).1 k hk⟩
    rcases expandKeys_mem ks fk _ h1 k hk with h | rfl
    · cases k <;> simp_all [Key.isNewaxis]
    · rfl
  subst hx
  obtain ⟨b, hb1, hb2, hb3⟩ := adapterFull_ok m o c stored hwf hb fk σ hexact h2
  have hsh : slicedShape c.data.shape stored = .ok ((Arr.adapter o c stored).den m).shape := hwf.shape_eq m
  have hget : (Arr.adapter o c stored).getitem ks = .ok b := by
    unfold Arr.getitem
    rw [arrayGetitem_exact hsh h1 hexact, hb1]
  unfold adapterFull at hb1
  obtain ⟨keys, hk1, hk2⟩ := bind_ok.mp hb1
  have hbe : b = .adapter o c keys := by
    unfold mkAdapter at hk2
    split at hk2
    · cases hk2
    · obtain ⟨_, _, hk2⟩ := bind_ok.mp hk2
      cases hk2; rfl
  subst hbe
  exact ⟨fk, keys, h1, hexact, hk1, hget, hb2, hb3⟩

/-! ### errors -/

theorem resolve1_error {k : Key} {n : Nat} {e : PyErr} (hk : k.wellTyped) (h : resolve1 k n = .error e) :
    e = .index ∧ cleanupKey k n = .error .index := by
  cases k with
  | int i => simp only [resolve1] at h; split at h <;> cases h; rename_i hi; exact ⟨rfl, by simp [cleanupKey, hi]⟩
  | slice s =>
    exfalso
    simp only [resolve1, PySlice.range, PySlice.indices, bind, Except.bind] at h
    have : s.step.getD 1 ≠ 0 := by
      intro h0
      cases hs : s.step with
      | none => rw [hs] at h0; simp at h0
      | some x => rw [hs] at h0; simp at h0; subst h0; exact hk hs
    simp only [this, if_false] at h
    cases h
  | tuple l | list l | iarr l =>
    simp only [resolve1] at h; split at h <;> cases h; rename_i hi; exact ⟨rfl, by simp only [cleanupKey, hi]; rfl⟩
  | barr l => simp only [resolve1] at h; split at h <;> cases h; exact ⟨rfl, by simp only [cleanupKey]; rw [if_pos (by omega)]⟩
  | newaxis | ellipsis | bad => exact hk.elim

theorem remapKey_error {ind : List Int} {k : Key} {e : PyErr} (hk : k.wellTyped) (h : resolve1 k ind.length = .error e) :
    remapKey ind k = .error .index := by
  cases k with
  | slice s => have := (resolve1_error hk h).2; cases this
  | int i => have := (resolve1_error hk h).2; simp only [cleanupKey] at this; simp only [remapKey]; split <;> simp_all
  | tuple l | list l | iarr l =>
    have := (resolve1_error hk h).2; simp only [cleanupKey] at this; simp only [remapKey]; split <;> simp_all
  | barr l => have := (resolve1_error hk h).2; simp only [cleanupKey] at this; simp only [remapKey]; split <;> simp_all
  | newaxis | ellipsis | bad => exact hk.elim

theorem wellTyped_exact {k : Key} (h : k.wellTyped) : k.isNewaxis = false := by
  cases k <;> simp_all [Key.wellTyped, Key.isNewaxis]

theorem resolve_cons_error {k : Key} {ks : List Key} {n : Nat} {ns : List Nat} {e : PyErr} (hk : k.isNewaxis = false)
    (h : resolve (k :: ks) (n :: ns) = .error e) :
    (∃ e', resolve1 k n = .error e') ∨ ∃ s e', resolve1 k n = .ok s ∧ resolve ks ns = .error e' := by
  rw [resolve_cons_of_ne_newaxis k ks n ns hk] at h
  cases h1 : resolve1 k n with
  | error e' => exact Or.inl ⟨e', rfl⟩
  | ok s =>
    right
    rw [h1] at h
    cases h2 : resolve ks ns with
    | error e' => exact ⟨s, e', rfl, rfl⟩
    | ok r => rw [h2] at h; cases h

theorem remapKey_succeeds {ind : List Int} {n : Nat} (hr : ∀ i ∈ ind, inRange i n = true) {k : Key} {s : Sel}
    (hk : k.isNewaxis = false) (h : resolve1 k ind.length = .ok s) : ∃ k', remapKey ind k = .ok k' := by
  obtain ⟨k', h, _⟩ := remapKey_ok hr hk h
  exact ⟨k', h⟩

theorem cleanup_error {new : List Key} {sh : List Nat} {e : PyErr} (ht : ∀ k ∈ new, k.wellTyped) (hl : new.length = sh.length)
    (h : resolve new sh = .error e) : (new.zip sh).mapM (fun p => cleanupKey p.1 p.2) = .error .index := by
  induction new generalizing sh e with
  | nil =>
    have : sh = [] := by simpa using hl.symm
    subst this
    cases h
  | cons k new ih =>
    match sh, hl with
    | n :: sh, hl =>
      have hk := ht k List.mem_cons_self
      rw [List.zip_cons_cons, List.mapM_cons]
      rcases resolve_cons_error (wellTyped_exact hk) h with ⟨e', he⟩ | ⟨s, e', hs, he⟩
      · rw [(resolve1_error hk he).2]; rfl
      · obtain ⟨k', hk', _⟩ := cleanupKey_ok (wellTyped_exact hk) hs
        rw [hk', ih (fun k hk => ht k (List.mem_cons_of_mem _ hk)) (by simpa using hl) he]
        rfl

/-- A failing index fails with `IndexError` when the keys are combined. -/
theorem adapterLoop_error : ∀ (stored : List Key) (sh : List Nat) (new : List Key) (σ : List Sel) (p : Nat) (e : PyErr),
    (∀ k ∈ stored, k.storable = true ∧ ∀ l, k ≠ .barr l) → (∀ k ∈ new, k.wellTyped) →
    resolve (stored ++ List.replicate p Key.full) sh = .ok σ → new.length = (selShape σ).length →
    resolve new (selShape σ) = .error e → adapterLoop stored sh new = .error .index
  | [], sh, new, σ, p, e, _, ht, hσ, hl, h => by
    have hp : p = sh.length := by
      have := (resolve_length (exact_replicate_full p) hσ).1; simpa using this
    subst hp
    have hfull := resolve_full hσ
    rw [hfull.1] at h hl
    unfold adapterLoop
    exact cleanup_error ht hl h
  | k :: stored, sh, [], σ, p, e, hst, ht, hσ, hl, h => by
    have : selShape σ = [] := by simpa using hl.symm
    rw [this] at h
    cases h
  | k :: stored, sh, nk :: new, σ, p, e, hst, ht, hσ, hl, h => by
    have hk := hst k List.mem_cons_self
    have hst' : ∀ k ∈ stored, k.storable = true ∧ ∀ l, k ≠ .barr l := fun k hk => hst k (List.mem_cons_of_mem _ hk)
    have hnk := ht nk List.mem_cons_self
    have ht' : ∀ k ∈ new, k.wellTyped := fun k hk => ht k (List.mem_cons_of_mem _ hk)
    rw [List.cons_append] at hσ
    obtain ⟨n, ns, s, σ', rfl, rfl, h1, h2⟩ := (resolve_cons_iff (storable_exact hk.1).1).mp hσ
    have hpick : ∀ ind : List Int, (∀ i ∈ ind, inRange i n = true) → (∃ l, s = .pick l ∧ l.length = ind.length) →
        adapterLoop (k :: stored) (n :: ns) (nk :: new) = (do
          let k' ← remapKey ind nk
          let r ← adapterLoop stored ns new
          return k' :: r) → adapterLoop (k :: stored) (n :: ns) (nk :: new) = .error .index := by
      rintro ind hind ⟨l, rfl, hll⟩ hloop
      simp only [selShape, List.length_cons, Nat.add_right_cancel_iff] at hl h
      rcases resolve_cons_error (wellTyped_exact hnk) h with ⟨e', he⟩ | ⟨s, e', hs, he⟩
      · rw [hll] at he
        rw [hloop, remapKey_error hnk he]; rfl
      · rw [hll] at hs
        obtain ⟨k', hk'⟩ := remapKey_succeeds hind (wellTyped_exact hnk) hs
        rw [hloop, hk', adapterLoop_error stored ns new σ' p e' hst' ht' h2 hl he]; rfl
    cases k with
    | int i =>
      have hs : selShape (s :: σ') = selShape σ' := by
        simp only [resolve1] at h1; split at h1 <;> cases h1; rfl
      rw [hs] at hl h
      rw [adapterLoop]
      · simp only [List.tail_cons]
        rw [adapterLoop_error stored ns (nk :: new) σ' p e hst' ht h2 hl h]; rfl
      · simp
    | slice sl =>
      obtain ⟨r, hr, hs⟩ := resolve1_slice h1
      refine hpick r (fun i hi => ?_) ⟨_, hs, by simp⟩ ?_
      · have := range_mem hr i hi; exact inRange_of_bounds this.1 this.2
      · rw [adapterLoop]; simp only [List.headD_cons, List.tail_cons, hr, bind, Except.bind]
    | tuple l =>
      simp only [resolve1] at h1
      split at h1
      · rename_i hi
        cases h1
        exact hpick l (fun i h => List.all_eq_true.mp hi i h) ⟨_, rfl, by simp⟩ (by rw [adapterLoop]; rfl)
      · cases h1
    | barr l => exact absurd rfl (hk.2 l)
    | list l => simp [Key.storable] at hk
    | iarr l => simp [Key.storable] at hk
    | newaxis => simp [Key.storable] at hk
    | ellipsis => simp [Key.storable] at hk
    | bad => simp [Key.storable] at hk

end Biggus

import Verif.Proofs.DaskKeys
/-
The normalised keys of the chunks of a streamed array.
-/
namespace Biggus

variable {α V : Type}

/-- The parts of every dimension, normalised. -/
def normL (shape : List Nat) (D : List (List PySlice)) : List (List PySlice) := List.zipWith (fun n c => c.map (fun s => normalizeSlice s n)) shape D

theorem normL_spec {shape : List Nat} {D : List (List PySlice)} (h : List.Forall₂ DimCut shape D) : List.Forall₂ DimSpec shape (normL shape D) := by
  induction h with
  | nil => exact .nil
  | cons hr _ ih => exact .cons hr.spec ih

theorem normL_few {shape : List Nat} {D : List (List PySlice)} (h : List.Forall₂ DimCut shape D) {b : Nat} (hD : ∀ c ∈ D, c.length ≤ b) :
    ∀ c ∈ normL shape D, c.length ≤ b := by
  induction h with
  | nil => intro c hc; cases hc
  | @cons n d ns ds _ _ ih =>
    intro c hc
    rcases List.mem_cons.mp hc with rfl | hc
    · simpa using hD d List.mem_cons_self
    · exact ih (fun c hc => hD c (List.mem_cons_of_mem _ hc)) c hc

theorem cart_normL : ∀ (shape : List Nat) (D : List (List PySlice)), shape.length = D.length →
    cart (normL shape D) = (cart D).map (fun k => normalizeKeys k shape)
  | [], [], _ => rfl
  | n :: shape, c :: D, h => by
    have ih := cart_normL shape D (by simpa using h)
    unfold normL at ih ⊢
    rw [List.zipWith_cons_cons, cart, ih, cart, List.map_flatMap, List.flatMap_map]
    congr 1
    funext s
    rw [List.map_map, List.map_map]
    rfl
  | [], _ :: _, h => by simp at h
  | _ :: _, [], h => by simp at h

theorem norm_inj {shape : List Nat} {D : List (List PySlice)} (h : List.Forall₂ DimCut shape D) {k k' : KeyTuple} (hk : k ∈ cart D) (hk' : k' ∈ cart D)
    (he : normalizeKeys k shape = normalizeKeys k' shape) : k = k' := by
  have hnd : (cart (normL shape D)).Nodup := by
    apply nodup_cart
    intro c hc
    obtain ⟨i, hi, rfl⟩ := List.getElem_of_mem hc
    have hs := normL_spec h
    have := (forall₂_getD hs i (by rw [hs.length_eq]; exact hi) 0 []).nodup.1
    rwa [List.getD_eq_getElem _ _ hi] at this
  rw [cart_normL shape D h.length_eq] at hnd
  exact List.inj_on_of_nodup_map hnd hk hk' he

theorem cart_nodup {shape : List Nat} {D : List (List PySlice)} (h : List.Forall₂ DimCut shape D) : (cart D).Nodup := by
  have hnd : (cart (normL shape D)).Nodup := by
    apply nodup_cart
    intro c hc
    obtain ⟨i, hi, rfl⟩ := List.getElem_of_mem hc
    have hs := normL_spec h
    have := (forall₂_getD hs i (by rw [hs.length_eq]; exact hi) 0 []).nodup.1
    rwa [List.getD_eq_getElem _ _ hi] at this
  rw [cart_normL shape D h.length_eq] at hnd
  exact List.Nodup.of_map _ hnd

theorem cart_fine {shape : List Nat} {D : List (List PySlice)} (h : List.Forall₂ DimCut shape D) : ∀ {k : KeyTuple}, k ∈ cart D →
    List.Forall₂ (fun s n => KeyFine n s) k shape := by
  induction h with
  | nil =>
    intro k hk
    simp only [cart, List.mem_singleton] at hk
    subst hk
    exact .nil
  | cons hr _ ih =>
    intro k hk
    simp only [cart, List.mem_flatMap, List.mem_map] at hk
    obtain ⟨x, hx, k', hk', rfl⟩ := hk
    exact .cons (hr.fine x hx) (ih hk')

theorem normalizeSlice_nslice {n a b : Nat} (hab : a < b) (hb : b ≤ n) : normalizeSlice (nslice n (a, b)) n = nslice n (a, b) ∧ Proper n (nslice n (a, b)) ∧
    SliceOk (.slice (nslice n (a, b))) n := by
  have hsel : sel n (nslice n (a, b)) = posl a b := by
    unfold nslice
    rw [sel_one rfl]
    have h1 : loB n (if a = 0 then none else some (a : Int)) = a := by
      unfold loB clampIdx
      by_cases h : a = 0
      · simp [h]
      · simp only [h, if_false]
        split_ifs <;> omega
    have h2 : hiB n (if b = n then none else some (b : Int)) = b := by
      unfold hiB clampIdx
      by_cases h : b = n
      · simp [h]
      · simp only [h, if_false]
        split_ifs <;> omega
    simp only
    rw [h1, h2, pyRange_posl]
  have hne : posl a b ≠ [] := by
    unfold posl
    intro h
    have := congrArg List.length h
    simp at this
    omega
  refine ⟨?_, ⟨.inl rfl, ?_, ?_, by rw [hsel]; exact hne⟩, ⟨⟨_, rfl, rfl⟩, (posl a b).map Int.toNat, ?_, ?_, ?_⟩⟩
  · have ha : ¬ ((a : Int) < 0) := by omega
    have hb' : ¬ ((b : Int) < 0) := by omega
    have hn' : ¬ ((n : Int) < 0) := by omega
    unfold normalizeSlice nslice pyOr
    by_cases h : a = 0 <;> by_cases h2 : b = n <;> simp [h, h2, ha, hb', hn']
  · intro x hx
    unfold nslice at hx
    by_cases h : a = 0
    · simp [h] at hx
    · simp [h] at hx; omega
  · intro x hx
    unfold nslice at hx
    by_cases h : b = n
    · simp [h] at hx
    · simp [h] at hx; omega
  · unfold resolve1
    unfold sel at hsel
    cases hr : (nslice n (a, b)).range n with
    | error e => rw [hr] at hsel; exact absurd hsel.symm hne
    | ok r =>
      rw [hr] at hsel
      simp only at hsel
      subst hsel
      simp only [hr]
      rfl
  · intro _ h
    exact hne (by simpa using h)
  · unfold posl
    rw [List.map_map]
    have : (Int.toNat ∘ Int.ofNat) = id := by funext x; rfl
    rw [this, List.map_id]
    exact List.pairwise_lt_range'

/-- Normalised parts are parts, and normalised. -/
theorem spec_normal {n : Nat} {N : List PySlice} (h : DimSpec n N) : DimCut n N ∧ N.map (fun s => normalizeSlice s n) = N ∧ ∀ s ∈ N, SliceOk (.slice s) n := by
  suffices hs : ∀ s ∈ N, normalizeSlice s n = s ∧ KeyFine n s ∧ SliceOk (.slice s) n by
    have he : N.map (fun s => normalizeSlice s n) = N := by
      conv_rhs => rw [← List.map_id N]
      exact List.map_congr_left (fun s hsm => (hs s hsm).1)
    exact ⟨⟨fun s hsm => (hs s hsm).2.1, by rw [he]; exact h⟩, he, fun s hsm => (hs s hsm).2.2⟩
  intro s hsm
  rcases Nat.eq_zero_or_pos n with rfl | hn
  · rw [h.zero rfl, List.mem_singleton] at hsm
    subst hsm
    exact ⟨normalizeSlice_full 0, ⟨fun _ => rfl, fun h => absurd h (by omega)⟩, ⟨PySlice.full, rfl, rfl⟩, List.range 0, resolve1_full 0, fun h => absurd rfl h,
      List.pairwise_lt_range⟩
  · obtain ⟨I, hI, rfl⟩ := h.pos hn
    obtain ⟨⟨a, b⟩, hx, rfl⟩ := List.mem_map.mp hsm
    have := hI.mem _ hx
    simp only at this
    obtain ⟨h1, h2, h3⟩ := normalizeSlice_nslice (n := n) (a := a) (b := b) this.2.1 this.2.2
    exact ⟨h1, ⟨fun h => absurd h (by omega), fun _ => h2⟩, h3⟩

theorem specs_normal {shape : List Nat} {N : List (List PySlice)} (h : List.Forall₂ DimSpec shape N) :
    List.Forall₂ DimCut shape N ∧ normL shape N = N ∧ ∀ κ ∈ cart N, List.Forall₂ SliceOk (κ.map Key.slice) shape := by
  induction h with
  | nil =>
    refine ⟨.nil, rfl, fun κ hκ => ?_⟩
    simp only [cart, List.mem_singleton] at hκ
    subst hκ
    exact .nil
  | cons hr _ ih =>
    obtain ⟨h1, h2, h3⟩ := spec_normal hr
    refine ⟨.cons h1 ih.1, ?_, fun κ hκ => ?_⟩
    · unfold normL
      rw [List.zipWith_cons_cons, h2]
      congr 1
      exact ih.2.1
    · simp only [cart, List.mem_flatMap, List.mem_map] at hκ
      obtain ⟨x, hx, k', hk', rfl⟩ := hκ
      exact .cons (h3 x hx) (ih.2.2 k' hk')

theorem normalizeKeys_normal {shape : List Nat} {N : List (List PySlice)} (h : List.Forall₂ DimSpec shape N) {κ : KeyTuple} (hκ : κ ∈ cart N) :
    normalizeKeys κ shape = κ := by
  induction h generalizing κ with
  | nil =>
    simp only [cart, List.mem_singleton] at hκ
    subst hκ
    rfl
  | @cons n c shape N hr ht ih =>
    simp only [cart, List.mem_flatMap, List.mem_map] at hκ
    obtain ⟨x, hx, k', hk', rfl⟩ := hκ
    unfold normalizeKeys
    rw [List.zipWith_cons_cons]
    have h2 := (spec_normal hr).2.1
    have hx' : normalizeSlice x n = x := by
      obtain ⟨i, hi, rfl⟩ := List.getElem_of_mem hx
      have := congrArg (fun l => l[i]?) h2
      simpa [hi] using this
    rw [hx']
    congr 1
    exact ih hk'

/-! ### Removing an axis -/

theorem zipWith_eraseIdx {β γ δ : Type} (f : β → γ → δ) : ∀ (l : List β) (l' : List γ) (i : Nat),
    (List.zipWith f l l').eraseIdx i = List.zipWith f (l.eraseIdx i) (l'.eraseIdx i) ∨ l.length ≠ l'.length
  | [], [], i => by simp
  | a :: l, [], i => by simp
  | [], b :: l', i => by simp
  | a :: l, b :: l', 0 => by simp
  | a :: l, b :: l', i + 1 => by
    rcases zipWith_eraseIdx f l l' i with h | h
    · left
      simp [h]
    · right
      simpa using h

/-- The keys without the aggregated axis. -/
def dropAx {β : Type} (ax : Option Nat) (l : List β) : List β :=
  match ax with
  | some a => l.eraseIdx a
  | none => l

theorem dropAx_map {β γ : Type} (f : β → γ) (ax : Option Nat) (l : List β) : dropAx ax (l.map f) = (dropAx ax l).map f := by
  cases ax with
  | none => rfl
  | some a => exact List.eraseIdx_map ..

theorem dropAx_forall₂ {β γ : Type} {R : β → γ → Prop} {l : List β} {l' : List γ} (h : List.Forall₂ R l l') (ax : Option Nat) :
    List.Forall₂ R (dropAx ax l) (dropAx ax l') := by
  cases ax with
  | none => exact h
  | some a => exact forall₂_eraseIdx' h a

theorem dropAx_cart {β : Type} {N : List (List β)} {k : List β} (h : k ∈ cart N) (ax : Option Nat) : dropAx ax k ∈ cart (dropAx ax N) := by
  cases ax with
  | none => exact h
  | some a => exact cart_eraseIdx N a k h

theorem dropAx_normL {shape : List Nat} {D : List (List PySlice)} (h : shape.length = D.length) (ax : Option Nat) :
    normL (dropAx ax shape) (dropAx ax D) = dropAx ax (normL shape D) := by
  cases ax with
  | none => rfl
  | some a => exact ((zipWith_eraseIdx _ shape D a).resolve_right (fun hn => hn h)).symm

theorem dropAx_normalizeKeys {shape : List Nat} {k : KeyTuple} (h : k.length = shape.length) (ax : Option Nat) :
    normalizeKeys (dropAx ax k) (dropAx ax shape) = dropAx ax (normalizeKeys k shape) := by
  cases ax with
  | none => rfl
  | some a => exact ((zipWith_eraseIdx _ k shape a).resolve_right (fun hn => hn h)).symm

/-! ### Keys as slices -/

theorem slices_of_cuts {cuts : List (List Key)} {shape : List Nat} (h : CutsOk cuts shape) :
    (cuts.map (fun c => c.map keySlice)).map (fun c => c.map Key.slice) = cuts := by
  unfold CutsOk at h
  induction h with
  | nil => rfl
  | @cons c n cuts shape hr _ ih =>
    rw [List.map_cons, List.map_cons, ih]
    congr 1
    rw [List.map_map]
    conv_rhs => rw [← List.map_id c]
    apply List.map_congr_left
    intro k hk
    obtain ⟨⟨s, rfl, _⟩, _⟩ := hr.slices k hk
    rfl

theorem cart_mapmap {β γ : Type} (f : β → γ) : ∀ (C : List (List β)), cart (C.map (fun c => c.map f)) = (cart C).map (fun k => k.map f)
  | [] => rfl
  | c :: C => by
    rw [List.map_cons, cart, cart_mapmap f C, cart, List.map_flatMap, List.flatMap_map]
    congr 1
    funext s
    rw [List.map_map, List.map_map]
    rfl

theorem keySlice_slice (k : KeyTuple) : (k.map Key.slice).map keySlice = k := by
  rw [List.map_map]
  conv_rhs => rw [← List.map_id k]
  rfl

/-- The keys of chunks are those of `cart`. -/
theorem chunkKey_slices {cuts : List (List Key)} {shape order : List Nat} (h : CutsOk cuts shape) (hp : order.Perm (List.range shape.length)) {ks : List Key} :
    ks ∈ chunkKeysOf cuts order ↔ ∃ k ∈ cart (cuts.map (fun c => c.map keySlice)), ks = k.map Key.slice := by
  have h1 := (chunkKeysOf_perm_cart (n := shape.length) hp cuts h.length h.nodup).1
  rw [h1.mem_iff]
  conv_lhs => rw [← slices_of_cuts h, cart_mapmap, List.mem_map]
  exact ⟨fun ⟨k, h1, h2⟩ => ⟨k, h1, h2.symm⟩, fun ⟨k, h1, h2⟩ => ⟨k, h1, h2.symm⟩⟩

theorem chunkKeysOf_range (cuts : List (List Key)) : chunkKeysOf cuts (List.range cuts.length) = cart cuts := by
  rw [chunkKeysOf_eq, map_getD_range]
  conv_rhs => rw [← List.map_id (cart cuts)]
  apply List.map_congr_left
  intro k hk
  have hl := cart_length hk
  unfold unperm
  rw [List.length_range]
  have : (List.range cuts.length).map (fun i => k.getD ((List.range cuts.length).idxOf i) Key.full) = (List.range cuts.length).map (fun i => k.getD i Key.full) := by
    apply List.map_congr_left
    intro i hi
    congr 1
    have hi' := List.mem_range.mp hi
    have := List.Nodup.idxOf_getElem (List.nodup_range (n := cuts.length)) i (by simpa using hi')
    rwa [List.getElem_range] at this
  rw [this, ← hl, map_getD_range]
  rfl

/-! ### `_unique_everseen` -/

theorem uniqueEverseen_skip : ∀ (l seen : List Nat), (∀ x ∈ l, x ∈ seen) → uniqueEverseen seen l = []
  | [], _, _ => rfl
  | x :: l, seen, h => by
    unfold uniqueEverseen
    rw [if_pos (h x (by simp))]
    exact uniqueEverseen_skip l seen (fun y hy => h y (by simp [hy]))

theorem uniqueEverseen_nodup : ∀ (l r seen : List Nat), l.Nodup → (∀ x ∈ l, x ∉ seen) → (∀ x ∈ r, x ∈ l ∨ x ∈ seen) → uniqueEverseen seen (l ++ r) = l
  | [], r, seen, _, _, hr => by
    rw [List.nil_append]
    exact uniqueEverseen_skip r seen (fun x hx => (hr x hx).resolve_left (by simp))
  | x :: l, r, seen, hnd, hs, hr => by
    rw [List.nodup_cons] at hnd
    rw [List.cons_append]
    unfold uniqueEverseen
    rw [if_neg (hs x (by simp)), uniqueEverseen_nodup l r (x :: seen) hnd.2 ?_ ?_]
    · intro y hy
      rw [List.mem_cons, not_or]
      exact ⟨fun he => hnd.1 (he ▸ hy), hs y (by simp [hy])⟩
    · intro y hy
      rcases hr y hy with h | h
      · rcases List.mem_cons.mp h with h | h
        · exact .inr (by simp [h])
        · exact .inl h
      · exact .inr (by simp [h])

end Biggus

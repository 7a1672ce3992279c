import Verif.Spec.Broadcast
import Verif.Proofs.Compose
import Mathlib.Data.List.GetD
/-
Broadcasting two arrays.
-/
namespace Biggus
open Spec

theorem stretches_iff {m n r : Nat} : Stretches m n r ↔
    (if m = n then Except.ok m else if m = 1 then .ok n else if n = 1 then .ok m else .error PyErr.value) = (.ok r : Res Nat) := by
  unfold Stretches
  split
  · rename_i h; subst h; simp only [Except.ok.injEq, true_and]; omega
  · split
    · simp only [Except.ok.injEq]; omega
    · split
      · simp only [Except.ok.injEq]; omega
      · simp only [reduceCtorEq, iff_false]; omega

theorem Spec.Stretches.unique {m n r r' : Nat} (h : Stretches m n r) (h' : Stretches m n r') : r = r' := by
  rw [stretches_iff] at h h'
  rw [h] at h'
  cases h'; rfl

theorem Spec.Stretches.symm {m n r : Nat} (h : Stretches m n r) : Stretches n m r := by
  unfold Stretches at h ⊢; omega

theorem Spec.Broadcasts.symm {s t r : List Nat} (h : Broadcasts s t r) : Broadcasts t s r :=
  ⟨by rw [h.1, Nat.max_comm], fun i hi => (h.2 i hi).symm⟩

theorem mapM_iff {β γ : Type} (f : β → Res γ) : ∀ (l : List β) (r : List γ), l.mapM f = .ok r ↔
    List.Forall₂ (fun x y => f x = .ok y) l r
  | [], r => by
    rw [List.mapM_nil]
    constructor
    · intro h; cases h; exact .nil
    · intro h; cases h; rfl
  | x :: l, r => by
    rw [List.mapM_cons]
    constructor
    · intro h
      obtain ⟨y, hy, h⟩ := bind_ok.mp h
      obtain ⟨ys, hys, h⟩ := bind_ok.mp h
      cases h
      exact .cons hy ((mapM_iff f l ys).mp hys)
    · intro h
      cases h with
      | cons hy h =>
        rw [hy, (mapM_iff f l _).mpr h]; rfl

theorem mapM_error {β γ : Type} (f : β → Res γ) (e : PyErr) (hf : ∀ x e', f x = .error e' → e' = e) : ∀ (l : List β),
    (∃ r, l.mapM f = .ok r) ∨ l.mapM f = .error e
  | [] => Or.inl ⟨[], rfl⟩
  | x :: l => by
    rw [List.mapM_cons]
    cases hx : f x with
    | error e' => right; rw [hf x e' hx]; rfl
    | ok y =>
      rcases mapM_error f e hf l with ⟨r, hr⟩ | hr
      · left; rw [hr]; exact ⟨y :: r, rfl⟩
      · right; rw [hr]; rfl

/-- The padded shape. -/
theorem pad_getElem {s : List Nat} {k j : Nat} (hj : j < k + s.length) :
    (List.replicate k 1 ++ s)[j]'(by simp; omega) = s.reverse.getD (k + s.length - 1 - j) 1 := by
  by_cases h : j < k
  · rw [List.getElem_append_left (by simpa using h), List.getElem_replicate, List.getD_eq_default]
    simp; omega
  · have h2 : k + s.length - 1 - j < s.reverse.length := by simp; omega
    rw [List.getElem_append_right (by simpa using h), List.getD_eq_getElem _ _ h2, List.getElem_reverse]
    congr 1
    simp; omega

theorem computeBcastShape_iff {s t r : List Nat} : computeBcastShape s t = .ok r ↔ Broadcasts s t r := by
  unfold computeBcastShape
  rw [mapM_iff, List.forall₂_iff_get]
  set L := max s.length t.length with hL
  have hs : t.length - s.length + s.length = L := by omega
  have ht : s.length - t.length + t.length = L := by omega
  have hlen : ((List.replicate (t.length - s.length) 1 ++ s).zip (List.replicate (s.length - t.length) 1 ++ t)).length = L := by
    simp; omega
  constructor
  · rintro ⟨h1, h2⟩
    rw [hlen] at h1
    refine ⟨h1.symm, fun i hi => ?_⟩
    have hj : L - 1 - i < L := by omega
    have := h2 (L - 1 - i) (by rw [hlen]; exact hj) (by omega)
    simp only [List.get_eq_getElem, List.getElem_zip] at this
    rw [← stretches_iff, pad_getElem (by omega), pad_getElem (by omega), hs, ht] at this
    rw [show L - 1 - (L - 1 - i) = i by omega] at this
    have hr : r.reverse.getD i 1 = r[L - 1 - i]'(by omega) := by
      rw [List.getD_eq_getElem _ _ (by simpa using hi), List.getElem_reverse]
      congr 1; omega
    rw [hr]; exact this
  · rintro ⟨h1, h2⟩
    refine ⟨by rw [hlen, h1], fun j hj hj' => ?_⟩
    rw [hlen] at hj
    simp only [List.get_eq_getElem, List.getElem_zip]
    rw [← stretches_iff, pad_getElem (by omega), pad_getElem (by omega), hs, ht]
    have := h2 (L - 1 - j) (by omega)
    have hr : r.reverse.getD (L - 1 - j) 1 = r[j]'(by omega) := by
      rw [List.getD_eq_getElem _ _ (by simp; omega), List.getElem_reverse]
      congr 1; omega
    rw [hr] at this; exact this

theorem computeBcastShape_error {s t : List Nat} (h : ¬ ∃ r, Broadcasts s t r) : computeBcastShape s t = .error .value := by
  rcases mapM_error (fun p : Nat × Nat => (if p.1 = p.2 then .ok p.1 else if p.1 = 1 then .ok p.2 else if p.2 = 1 then .ok p.1
      else .error .value : Res Nat)) .value (by
        intro x e' hx
        split at hx
        · cases hx
        · split at hx
          · cases hx
          · split at hx
            · cases hx
            · cases hx; rfl)
    ((List.replicate (t.length - s.length) 1 ++ s).zip (List.replicate (s.length - t.length) 1 ++ t)) with ⟨r, hr⟩ | hr
  · exact absurd ⟨r, computeBcastShape_iff.mp hr⟩ h
  · exact hr

theorem Spec.Broadcasts.unique {s t r r' : List Nat} (h : Broadcasts s t r) (h' : Broadcasts s t r') : r = r' := by
  rw [← computeBcastShape_iff] at h h'
  rw [h] at h'
  cases h'; rfl

theorem lookup_zipIdx (l : List (Nat × Nat)) : ∀ k i, (((l.zipIdx k).filter (fun p => decide (p.1.1 ≠ p.1.2))).map
    (fun p => (p.2, p.1.1))).lookup i = if k ≤ i then (l[i - k]?).bind (fun q => if q.1 ≠ q.2 then some q.1 else none) else none := by
  induction l with
  | nil => intro k i; simp
  | cons q l ih =>
    intro k i
    rw [List.zipIdx_cons, List.filter_cons]
    by_cases hq : q.1 ≠ q.2
    · rw [if_pos (by simpa using hq), List.map_cons, List.lookup_cons]
      by_cases hik : i = k
      · subst hik
        simp [hq]
      · rw [show (i == k) = false by simpa using hik, ih]
        by_cases h1 : k + 1 ≤ i
        · rw [if_pos h1, if_pos (by omega), show i - k = (i - (k + 1)) + 1 by omega, List.getElem?_cons_succ]
        · rw [if_neg h1, if_neg (by omega)]
    · rw [if_neg (by simpa using hq), ih]
      by_cases h1 : k + 1 ≤ i
      · rw [if_pos h1, if_pos (by omega), show i - k = (i - (k + 1)) + 1 by omega, List.getElem?_cons_succ]
      · rw [if_neg h1]
        by_cases h2 : k ≤ i
        · have : i = k := by omega
          subst this
          simp only [le_refl, if_true, Nat.sub_self, List.getElem?_cons_zero, Option.bind_some]
          rw [if_neg hq]
        · rw [if_neg h2]

/-- What `_compute_broadcast_kwargs` gives for an array of shape `s` broadcast to `full`. -/
structure KwOk (full s : List Nat) (d : List (Nat × Nat)) (lead : List Nat) : Prop where
  nodup : (d.map Prod.fst).Nodup
  ones : ∀ p ∈ d, s[p.1]? = some 1
  lead : lead = full.take (full.length - s.length)
  look : ∀ i, d.lookup i = if full.getD (full.length - s.length + i) 0 ≠ s.getD i 0 ∧ i < s.length
    then some (full.getD (full.length - s.length + i) 0) else none

theorem nodup_zipIdx (l : List (Nat × Nat)) : ∀ k, (((l.zipIdx k).filter (fun p => decide (p.1.1 ≠ p.1.2))).map
    (fun p => (p.2, p.1.1))).map Prod.fst |>.Nodup := by
  intro k
  rw [List.map_map]
  have : (Prod.fst ∘ fun p : (Nat × Nat) × Nat => (p.2, p.1.1)) = Prod.snd := rfl
  rw [this]
  refine List.Nodup.sublist (List.filter_sublist.map _) ?_
  rw [List.zipIdx_map_snd]
  exact List.nodup_range'

/-- An array of shape `s` can be broadcast to `full`. -/
def BroadcastsTo (s full : List Nat) : Prop := s.length ≤ full.length ∧
  ∀ i, i < s.length → s.getD i 0 = full.getD (full.length - s.length + i) 0 ∨ s.getD i 0 = 1

theorem Spec.Broadcasts.left {s t r : List Nat} (h : Broadcasts s t r) : BroadcastsTo s r := by
  refine ⟨by rw [h.1]; exact le_max_left _ _, fun i hi => ?_⟩
  have hl : s.length ≤ r.length := by rw [h.1]; exact le_max_left _ _
  have := h.2 (s.length - 1 - i) (by omega)
  have e1 : s.reverse.getD (s.length - 1 - i) 1 = s.getD i 0 := by
    rw [List.getD_eq_getElem _ _ (by simp; omega), List.getElem_reverse, List.getD_eq_getElem _ _ hi]
    congr 1; omega
  have e2 : r.reverse.getD (s.length - 1 - i) 1 = r.getD (r.length - s.length + i) 0 := by
    rw [List.getD_eq_getElem _ _ (by simp; omega), List.getElem_reverse, List.getD_eq_getElem _ _ (by omega)]
    congr 1; omega
  rw [e1, e2] at this
  unfold Stretches at this
  omega

theorem bcastKwargs_ok {full s : List Nat} (h : BroadcastsTo s full) :
    KwOk full s (bcastKwargs full s).1 (bcastKwargs full s).2 := by
  have hlook : ∀ i, (bcastKwargs full s).1.lookup i = if full.getD (full.length - s.length + i) 0 ≠ s.getD i 0 ∧ i < s.length
      then some (full.getD (full.length - s.length + i) 0) else none := by
    intro i
    unfold bcastKwargs
    simp only
    have := lookup_zipIdx ((full.drop (full.length - s.length)).zip s) 0 i
    rw [this, if_pos (Nat.zero_le _), Nat.sub_zero]
    by_cases hi : i < s.length
    · have hi' : full.length - s.length + i < full.length := by have := h.1; omega
      rw [List.getElem?_eq_getElem (by simp; omega)]
      simp only [List.getElem_zip, List.getElem_drop, Option.bind_some]
      rw [List.getD_eq_getElem _ _ hi', List.getD_eq_getElem _ _ hi]
      simp only [hi, and_true]
    · rw [List.getElem?_eq_none (by simp; omega)]
      simp [hi]
  refine ⟨nodup_zipIdx _ 0, ?_, rfl, hlook⟩
  rintro ⟨i, v⟩ hp
  have hl : (bcastKwargs full s).1.lookup i ≠ none := by
    intro hn
    have h2 := lookup_isSome_iff (bcastKwargs full s).1 i
    rw [hn] at h2
    rw [Option.isSome_none] at h2
    have := List.any_eq_true (p := fun p : Nat × Nat => p.1 == i) |>.mpr ⟨(i, v), hp, by simp⟩
    rw [this] at h2; cases h2
  rw [hlook] at hl
  have hc : full.getD (full.length - s.length + i) 0 ≠ s.getD i 0 ∧ i < s.length := by
    by_contra hc
    exact hl (if_neg hc)
  have := h.2 i hc.2
  have h1 : s.getD i 0 = 1 := by
    rcases this with h | h
    · exact absurd h.symm hc.1
    · exact h
  rw [List.getD_eq_getElem _ _ hc.2] at h1
  rw [List.getElem?_eq_getElem hc.2, h1]

variable {V : Type}

/-- Stretching with these arguments is broadcasting. -/
theorem KwOk.stretch {full : List Nat} {x : NDA V} {d : List (Nat × Nat)} {lead : List Nat} (hk : KwOk full x.shape d lead)
    (h : BroadcastsTo x.shape full) : x.stretch d lead ≈ₐ broadcastTo x full := by
  have hl := h.1
  have hll : lead.length = full.length - x.shape.length := by rw [hk.lead]; simp
  have hsh : lead ++ bcShape d 0 x.shape = full := by
    conv_rhs => rw [← List.take_append_drop (full.length - x.shape.length) full]
    rw [← hk.lead]
    congr 1
    apply List.ext_getElem?
    intro i
    rw [bcShape_getElem?, List.getElem?_drop, Nat.zero_add, hk.look]
    by_cases hi : i < x.shape.length
    · have hi' : full.length - x.shape.length + i < full.length := by omega
      rw [List.getElem?_eq_getElem hi, List.getElem?_eq_getElem hi', List.getD_eq_getElem _ _ hi', List.getD_eq_getElem _ _ hi]
      simp only [hi, and_true, Option.map_some]
      split
      · rfl
      · rename_i hne
        simp only [not_not] at hne
        rw [hne]; rfl
    · rw [List.getElem?_eq_none (by omega), List.getElem?_eq_none (by omega)]; rfl
  refine ⟨hsh, fun idx hi => ?_⟩
  have hi' : InB (lead ++ bcShape d 0 x.shape) idx := hi
  simp only [NDA.stretch, broadcastTo]
  congr 1
  have hil : idx.length = full.length := by rw [← hsh]; exact hi'.length
  have hib : ∀ j, j < full.length → idx.getD j 0 < full.getD j 0 := by
    rw [hsh] at hi'
    clear hsh hi hil hk h hl hll
    induction full generalizing idx with
    | nil => intro j hj; simp at hj
    | cons n full ih =>
      match idx, hi' with
      | i :: idx, hi' =>
        intro j hj
        cases j with
        | zero => simpa using hi'.1
        | succ j => simpa using ih _ hi'.2 j (by simpa using hj)
  apply List.ext_getElem?
  intro i
  rw [bcIdx_getElem?, Nat.zero_add, hk.look, hll, List.getElem?_drop, List.getElem?_map]
  by_cases hx : i < x.shape.length
  · rw [List.getElem?_range hx, List.getElem?_eq_getElem (by omega)]
    simp only [Option.map_some, hx, and_true]
    have hb := hib (full.length - x.shape.length + i) (by omega)
    rw [show idx.getD (full.length - x.shape.length + i) 0 = idx[full.length - x.shape.length + i]'(by omega) from
      List.getD_eq_getElem _ _ (by omega)] at hb ⊢
    by_cases hf : full.getD (full.length - x.shape.length + i) 0 ≠ x.shape.getD i 0
    · have h1 : x.shape.getD i 0 = 1 := by
        rcases h.2 i hx with h | h
        · exact absurd h.symm hf
        · exact h
      rw [if_pos hf, if_pos h1]; rfl
    · simp only [hf, if_false, Option.isSome_none, Bool.false_eq_true]
      simp only [ne_eq, not_not] at hf
      by_cases h1 : x.shape.getD i 0 = 1
      · rw [if_pos h1]
        rw [hf, h1] at hb
        congr 1; omega
      · rw [if_neg h1]
  · rw [List.getElem?_eq_none (by omega), List.getElem?_eq_none (by simp; omega)]; rfl

end Biggus

import Verif.Model.Keys
import Mathlib.Data.List.Induction
import Mathlib.Data.List.TakeWhile
import Verif.Model.NumPy
/-
Helper lemmas about `fullKeys` and `slicedShape`.
-/
namespace Biggus

theorem fullKeysLoop_left (ks : List Key) : ∀ lh rh, ks.any Key.isEllipsis = false →
    fullKeysLoop true ks lh rh = (lh ++ ks, rh) := by
  induction ks with
  | nil => intro lh rh _; rw [fullKeysLoop]; simp
  | cons k ks ih =>
    intro lh rh h
    simp only [List.any_cons, Bool.or_eq_false_iff] at h
    rw [fullKeysLoop]
    simp [h.1, ih _ _ h.2]

theorem fullKeysLoop_right (ks : List Key) : ∀ lh rh, ks.any Key.isEllipsis = false →
    fullKeysLoop false ks lh rh = (lh, rh ++ ks.reverse) := by
  induction ks using List.reverseRecOn with
  | nil => intro lh rh _; rw [fullKeysLoop]; simp
  | append_singleton ks k ih =>
    intro lh rh h
    simp only [List.any_append, Bool.or_eq_false_iff, List.any_cons, List.any_nil, Bool.or_false] at h
    rw [fullKeysLoop.eq_def]
    simp [h.2, ih _ _ h.1]

theorem fullKeysLoop_one (pre post : List Key) : ∀ lh rh,
    pre.any Key.isEllipsis = false → post.any Key.isEllipsis = false →
    fullKeysLoop true (pre ++ Key.ellipsis :: post) lh rh
      = (lh ++ pre ++ [Key.full], rh ++ post.reverse) := by
  induction pre with
  | nil =>
    intro lh rh _ h
    rw [fullKeysLoop.eq_def]
    simp [Key.isEllipsis, fullKeysLoop_right post _ _ h]
  | cons k ks ih =>
    intro lh rh h hp
    simp only [List.any_cons, Bool.or_eq_false_iff] at h
    rw [fullKeysLoop.eq_def]
    simp [h.1, ih _ _ h.2 hp]

theorem nConsuming_append (a b : List Key) : nConsuming (a ++ b) = nConsuming a + nConsuming b := by
  simp [nConsuming]

theorem nConsuming_cons (k : Key) (b : List Key) :
    nConsuming (k :: b) = (if k.isNewaxis then 0 else 1) + nConsuming b := by
  simp only [nConsuming, List.filter_cons]
  cases k.isNewaxis <;> simp; omega

@[simp] theorem nConsuming_nil : nConsuming [] = 0 := rfl

theorem nConsuming_replicate (n : Nat) : nConsuming (List.replicate n Key.full) = n := by
  simp [nConsuming, Key.isNewaxis, Key.full]

theorem nConsuming_reverse (a : List Key) : nConsuming a.reverse = nConsuming a := by
  simp [nConsuming, List.filter_reverse]

/-- Whatever the number of ellipses, the loop keeps the number of consuming keys. -/
theorem fullKeysLoop_count (b : Bool) (keys lh rh : List Key) :
    nConsuming (fullKeysLoop b keys lh rh).1 + nConsuming (fullKeysLoop b keys lh rh).2
      = nConsuming lh + nConsuming rh + nConsuming keys := by
  fun_induction fullKeysLoop b keys lh rh with
  | case1 lh rh => simp
  | case2 lh rh k ks h ih =>
    cases k <;> simp_all [Key.isEllipsis, nConsuming_append, nConsuming_cons, Key.isNewaxis, Key.full]; omega
  | case3 lh rh k ks h ih =>
    simp_all [nConsuming_append, nConsuming_cons]; omega
  | case4 b lh rh hb => simp
  | case5 b keys lh rh hb h k he ih =>
    have h1 : nConsuming keys = nConsuming keys.dropLast + 1 := by
      conv_lhs => rw [← List.dropLast_concat_getLast h, nConsuming_append]
      change nConsuming _ + nConsuming [k] = _
      clear ih
      clear_value k
      cases k <;> simp_all [Key.isEllipsis, nConsuming_cons, Key.isNewaxis]
    rw [ih, h1, nConsuming_append]
    simp [nConsuming_cons, Key.isNewaxis, Key.full]; omega
  | case6 b keys lh rh hb h k he ih =>
    have h1 : nConsuming keys = nConsuming keys.dropLast + nConsuming [k] := by
      conv_lhs => rw [← List.dropLast_concat_getLast h, nConsuming_append]
    rw [ih, h1, nConsuming_append]; omega

/-- Whatever the number of ellipses, none is left after the loop. -/
theorem fullKeysLoop_noEllipsis (b : Bool) (keys lh rh : List Key)
    (hl : lh.any Key.isEllipsis = false) (hr : rh.any Key.isEllipsis = false) :
    (fullKeysLoop b keys lh rh).1.any Key.isEllipsis = false ∧
    (fullKeysLoop b keys lh rh).2.any Key.isEllipsis = false := by
  fun_induction fullKeysLoop b keys lh rh with
  | case1 lh rh => simp_all
  | case2 lh rh k ks h ih => apply ih <;> simp_all [Key.isEllipsis, Key.full]
  | case3 lh rh k ks h ih => apply ih <;> simp_all
  | case4 b lh rh hb => simp_all
  | case5 b keys lh rh hb h k he ih => apply ih <;> simp_all [Key.isEllipsis, Key.full]
  | case6 b keys lh rh hb h k he ih => apply ih <;> simp_all

theorem takeWhile_noEllipsis (ks : List Key) (h : ks.any Key.isEllipsis = false) :
    ks.takeWhile (fun k => !k.isEllipsis) = ks ∧ ks.dropWhile (fun k => !k.isEllipsis) = [] := by
  have : ∀ k ∈ ks, (fun k : Key => !k.isEllipsis) k = true := by
    intro k hk; simp at h ⊢; exact h k hk
  have h1 := List.takeWhile_append_of_pos (l₂ := []) this
  have h2 := List.dropWhile_append_of_pos (l₂ := []) this
  simp only [List.append_nil] at h1 h2
  exact ⟨by simpa using h1, by simpa using h2⟩

theorem takeWhile_oneEllipsis (pre post : List Key) (h : pre.any Key.isEllipsis = false) :
    (pre ++ Key.ellipsis :: post).takeWhile (fun k => !k.isEllipsis) = pre ∧
    (pre ++ Key.ellipsis :: post).dropWhile (fun k => !k.isEllipsis) = Key.ellipsis :: post := by
  have : ∀ k ∈ pre, (fun k : Key => !k.isEllipsis) k = true := by
    intro k hk; simp at h ⊢; exact h k hk
  rw [List.takeWhile_append_of_pos this, List.dropWhile_append_of_pos this]
  simp [Key.isEllipsis]

theorem eraseP_oneEllipsis (pre post : List Key) (h : pre.any Key.isEllipsis = false) :
    (pre ++ Key.ellipsis :: post).eraseP Key.isEllipsis = pre ++ post := by
  rw [List.eraseP_append_right]
  · simp [List.eraseP_cons, Key.isEllipsis]
  · simpa using h

/-- A key list with at most one ellipsis has none or splits around it. -/
theorem ellipsis_cases (ks : List Key) (h : (ks.filter Key.isEllipsis).length ≤ 1) :
    ks.any Key.isEllipsis = false ∨ ∃ pre post, ks = pre ++ Key.ellipsis :: post ∧
      pre.any Key.isEllipsis = false ∧ post.any Key.isEllipsis = false := by
  induction ks with
  | nil => left; rfl
  | cons k ks ih =>
    cases hk : k.isEllipsis with
    | true =>
      right
      have : k = Key.ellipsis := by cases k <;> simp_all [Key.isEllipsis]
      subst this
      refine ⟨[], ks, rfl, rfl, ?_⟩
      simp [hk] at h ⊢
      exact h
    | false =>
      simp [hk] at h
      rcases ih (by simpa using h) with h' | ⟨pre, post, rfl, h1, h2⟩
      · left; simp_all
      · right; exact ⟨k :: pre, post, rfl, by simp_all, h2⟩

theorem expandKeys_noEllipsis (ks : List Key) (n : Nat) (h : ks.any Key.isEllipsis = false) :
    expandKeys ks n = if nConsuming ks ≤ n then
      .ok (ks ++ List.replicate (n - nConsuming ks) Key.full) else .error .index := by
  unfold expandKeys; simp only [takeWhile_noEllipsis ks h]

theorem expandKeys_oneEllipsis (pre post : List Key) (n : Nat) (h : pre.any Key.isEllipsis = false)
    (h2 : post.any Key.isEllipsis = false) :
    expandKeys (pre ++ Key.ellipsis :: post) n = if nConsuming pre + nConsuming post ≤ n then
      .ok (pre ++ List.replicate (n - (nConsuming pre + nConsuming post)) Key.full ++ post)
      else .error .index := by
  unfold expandKeys; simp only [takeWhile_oneEllipsis pre post h]; simp [h2]

/-- `_full_keys` is NumPy's key expansion. -/
theorem fullKeys_eq_expandKeys (ks : List Key) (n : Nat)
    (h : (ks.filter Key.isEllipsis).length ≤ 1) : fullKeys ks n = expandKeys ks n := by
  rcases ellipsis_cases ks h with h | ⟨pre, post, rfl, h1, h2⟩
  · rw [expandKeys_noEllipsis ks n h]
    unfold fullKeys
    simp only [h, Bool.and_false, if_false, fullKeysLoop_left ks _ _ h, Bool.false_eq_true]
    by_cases hn : nConsuming ks ≤ n
    · simp [hn, Nat.not_lt.mpr hn]
    · simp [hn, Nat.not_le.mp hn]
  · rw [expandKeys_oneEllipsis pre post n h1 h2]
    have hany : (pre ++ Key.ellipsis :: post).any Key.isEllipsis = true := by simp [Key.isEllipsis]
    have hc : nConsuming (pre ++ Key.ellipsis :: post) = nConsuming pre + nConsuming post + 1 := by
      rw [nConsuming_append, nConsuming_cons]; simp [Key.isNewaxis]; omega
    unfold fullKeys
    simp only [hany, hc, Bool.and_true]
    by_cases hd : n + 1 ≤ nConsuming pre + nConsuming post + 1
    · have hpp : (pre ++ post).any Key.isEllipsis = false := by simp_all
      simp only [hd, decide_true, if_true, eraseP_oneEllipsis pre post h1, Nat.add_sub_cancel,
        fullKeysLoop_left _ _ _ hpp]
      by_cases hn : nConsuming pre + nConsuming post ≤ n
      · have : n = nConsuming pre + nConsuming post := by omega
        simp [this]
      · simp [hn, Nat.not_le.mp hn]
    · have hle : nConsuming pre + nConsuming post ≤ n := by omega
      have hrep : n - (nConsuming pre + nConsuming post)
          = (n - (nConsuming pre + nConsuming post + 1)) + 1 := by omega
      simp only [hd, decide_false, if_false, fullKeysLoop_one pre post _ _ h1 h2, hle, if_true,
        Bool.false_eq_true]
      rw [if_neg (by omega), hrep, List.replicate_succ]
      simp

/-- Whatever the number of ellipses: a successful `_full_keys` gives one consuming key per dimension and
leaves no ellipsis. -/
theorem fullKeys_ok (ks fk : List Key) (n : Nat) (h : fullKeys ks n = .ok fk) :
    nConsuming fk = n ∧ fk.any Key.isEllipsis = false := by
  have aux : ∀ (keys' : List Key) (m : Nat), nConsuming keys' = m → m ≤ n →
      fk = (fullKeysLoop true keys' [] []).1 ++ List.replicate (n - m) Key.full ++
        (fullKeysLoop true keys' [] []).2.reverse →
      nConsuming fk = n ∧ fk.any Key.isEllipsis = false := by
    intro keys' m hm hle hfk
    subst hfk
    constructor
    · have := fullKeysLoop_count true keys' [] []
      simp only [nConsuming_nil, Nat.zero_add] at this
      simp only [nConsuming_append, nConsuming_replicate, nConsuming_reverse]
      omega
    · have := fullKeysLoop_noEllipsis true keys' [] [] rfl rfl
      simp_all [Key.isEllipsis, Key.full]
  have hpos : ∀ ks : List Key, ks.any Key.isEllipsis = true → 0 < nConsuming ks := by
    intro ks h2
    simp only [List.any_eq_true] at h2
    obtain ⟨x, hx, hx2⟩ := h2
    unfold nConsuming
    apply List.length_pos_of_mem (a := x)
    rw [List.mem_filter]
    refine ⟨hx, ?_⟩
    cases x <;> simp_all [Key.isEllipsis, Key.isNewaxis]
  have herase : ∀ ks : List Key, ks.any Key.isEllipsis = true →
      nConsuming (ks.eraseP Key.isEllipsis) = nConsuming ks - 1 := by
    intro ks
    induction ks with
    | nil => intro h; simp at h
    | cons k ks ih =>
      intro h2
      cases hk : k.isEllipsis with
      | true => cases k <;> simp_all [Key.isEllipsis, nConsuming_cons, Key.isNewaxis, List.eraseP_cons]
      | false =>
        simp only [List.any_cons, hk, Bool.false_or] at h2
        simp only [List.eraseP_cons, hk, cond_false, nConsuming_cons, ih h2]
        have := hpos ks h2
        omega
  unfold fullKeys at h
  cases hd : (decide (n + 1 ≤ nConsuming ks) && ks.any Key.isEllipsis)
  · simp only [hd, Bool.false_eq_true, if_false] at h
    split at h
    · simp at h
    · exact aux ks _ rfl (by omega) (by simpa using h.symm)
  · simp only [hd, if_true] at h
    simp only [Bool.and_eq_true] at hd
    split at h
    · simp at h
    · exact aux _ _ (herase ks hd.2) (by omega) (by simpa using h.symm)

/-- `_full_keys` raises only `IndexError`, and exactly when there are too many keys. -/
theorem fullKeys_error (ks : List Key) (n : Nat) (e : PyErr) :
    fullKeys ks n = .error e ↔ e = .index ∧
      (if ks.any Key.isEllipsis then n + 1 < nConsuming ks else n < nConsuming ks) := by
  unfold fullKeys
  cases hE : ks.any Key.isEllipsis
  · simp only [Bool.and_false, Bool.false_eq_true, if_false]
    by_cases h : n < nConsuming ks
    · simp [h, eq_comm]
    · simp [h]
  · simp only [Bool.and_true, if_true, decide_eq_true_eq]
    by_cases h1 : n + 1 ≤ nConsuming ks
    · simp only [h1, if_true]
      by_cases h2 : n < nConsuming ks - 1
      · simp only [h2, if_true]
        constructor
        · intro h; cases h; exact ⟨rfl, by omega⟩
        · rintro ⟨rfl, _⟩; rfl
      · simp only [h2, if_false]
        constructor
        · intro h; simp at h
        · rintro ⟨_, h⟩; omega
    · simp only [h1, if_false]
      rw [if_neg (by omega)]
      constructor
      · intro h; simp at h
      · rintro ⟨_, h⟩; omega


/-! ### shapes -/

theorem truePositions_length (l : List Bool) : (truePositions l).length = l.count true := by
  unfold truePositions
  induction l using List.reverseRecOn with
  | nil => rfl
  | append_singleton l b ih =>
    rw [List.length_append, List.length_singleton, List.range_succ, List.filter_append,
      List.length_append, List.count_append, ← ih]
    congr 1
    · congr 1
      apply List.filter_congr
      intro i hi
      have := List.mem_range.mp hi
      simp [List.getD_eq_getElem?_getD, List.getElem?_append_left this]
    · cases b <;> simp [List.getD_eq_getElem?_getD]

theorem resolve_cons_of_ne_newaxis (k : Key) (ks : List Key) (n : Nat) (ns : List Nat)
    (h : k.isNewaxis = false) : resolve (k :: ks) (n :: ns) = (do
      let s ← resolve1 k n
      let r ← resolve ks ns
      return s :: r) := by
  cases k <;> simp_all [Key.isNewaxis, resolve]

/-- The shape loop of `_sliced_shape` computes the shape of the orthogonal selection. -/
theorem slicedShapeLoop_of_resolve (ks : List Key) : ∀ (sh : List Nat) (s : List Sel),
    (∀ k ∈ ks, ∀ l, k ≠ .list l) → resolve ks sh = .ok s → slicedShapeLoop ks sh = .ok (selShape s) := by
  induction ks with
  | nil =>
    intro sh s _ h
    cases sh with
    | nil => simp [resolve] at h; subst h; rfl
    | cons n ns => simp [resolve] at h
  | cons k ks ih =>
    intro sh s hl h
    have hl' : ∀ k ∈ ks, ∀ l, k ≠ .list l := fun k hk => hl k (List.mem_cons_of_mem _ hk)
    by_cases hk : k = .newaxis
    · subst hk
      simp only [resolve, bind, Except.bind] at h
      split at h
      · simp at h
      · rename_i r hr
        simp [pure, Except.pure] at h; subst h
        simp [slicedShapeLoop, ih sh r hl' hr, bind, Except.bind, pure, Except.pure, selShape]
    · cases sh with
      | nil => cases k <;> simp [resolve] at h hk
      | cons n ns =>
        rw [resolve_cons_of_ne_newaxis k ks n ns (by cases k <;> simp_all [Key.isNewaxis])] at h
        simp only [bind, Except.bind] at h
        split at h
        · simp at h
        · rename_i s1 hs1
          split at h
          · simp at h
          · rename_i r hr
            simp [pure, Except.pure] at h; subst h
            have ih' := ih ns r hl' hr
            cases k with
            | int i =>
              simp only [resolve1] at hs1
              split at hs1 <;> simp at hs1
              subst hs1
              simp [slicedShapeLoop, ih', selShape]
            | slice sl =>
              simp only [resolve1, bind, Except.bind] at hs1
              split at hs1 <;> simp [pure, Except.pure] at hs1
              rename_i rr hrr
              subst hs1
              simp [slicedShapeLoop, hrr, ih', bind, Except.bind, pure, Except.pure, selShape]
            | tuple l =>
              simp only [resolve1] at hs1
              split at hs1 <;> simp at hs1
              subst hs1
              simp [slicedShapeLoop, ih', bind, Except.bind, pure, Except.pure, selShape]
            | iarr l =>
              simp only [resolve1] at hs1
              split at hs1 <;> simp at hs1
              subst hs1
              simp [slicedShapeLoop, ih', bind, Except.bind, pure, Except.pure, selShape]
            | list l => exact absurd rfl (hl _ List.mem_cons_self l)
            | barr l =>
              simp only [resolve1] at hs1
              split at hs1 <;> simp at hs1
              subst hs1
              simp [slicedShapeLoop, ih', bind, Except.bind, pure, Except.pure, selShape,
                truePositions_length]
            | newaxis => exact absurd rfl hk
            | ellipsis => simp [resolve1] at hs1
            | bad => simp [resolve1] at hs1


theorem expandKeys_ok_ellipsis (ks fk : List Key) (n : Nat) (h : expandKeys ks n = .ok fk) :
    (ks.filter Key.isEllipsis).length ≤ 1 := by
  unfold expandKeys at h
  have hsplit := List.takeWhile_append_dropWhile (p := fun k : Key => !k.isEllipsis) (l := ks)
  have hpre : (ks.takeWhile (fun k => !k.isEllipsis)).filter Key.isEllipsis = [] := by
    rw [List.filter_eq_nil_iff]
    intro a ha
    have := List.mem_takeWhile_imp ha
    simpa using this
  rw [← hsplit, List.filter_append, hpre, List.nil_append]
  simp only at h
  split at h
  · rename_i hd; simp [hd]
  · rename_i x post hd
    rw [hd]
    split at h
    · simp at h
    · rename_i hpost
      have : post.filter Key.isEllipsis = [] := by
        rw [List.filter_eq_nil_iff]; simpa using hpost
      rw [List.filter_cons, this]; split <;> simp

theorem fullKeys_of_expandKeys (ks fk : List Key) (n : Nat) (h : expandKeys ks n = .ok fk) :
    fullKeys ks n = .ok fk := by
  rw [fullKeys_eq_expandKeys ks n (expandKeys_ok_ellipsis ks fk n h), h]

/-- Every key of the expansion was written by the user or is `:`. -/
theorem expandKeys_mem (ks fk : List Key) (n : Nat) (h : expandKeys ks n = .ok fk) :
    ∀ k ∈ fk, k ∈ ks ∨ k = Key.full := by
  have hE := expandKeys_ok_ellipsis ks fk n h
  rcases ellipsis_cases ks hE with h1 | ⟨pre, post, rfl, h1, h2⟩
  · rw [expandKeys_noEllipsis ks n h1] at h
    split at h <;> simp at h
    subst h
    intro k hk
    simp at hk
    tauto
  · rw [expandKeys_oneEllipsis pre post n h1 h2] at h
    split at h <;> simp at h
    subst h
    intro k hk
    simp at hk ⊢
    tauto


theorem resolve1_new {k : Key} {n : Nat} (h : resolve1 k n = .ok .new) : k = .newaxis := by
  cases k with
  | slice s =>
    simp only [resolve1, bind, Except.bind] at h
    split at h <;> simp [pure, Except.pure] at h
  | newaxis => rfl
  | ellipsis => simp [resolve1] at h
  | bad => simp [resolve1] at h
  | _ => simp only [resolve1] at h; split at h <;> simp at h

end Biggus

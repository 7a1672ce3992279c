import Verif.Proofs.Keys
/-
C01, C02: key expansion and announced shapes.  Specification: `Verif/Spec/NDArray.lean`
(`expandKeys`, `npIndex`), which does not use biggus code.
-/
namespace Biggus

/-- C01.  For every key tuple with at most one Ellipsis, `_full_keys` is NumPy's expansion: same expanded
keys, same `IndexError`. -/
theorem C01_full_keys_is_numpy_expansion (ks : List Key) (ndim : Nat)
    (h : (ks.filter Key.isEllipsis).length ≤ 1) : fullKeys ks ndim = expandKeys ks ndim :=
  fullKeys_eq_expandKeys ks ndim h

example : (([.newaxis, .int (-1), .ellipsis, .newaxis, .tuple [0, 2]] : List Key).filter
    Key.isEllipsis).length ≤ 1 ∧
    expandKeys [.newaxis, .int (-1), .ellipsis, .newaxis, .tuple [0, 2]] 4 =
      .ok [.newaxis, .int (-1), Key.full, Key.full, .newaxis, .tuple [0, 2]] := by decide

/-- C01.  Explicit form: a single Ellipsis stands for exactly the missing `:`, and the keys (newaxis
included) before and after it stay where they are. -/
theorem C01_ellipsis_stands_for_missing_dims (pre post : List Key) (ndim : Nat)
    (h1 : ∀ k ∈ pre, k ≠ Key.ellipsis) (h2 : ∀ k ∈ post, k ≠ Key.ellipsis)
    (hn : nConsuming pre + nConsuming post ≤ ndim) :
    fullKeys (pre ++ Key.ellipsis :: post) ndim =
      .ok (pre ++ List.replicate (ndim - nConsuming pre - nConsuming post) Key.full ++ post) := by
  have e : ∀ l : List Key, (∀ k ∈ l, k ≠ Key.ellipsis) → l.any Key.isEllipsis = false := by
    intro l hl
    simp only [List.any_eq_false]
    intro k hk
    have := hl k hk
    cases k <;> simp_all [Key.isEllipsis]
  have hcount : ((pre ++ Key.ellipsis :: post).filter Key.isEllipsis).length ≤ 1 := by
    have a1 : pre.filter Key.isEllipsis = [] := by
      rw [List.filter_eq_nil_iff]; simpa using e pre h1
    have a2 : post.filter Key.isEllipsis = [] := by
      rw [List.filter_eq_nil_iff]; simpa using e post h2
    simp [List.filter_append, List.filter_cons, a1, a2, Key.isEllipsis]
  rw [fullKeys_eq_expandKeys _ _ hcount, expandKeys_oneEllipsis pre post ndim (e _ h1) (e _ h2), if_pos hn,
    Nat.sub_sub]

example : fullKeys ([.int 1] ++ Key.ellipsis :: [.newaxis, .int 2]) 4 =
    .ok [.int 1, Key.full, Key.full, .newaxis, .int 2] := by
  rw [C01_ellipsis_stands_for_missing_dims] <;> decide

/-- C01.  Whatever the keys (also with several Ellipsis): on success there is exactly one consuming key per
dimension and no Ellipsis is left. -/
theorem C01_full_keys_one_key_per_dimension (ks fk : List Key) (ndim : Nat)
    (h : fullKeys ks ndim = .ok fk) :
    nConsuming fk = ndim ∧ ∀ k ∈ fk, k ≠ Key.ellipsis := by
  obtain ⟨h1, h2⟩ := fullKeys_ok ks fk ndim h
  refine ⟨h1, fun k hk => ?_⟩
  rintro rfl
  simp only [List.any_eq_false] at h2
  exact h2 _ hk rfl

/-- C01.  Whatever the keys: the only exception is `IndexError`, raised exactly when the keys other than
newaxis (one Ellipsis not counted) outnumber the dimensions. -/
theorem C01_full_keys_error_iff (ks : List Key) (ndim : Nat) (e : PyErr) :
    fullKeys ks ndim = .error e ↔ e = .index ∧
      (if Key.ellipsis ∈ ks then ndim + 1 < nConsuming ks else ndim < nConsuming ks) := by
  rw [fullKeys_error]
  have : ks.any Key.isEllipsis = true ↔ Key.ellipsis ∈ ks := by
    simp only [List.any_eq_true]
    constructor
    · rintro ⟨k, hk, h⟩; cases k <;> simp_all [Key.isEllipsis]
    · intro h; exact ⟨_, h, rfl⟩
  simp only [this]

example : fullKeys [.int 0, .newaxis, .int 1, .ellipsis, .int 2] 2 = .error .index := by
  rw [C01_full_keys_error_iff]; decide

/-- C02.  If orthogonal NumPy indexing of an array by `ks` is defined (result `r`), then the shape computed
lazily by `_sliced_shape` is the shape of `r`.  (`list` keys are excluded: `_sliced_shape` rejects them,
see `C02_list_key_rejected`.) -/
theorem C02_sliced_shape_is_numpy_shape {β : Type} (a r : NDA β) (ks : List Key)
    (hl : ∀ l, Key.list l ∉ ks) (h : npIndex a ks = .ok r) :
    slicedShape a.shape ks = .ok r.shape := by
  unfold npIndex at h
  simp only [bind, Except.bind] at h
  split at h
  · simp at h
  · rename_i fk hfk
    split at h
    · simp at h
    · rename_i s hs
      simp [pure, Except.pure] at h
      subst h
      have hl' : ∀ k ∈ fk, ∀ l, k ≠ Key.list l := by
        intro k hk l hkl
        subst hkl
        rcases expandKeys_mem ks fk _ hfk _ hk with h | h
        · exact hl l h
        · simp [Key.full] at h
      simp [slicedShape, fullKeys_of_expandKeys ks fk _ hfk, bind, Except.bind,
        slicedShapeLoop_of_resolve fk a.shape s hl' hs, NDA.ortho]

example : (npIndex (⟨[5, 4, 3, 2], fun _ => 0⟩ : NDA Nat)
    [.slice ⟨some 10, none, some (-2)⟩, .newaxis, .barr [true, false, true], .ellipsis, .int (-1)]).map
      NDA.shape = .ok [3, 1, 2, 3] := by decide

/-- C02 boundary: a `list` key is not accepted by the lazy shape computation although NumPy accepts it. -/
theorem C02_list_key_rejected : slicedShape [3] [.list [0, 1]] = .error .value ∧
    ((npIndex (⟨[3], fun i => i⟩ : NDA (List Nat)) [.list [0, 1]]).map NDA.shape) = .ok [2] := by decide +kernel

end Biggus

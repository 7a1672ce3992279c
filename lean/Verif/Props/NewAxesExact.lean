import Verif.Proofs.NewAxesExact
import Verif.Props.Containers
/-
C08: what indexing a `NewAxesArray` gives for every integer, slice and tuple on the new dimensions.
-/
namespace Biggus

open Spec

variable {α V : Type} [Inhabited α] [Inhabited V] {m : Mode α V} {limit : Nat}

/-- C08, exactly.  Index an array with new axes with `ks` (`fk` once `...` is expanded), where the keys on new axes are integers, slices or tuples that
NumPy accepts and the keys on the other dimensions are simple.  Let `z` be what NumPy gives with `:` in place of the slices and tuples on new axes.  NumPy's
result is `z` with the dimension of each such key given the length the key asks for (`cutsNumpy`).  The code numbers the dimension by the *position of the
key* (`cutsAtKeys`), which differs as soon as an integer key comes before: if the dimensions so numbered all have length 1 in `z`, it gives them the
lengths; otherwise it raises `ValueError`. -/
theorem C08_exact (fwd : Bool) (a b : Arr α) (hb : a.Built m limit fwd false .whole) (na : List Nat) (hn : mkNewAxes a na = .ok b) (x r : NDA V)
    (hx : a.Yields m limit x) (ks fk : List Key) (hfk : expandKeys ks (x.insertAxes na).shape.length = .ok fk) (hg : NewKeys (newDims na) fk)
    (hs : List.Forall₂ (SimpleKey fwd false) (dropNew (keepNew (newDims na) fk)) (x.insertAxes na).shape) (hr : npIndex (x.insertAxes na) ks = .ok r) :
    ∃ z, npIndex (x.insertAxes na) (keepNew (newDims na) fk) = .ok z ∧ r ≈ₐ z.stretch (cutsNumpy na fk) [] ∧
      (∀ q ∈ cutsNumpy na fk, z.shape[q.1]? = some 1) ∧
      ((∀ q ∈ cutsAtKeys na fk, z.shape[q.1]? = some 1) →
        ∃ e, b.getitem ks = .ok e ∧ e.Yields m limit (z.stretch (cutsAtKeys na fk) [])) ∧
      ((∃ q ∈ cutsAtKeys na fk, z.shape[q.1]? ≠ some 1) → b.getitem ks = .error .value) := by
  obtain ⟨hna, rfl⟩ := (mkNewAxes_iff hx.1).mp hn
  obtain ⟨fk', τ, hfk', hτ, rfl⟩ := npIndex_ok_iff.mp hr
  rw [hfk] at hfk'
  cases hfk'
  obtain ⟨τ', k1, k2, k3, k4, k5⟩ := keep_sem (p := 0) (newDims_ones hna) hg hτ
  obtain ⟨hred, hflat⟩ := newAxes_getitem_keep hx.1 hna hfk hg hτ
  have hE' := keepNew_noEllipsis (expandKeys_spec hfk).1 (newDims na)
  have hexp : expandKeys (keepNew (newDims na) fk) (x.insertAxes na).shape.length = .ok (keepNew (newDims na) fk) :=
    expandKeys_self hE' (nConsuming_resolve k1)
  have hyields : (Arr.newAxes a na).Yields m limit (x.insertAxes na) := yields_newAxes hx hna
  obtain ⟨h1, h2, _, h4⟩ := (Arr.Built.newAxes (by simp) hb hn).fine
  obtain ⟨e, r', g1, g2, g3, _⟩ := C06_simple_keys fwd [keepNew (newDims na) fk] _ _ h1 h2 h4 hyields
    ⟨⟨_, hexp, hs⟩, fun _ _ _ _ => trivial⟩
  have g1' : (Arr.newAxes a na).getitem (keepNew (newDims na) fk) = .ok e := by
    simp only [List.foldlM, bind, Except.bind, pure, Except.pure] at g1
    split at g1
    · cases g1
    · rename_i h; rw [h]; exact g1
  have hz : npIndex (x.insertAxes na) (keepNew (newDims na) fk) = .ok ((x.insertAxes na).ortho τ') :=
    npIndex_ok_iff.mpr ⟨_, _, hexp, k1, rfl⟩
  have g2' : r' = (x.insertAxes na).ortho τ' := by
    simp only [indexAll, hz, List.foldlM, bind, Except.bind, pure, Except.pure, Except.ok.injEq] at g2
    exact g2.symm
  subst g2'
  rw [g1'] at hred
  have hflat' := hflat e g1'
  have hnd : ((cutsAtKeys na fk).map Prod.fst).Nodup :=
    ((cutsNew_increasing _ (fun _ _ => rfl)).1).imp (fun h => Nat.ne_of_lt h)
  refine ⟨_, hz, ⟨?_, fun idx hi => ?_⟩, fun q hq => (k3 q hq).2, fun hall => ?_, fun hex => ?_⟩
  · simp only [NDA.stretch, NDA.ortho, cutsNumpy, List.nil_append]
    exact k4.symm
  · simp only [NDA.stretch, NDA.ortho, cutsNumpy, List.length_nil, List.drop_zero]
    rw [k5 idx hi]
  · rw [hred]
    by_cases hd : cutsAtKeys na fk = []
    · refine ⟨e, by simp [hd, Except.bind], g3.congr ?_⟩
      rw [hd]
      refine ⟨?_, fun idx _ => ?_⟩
      · simp [NDA.stretch, bcShape_nil]
      · simp [NDA.stretch, bcIdx_nil]
    · obtain ⟨c, c1, c2, _⟩ := yields_mkBcast (lead := []) (Or.inl ⟨hflat', g3⟩) hnd hall (by simp)
      exact ⟨c, by simpa [hd, Except.bind] using c1, c2⟩
  · obtain ⟨q, hq, hne⟩ := hex
    have hd : cutsAtKeys na fk ≠ [] := List.ne_nil_of_mem hq
    rw [hred]
    simp only [Except.bind, List.isEmpty_iff, hd, if_false]
    rw [mkBcast_notBcast hflat']
    unfold mkBcastFlat
    rw [g3.1]
    simp only [bind, Except.bind]
    rcases shapeFromDict_error (cutsAtKeys na fk) ((x.insertAxes na).ortho τ').shape with ⟨s', hs'⟩ | he
    · exact absurd (shapeFromDict_inv _ _ _ hnd hs' q hq) hne
    · rw [he]

theorem cutsNew_sizes (f g : Key → Bool) : ∀ (fk : List Key) (p p' : Nat) (fs : List Bool),
    (cutsNew f p fs fk).map Prod.snd = (cutsNew g p' fs fk).map Prod.snd := by
  intro fk
  induction fk with
  | nil => intro p p' fs; cases fs <;> simp [cutsNew]
  | cons k fk ih =>
    intro p p' fs
    by_cases hk : k = .newaxis
    · subst hk
      have hcut : ∀ (f : Key → Bool) p, cutsNew f p fs (.newaxis :: fk) = cutsNew f (p + 1) fs fk := by
        intro f p
        rcases fs with _ | ⟨_ | _, fs⟩ <;> simp only [cutsNew]
      rw [hcut, hcut]; exact ih _ _ _
    · rcases fs with _ | ⟨_ | _, fs⟩
      · rw [cutsNew, cutsNew] <;> first | rfl | exact hk
      · rw [cutsNew, cutsNew]
        · exact ih _ _ _
        · exact hk
        · exact hk
      · rw [cutsNew, cutsNew]
        · simp only [List.map_append, List.map_map]
          rw [ih _ (if g k = true then p' + 1 else p') fs]
          rfl
        · exact hk
        · exact hk

theorem lookup_mem_iff {d : List (Nat × Nat)} (hn : (d.map Prod.fst).Nodup) {p n : Nat} : d.lookup p = some n ↔ (p, n) ∈ d := by
  induction d with
  | nil => simp
  | cons q d ih =>
    obtain ⟨p', n'⟩ := q
    simp only [List.map_cons, List.nodup_cons] at hn
    rw [List.lookup_cons]
    by_cases h : p = p'
    · subst h
      simp only [beq_self_eq_true, Option.some.injEq, List.mem_cons, Prod.mk.injEq, true_and]
      constructor
      · intro h; exact Or.inl h.symm
      · rintro (h | h)
        · exact h.symm
        · exact absurd (List.mem_map.mpr ⟨_, h, rfl⟩) hn.1
    · have : (p == p') = false := by simpa using h
      rw [this]
      simp only [List.mem_cons, Prod.mk.injEq, h, false_and, false_or]
      exact ih hn.2

/-- C08, when the code is right.  In the situation of `C08_exact`, and without tuples of exactly one index on new axes, indexing succeeds with NumPy's
result if and only if every key that asks for another length stands at the position of its dimension in NumPy's result, that is, no integer comes before
it. -/
theorem C08_right_iff (fwd : Bool) (a b : Arr α) (hb : a.Built m limit fwd false .whole) (na : List Nat) (hn : mkNewAxes a na = .ok b) (x r : NDA V)
    (hx : a.Yields m limit x) (ks fk : List Key) (hfk : expandKeys ks (x.insertAxes na).shape.length = .ok fk) (hg : NewKeys (newDims na) fk)
    (hs : List.Forall₂ (SimpleKey fwd false) (dropNew (keepNew (newDims na) fk)) (x.insertAxes na).shape) (hr : npIndex (x.insertAxes na) ks = .ok r)
    (h1 : ∀ q ∈ cutsNumpy na fk, q.2 ≠ 1) :
    (∃ e, b.getitem ks = .ok e ∧ e.Yields m limit r) ↔ cutsAtKeys na fk = cutsNumpy na fk := by
  obtain ⟨z, hz, hrz, hz1, hgood, hbad⟩ := C08_exact fwd a b hb na hn x r hx ks fk hfk hg hs hr
  have hi := (cutsNew_increasing (fun _ => true) (fun _ _ => rfl) (fk := fk) (p := 0) (fs := newDims na)).1
  have hi' := (cutsNew_increasing (fun k => !k.isScalar) (fun k hk => by simp [hk]) (fk := fk) (p := 0) (fs := newDims na)).1
  have hnd : ((cutsAtKeys na fk).map Prod.fst).Nodup := hi.imp (fun h => Nat.ne_of_lt h)
  have hnd' : ((cutsNumpy na fk).map Prod.fst).Nodup := hi'.imp (fun h => Nat.ne_of_lt h)
  constructor
  · rintro ⟨e, he, hy⟩
    by_cases hall : ∀ q ∈ cutsAtKeys na fk, z.shape[q.1]? = some 1
    swap
    · push Not at hall
      rw [hbad hall] at he; cases he
    obtain ⟨e', he', hy'⟩ := hgood hall
    rw [he] at he'
    cases he'
    have hsh : (z.stretch (cutsAtKeys na fk) []).shape = (z.stretch (cutsNumpy na fk) []).shape := by
      rw [← hrz.1]
      have := hy'.1.symm.trans hy.1
      exact Except.ok.inj this
    simp only [NDA.stretch, List.nil_append] at hsh
    have hsz : ∀ q ∈ cutsAtKeys na fk, q.2 ≠ 1 := by
      intro q hq h
      have : q.2 ∈ (cutsNumpy na fk).map Prod.snd := by
        rw [cutsNumpy, ← cutsNew_sizes (fun _ => true) (fun k => !k.isScalar) fk 0 0 (newDims na)]
        exact List.mem_map.mpr ⟨q, hq, rfl⟩
      obtain ⟨q', hq', he⟩ := List.mem_map.mp this
      exact h1 q' hq' (he.trans h)
    have hstep : ∀ {D D' : List (Nat × Nat)}, (D.map Prod.fst).Nodup → (D'.map Prod.fst).Nodup → (∀ q ∈ D, z.shape[q.1]? = some 1) → (∀ q ∈ D, q.2 ≠ 1) →
        bcShape D 0 z.shape = bcShape D' 0 z.shape → ∀ q ∈ D, q ∈ D' := by
      intro D D' hD hD' hz hne hbc q hq
      have := congrArg (fun l => l[q.1]?) hbc
      simp only [bcShape_getElem?, hz q hq, Nat.zero_add, Option.map_some, Option.some.injEq, (lookup_mem_iff hD).mpr hq, Option.getD_some] at this
      rw [← lookup_mem_iff hD']
      cases hl : D'.lookup q.1 with
      | none => rw [hl] at this; exact absurd this (hne q hq)
      | some n => rw [hl] at this; simp only [Option.getD_some] at this; rw [this]
    have hperm : (cutsAtKeys na fk).Perm (cutsNumpy na fk) := by
      rw [List.perm_ext_iff_of_nodup (List.Nodup.of_map _ hnd) (List.Nodup.of_map _ hnd')]
      exact fun q => ⟨hstep hnd hnd' hall hsz hsh q, hstep hnd' hnd hz1 h1 hsh.symm q⟩
    exact hperm.eq_of_pairwise (le := fun a b => a.1 < b.1) (fun a b _ _ h h' => absurd h (Nat.lt_asymm h')) (List.pairwise_map.mp hi) (List.pairwise_map.mp hi')
  · intro heq
    obtain ⟨e, he, hy⟩ := hgood (by rw [heq]; exact hz1)
    exact ⟨e, he, hy.congr (by rw [heq]; exact hrz.symm)⟩

/-- The hypotheses of `C08_exact` and `C08_right_iff` hold of `y[0, 0, :, 0:0, :]` for `y` an array of shape (1, 2, 3, 1, 1, 4) made from the source of the
examples, with an integer before the empty slice of a new axis ... -/
example : expandKeys [.int 0, .int 0, Key.full, .slice ⟨some 0, some 0, none⟩] 6 = .ok [.int 0, .int 0, Key.full, .slice ⟨some 0, some 0, none⟩, Key.full, Key.full] ∧
    NewKeys (newDims [1, 0, 2, 0]) [.int 0, .int 0, Key.full, .slice ⟨some 0, some 0, none⟩, Key.full, Key.full] ∧
    dropNew (keepNew (newDims [1, 0, 2, 0]) [.int 0, .int 0, Key.full, .slice ⟨some 0, some 0, none⟩, Key.full, Key.full]) =
      [.int 0, .int 0, Key.full, Key.full, Key.full, Key.full] ∧
    cutsNumpy [1, 0, 2, 0] [.int 0, .int 0, Key.full, .slice ⟨some 0, some 0, none⟩, Key.full, Key.full] = [(1, 0)] ∧
    cutsAtKeys [1, 0, 2, 0] [.int 0, .int 0, Key.full, .slice ⟨some 0, some 0, none⟩, Key.full, Key.full] = [(3, 0)] := by
  refine ⟨by decide +kernel, ?_, by decide +kernel, by decide +kernel, by decide +kernel⟩
  simp only [newDims, Key.full, List.replicate, List.nil_append, List.cons_append, NewKeys]
  exact ⟨Or.inl ⟨_, rfl⟩, Or.inr (Or.inl ⟨_, rfl⟩), Or.inr (Or.inl ⟨_, rfl⟩), trivial⟩

/-- C08 fails of the code silently: the wrong new axis is emptied.  With `y` of shape (2, 3, 1, 1, 4), `y[0, :, 0:0]` has shape (3, 0, 1, 4) in NumPy and
(3, 1, 0, 4) in biggus; with one integer more, `y[0, 0, 0:0]` raises `ValueError` instead of giving shape (0, 1, 4); and `y[:, 0:1, (0, 0)]`, without an
integer, is right. -/
theorem C08_wrong_axis_cut :
    ((mkNewAxes (Arr.adapter false exSource []) [0, 0, 2, 0] >>= fun y => y.getitem [.int 0, Key.full, .slice ⟨some 0, some 0, none⟩]) >>= fun e =>
      e.shape) = .ok [3, 1, 0, 4] ∧
    ((npIndex (exSource.data.insertAxes [0, 0, 2, 0]) [.int 0, Key.full, .slice ⟨some 0, some 0, none⟩]).map (fun r => r.shape)) = .ok [3, 0, 1, 4] ∧
    ((mkNewAxes (Arr.adapter false exSource []) [0, 0, 2, 0] >>= fun y => y.getitem [.int 0, .int 0, .slice ⟨some 0, some 0, none⟩]) >>= fun e =>
      e.shape) = .error .value ∧
    ((npIndex (exSource.data.insertAxes [0, 0, 2, 0]) [.int 0, .int 0, .slice ⟨some 0, some 0, none⟩]).map (fun r => r.shape)) = .ok [0, 1, 4] ∧
    ((mkNewAxes (Arr.adapter false exSource []) [0, 0, 2, 0] >>= fun y => y.getitem [Key.full, .slice ⟨some 0, some 1, none⟩, .tuple [0, 0]]) >>= fun e =>
      e.shape) = .ok [2, 1, 2, 1, 4] := by
  refine ⟨by decide +kernel, by decide +kernel, by decide +kernel, by decide +kernel, by decide +kernel⟩

end Biggus

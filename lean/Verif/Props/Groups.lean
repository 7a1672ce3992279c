import Verif.Proofs.GroupRun
import Verif.Proofs.Returns
/-
C26, C27, C28 for groups of arrays: `biggus.ndarrays([x, y, ...])` under all schedules of the threads.
-/
namespace Biggus

variable {α V : Type} [Inhabited α] [Inhabited V] {m : Mode α V} {limit cap : Nat} {evalP : Arr α → Res (NDA V)} {xs : List (AObj α)}

/-- Evaluating the arrays one after the other. -/
def oneByOne (m : Mode α V) (limit : Nat) (evalP : Arr α → Res (NDA V)) (xs : List (AObj α)) : Res (List (NDA V)) :=
  xs.mapM (fun x => engineOne m limit evalP x.toArr)

theorem asked_of {P Q : Prop} {heap : Nat → AObj α} {ord : Nat → List Nat} (h1 : ∀ x ∈ xs, x.Proper) (h2 : ∀ x ∈ xs, x.inHeap heap)
    (h3 : ∀ x ∈ xs, x.served m limit evalP ord (List.range (okOr x.toArr.shape []).length)) (hwf : ∀ x ∈ xs, x.toArr.WF)
    (hal : ∀ x ∈ xs, x.toArr.aligned limit (List.range (okOr x.toArr.shape []).length))
    (hp : P → (∀ x ∈ xs, x.toArr.samePace) ∧ ∃ rs, oneByOne m limit evalP xs = .ok rs) (hq : Q → ∀ x ∈ xs, x.toArr.oneChunk limit) :
    ∀ x ∈ xs, Asked P Q heap ord m limit evalP x (List.range (okOr x.toArr.shape []).length) ∧ (P → ∃ r, engineOne m limit evalP x.toArr = .ok r) := by
  have he : P → ∀ x ∈ xs, ∃ r, engineOne m limit evalP x.toArr = .ok r := by
    intro p x hx
    obtain ⟨rs, hrs⟩ := (hp p).2
    have := mapM_ok_iff.mp hrs
    obtain ⟨i, hi, rfl⟩ := List.getElem_of_mem hx
    have hi' : i < rs.length := by rw [← this.length_eq]; exact hi
    exact ⟨rs[i], this.get hi hi'⟩
  refine fun x hx => ⟨⟨h2 x hx, h1 x hx, h3 x hx, hwf x hx, hal x hx, ?_, fun q => hq q x hx, fun p => ⟨(hp p).1 x hx, ?_⟩⟩, fun p => he p x hx⟩
  · have hs := (hwf x hx).shape_eq m
    exact ⟨_, hs, by rw [hs]; exact List.Perm.refl _⟩
  · have hs := (hwf x hx).shape_eq m
    obtain ⟨r, hr⟩ := he p x hx
    unfold engineOne at hr
    rw [hs] at hr
    obtain ⟨cs, hcs, _⟩ := bind_ok.mp (show (x.toArr.stream m limit evalP (List.range (x.toArr.den m).shape.length) >>= fun cs => assemble _ cs) = .ok r from hr)
    refine ⟨cs, ?_⟩
    rw [hs]; exact hcs

theorem oneByOne_error {x : AObj α} (hx : x ∈ xs) {e : PyErr} (h : engineOne m limit evalP x.toArr = .error e) : ∀ rs, oneByOne m limit evalP xs ≠ .ok rs := by
  intro rs hrs
  have := mapM_ok_iff.mp hrs
  obtain ⟨i, hi, rfl⟩ := List.getElem_of_mem hx
  have hi' : i < rs.length := by rw [← this.length_eq]; exact hi
  have := this.get hi hi'
  simp only [List.get_eq_getElem] at this
  rw [h] at this
  cases this

/-- Results of the threads and the outcome. -/
theorem outcome_of {rs : List Nat} {c : Conf (Chunk V) (NDA V)}
    (h : List.Forall₂ (fun r x => (c.loc r).result = some (engineOne m limit evalP (AObj.toArr x)).toOption) rs xs) :
    (groupOutcome rs c ≠ none) ∧ ∀ l, groupOutcome rs c = some (.ok l) ↔ oneByOne m limit evalP xs = .ok l := by
  constructor
  · unfold groupOutcome
    have : rs.mapM (fun r => (c.loc r).result) = some (xs.map (fun x => (engineOne m limit evalP (AObj.toArr x)).toOption)) := by
      rw [mapM_some_iff, List.forall₂_map_right_iff]; exact h
    rw [this]; simp
  · intro l
    have h1 : List.Forall₂ (fun r q => (c.loc r).result = some (Except.toOption q)) rs (xs.map (fun x => engineOne m limit evalP x.toArr)) := by
      rw [List.forall₂_map_right_iff]; exact h
    rw [outcome_eq h1 l, mapM_ok_iff, List.forall₂_map_left_iff]
    unfold oneByOne
    rw [mapM_ok_iff]
    rfl

/-- The graph of a group. -/
theorem group_built (hpr : ∀ x ∈ xs, x.Proper) {heap : Nat → AObj α} (hh : ∀ x ∈ xs, x.inHeap heap) {ord : Nat → List Nat}
    (ho : ∀ x ∈ xs, x.served m limit evalP ord (List.range (okOr x.toArr.shape []).length)) (hwf : ∀ x ∈ xs, x.toArr.WF)
    (hal : ∀ x ∈ xs, x.toArr.aligned limit (List.range (okOr x.toArr.shape []).length)) {P Q : Prop}
    (hp : P → (∀ x ∈ xs, x.toArr.samePace) ∧ ∃ rs, oneByOne m limit evalP xs = .ok rs) (hq : Q → ∀ x ∈ xs, x.toArr.oneChunk limit) :
    (∃ e, buildGroup m limit evalP xs ⟨[], []⟩ = .error e ∧ ∀ rs, oneByOne m limit evalP xs ≠ .ok rs) ∨
    ∃ rs b' T', buildGroup m limit evalP xs ⟨[], []⟩ = .ok (rs, b') ∧ BInv P Q heap ord m limit evalP b' T' ∧
      List.Forall₂ (fun r x => r < b'.nodes.length ∧ (b'.nodes.final r).result = some (engineOne m limit evalP (AObj.toArr x)).toOption) rs xs := by
  rcases buildGroup_ok xs ⟨[], []⟩ (fun _ => []) BInv.empty (asked_of (m := m) (evalP := evalP) hpr hh ho hwf hal hp hq) with ⟨e, h1, x, hx, e', h2⟩ | ⟨rs, b', T', h1, h2, h3, h4⟩
  · exact Or.inl ⟨e, h1, oneByOne_error hx h2⟩
  · exact Or.inr ⟨rs, b', T', h1, h2, h4⟩

/-- If there is an outcome, it is the sequential one. -/
theorem group_outcome {heap : Nat → AObj α} {ord : Nat → List Nat} {P Q : Prop}
    (hb : (∃ e, buildGroup m limit evalP xs ⟨[], []⟩ = .error e ∧ ∀ rs, oneByOne m limit evalP xs ≠ .ok rs) ∨
    ∃ rs b' T', buildGroup m limit evalP xs ⟨[], []⟩ = .ok (rs, b') ∧ BInv P Q heap ord m limit evalP b' T' ∧
      List.Forall₂ (fun r x => r < b'.nodes.length ∧ (b'.nodes.final r).result = some (engineOne m limit evalP (AObj.toArr x)).toOption) rs xs)
    {out : Res (List (NDA V))}
    (h : GroupOutcome m limit cap evalP xs (some out)) : ∀ rs, out = .ok rs ↔ oneByOne m limit evalP xs = .ok rs := by
  unfold GroupOutcome at h
  rcases hb with ⟨e, h1, h2⟩ | ⟨rs, b', T', h1, h2, h4⟩
  · rw [h1] at h
    cases h
    intro rs
    exact ⟨(fun h => by cases h), fun h => absurd h (h2 rs)⟩
  · rw [h1] at h
    obtain ⟨n, c, s1, s2, ho⟩ := h
    have hr : List.Forall₂ (fun r x => (c.loc r).result = some (engineOne m limit evalP (AObj.toArr x)).toOption) rs xs := by
      have hall : ∀ r ∈ rs, ∃ q, (c.loc r).result = some q := by
        unfold groupOutcome at ho
        obtain ⟨qs, hq, _⟩ := Option.map_eq_some_iff.mp ho.symm
        have := mapM_some_iff.mp hq
        intro r hr
        obtain ⟨i, hi, rfl⟩ := List.getElem_of_mem hr
        have hi' : i < qs.length := by rw [← this.length_eq]; exact hi
        exact ⟨qs[i], this.get hi hi'⟩
      rw [List.forall₂_iff_get] at h4 ⊢
      refine ⟨h4.1, fun i hi hi' => ?_⟩
      obtain ⟨q, hq⟩ := hall rs[i] (List.getElem_mem hi)
      have := C26_result_is_sequential h2.valid (outs_wired h2.valid) s1 hq
      have h5 := (h4.2 i hi hi').2
      simp only [List.get_eq_getElem] at h5 ⊢
      rw [hq, ← this, h5]
    intro l
    rw [← (outcome_of hr).2 l, ← ho]
    simp

/-- If all threads terminate, there is an outcome. -/
theorem group_halts {heap : Nat → AObj α} {ord : Nat → List Nat} {P Q : Prop}
    (hb : (∃ e, buildGroup m limit evalP xs ⟨[], []⟩ = .error e ∧ ∀ rs, oneByOne m limit evalP xs ≠ .ok rs) ∨
    ∃ rs b' T', buildGroup m limit evalP xs ⟨[], []⟩ = .ok (rs, b') ∧ BInv P Q heap ord m limit evalP b' T' ∧
      List.Forall₂ (fun r x => r < b'.nodes.length ∧ (b'.nodes.final r).result = some (engineOne m limit evalP (AObj.toArr x)).toOption) rs xs)
    (hh : ∀ (rs' : List Nat) (b : Build V) (n : Nat) (c : Conf (Chunk V) (NDA V)), buildGroup m limit evalP xs ⟨[], []⟩ = .ok (rs', b) →
      b.nodes.Steps b.nodes.outs cap n b.nodes.init c → b.nodes.Stuck b.nodes.outs cap c → ∀ r ∈ rs', c.halted r) {out : Option (Res (List (NDA V)))}
    (h : GroupOutcome m limit cap evalP xs out) : ∃ res, out = some res ∧ ∀ rs, res = .ok rs ↔ oneByOne m limit evalP xs = .ok rs := by
  suffices hne : out ≠ none by
    obtain ⟨res, rfl⟩ := Option.ne_none_iff_exists'.mp hne
    exact ⟨res, rfl, group_outcome hb h⟩
  unfold GroupOutcome at h
  rcases hb with ⟨e, h1, h2⟩ | ⟨rs', b', T', h1, h2, h4⟩
  · rw [h1] at h
    rw [h]; simp
  · rw [h1] at h
    obtain ⟨n, c, s1, s2, ho⟩ := h
    have hr : List.Forall₂ (fun r x => (c.loc r).result = some (engineOne m limit evalP (AObj.toArr x)).toOption) rs' xs := by
      rw [List.forall₂_iff_get] at h4 ⊢
      refine ⟨h4.1, fun i hi hi' => ?_⟩
      have h5 := (h4.2 i hi hi').2
      simp only [List.get_eq_getElem] at h5 ⊢
      rw [C26_terminated_is_sequential h2.valid (outs_wired h2.valid) s1 (hh rs' b' n c h1 s1 s2 _ (List.getElem_mem hi)), h5]
    rw [ho]
    exact (outcome_of hr).1

/-- There is an outcome. -/
theorem group_some {heap : Nat → AObj α} {ord : Nat → List Nat} {P Q : Prop}
    (hb : (∃ e, buildGroup m limit evalP xs ⟨[], []⟩ = .error e ∧ ∀ rs, oneByOne m limit evalP xs ≠ .ok rs) ∨
    ∃ rs b' T', buildGroup m limit evalP xs ⟨[], []⟩ = .ok (rs, b') ∧ BInv P Q heap ord m limit evalP b' T' ∧
      List.Forall₂ (fun r x => r < b'.nodes.length ∧ (b'.nodes.final r).result = some (engineOne m limit evalP (AObj.toArr x)).toOption) rs xs) :
    ∃ out, GroupOutcome m limit cap evalP xs out := by
  unfold GroupOutcome
  rcases hb with ⟨e, h1, h2⟩ | ⟨rs', b', T', h1, h2, h4⟩
  · rw [h1]; exact ⟨_, rfl⟩
  · rw [h1]
    obtain ⟨K, e, k1, k2⟩ := C25_schedule_independent (cap := cap) h2.valid (outs_wired h2.valid)
    obtain ⟨m', _, k3⟩ := k2 0 _ (.refl _)
    exact ⟨_, m', e, k3, k1, rfl⟩

/-- C26: whatever the schedule, if `ndarrays(xs)` ends, it gives exactly the results of evaluating the arrays one after the other;
and it raises an exception exactly if one of these evaluations does. -/
theorem C26_group (hc : Compatible xs) (hwf : ∀ x ∈ xs, x.toArr.WF)
    (hal : ∀ x ∈ xs, x.toArr.aligned limit (List.range (okOr x.toArr.shape []).length)) {out : Res (List (NDA V))}
    (h : GroupOutcome m limit cap evalP xs (some out)) : ∀ rs, out = .ok rs ↔ oneByOne m limit evalP xs = .ok rs := by
  obtain ⟨h1, ⟨heap, h2⟩, ⟨ord, h3⟩⟩ := hc
  exact group_outcome (group_built (P := False) (Q := False) h1 h2 (fun x hx => served_of_ordered x _ (h3 x hx)) hwf hal False.elim False.elim) h

/-- C27: if no array object is used twice, `ndarrays(xs)` never hangs, whatever fails; it gives the results of evaluating the arrays
one after the other, or an exception if one of these fails. -/
theorem C27_group_tree (hpr : ∀ x ∈ xs, x.Proper) (hn : (xs.flatMap AObj.ids).Nodup) (hwf : ∀ x ∈ xs, x.toArr.WF)
    (hal : ∀ x ∈ xs, x.toArr.aligned limit (List.range (okOr x.toArr.shape []).length)) (hcap : 1 ≤ cap) {out : Option (Res (List (NDA V)))}
    (h : GroupOutcome m limit cap evalP xs out) : ∃ res, out = some res ∧ ∀ rs, res = .ok rs ↔ oneByOne m limit evalP xs = .ok rs := by
  obtain ⟨h1, ⟨heap, h2⟩, ⟨ord, h3⟩⟩ := compatible_of_nodup xs hpr hn
  refine group_halts (group_built (P := False) (Q := False) h1 h2 (fun x hx => served_of_ordered x _ (h3 x hx)) hwf hal False.elim False.elim) ?_ h
  intro rs b n c hb s1 s2 r hr
  have hv : b.nodes.Valid := by
    rcases group_built (P := False) (Q := False) (m := m) (evalP := evalP) h1 h2 (fun x hx => served_of_ordered x _ (h3 x hx)) hwf hal False.elim False.elim with
      ⟨e, k1, k2⟩ | ⟨rs', b', T', k1, k2, k4⟩
    · rw [k1] at hb; cases hb
    · rw [k1] at hb; cases hb; exact k2.valid
  obtain ⟨new, ⟨f1, f2, f3, f4⟩, f5⟩ := buildGroup_fresh xs _ b rs hb hn (by simp)
  have f1' : b.nodes = new := by simpa using f1
  rw [← f1'] at f2 f5
  exact C27_tree_terminates hv (outs_wired hv) (tree_of_nodup f2) hcap s1 s2 (outs_nil hv (f5 r hr).2)

theorem aligned_of_samePace : ∀ (a : Arr α) (o : List Nat), a.samePace → a.aligned limit o
  | .agg a axis k, o, h => aligned_of_samePace a _ h
  | .elem1 a op, o, h => aligned_of_samePace a o h
  | .elem2 a b op, o, h => ⟨aligned_of_samePace a o h.1, aligned_of_samePace b o h.2.1, by rw [h.2.2]⟩
  | .adapter .., _, _ | .const .., _, _ | .newAxes .., _, _ | .bcast .., _, _ | .transposed .., _, _ | .stack .., _, _ | .mosaic .., _, _
  | .asType .., _, _ | .maskVal .., _, _ => trivial

/-- C28: arrays that can be evaluated together (every object is asked for its chunks in one order; the operands of element-wise
operations are streamed in the same way) and that can be evaluated one by one: whatever the schedule, and however much they share,
`ndarrays(xs)` ends with the same results. -/
theorem C28_together_as_alone (hc : Compatible xs) (hwf : ∀ x ∈ xs, x.toArr.WF) (hsp : ∀ x ∈ xs, x.toArr.samePace) (hcap : 1 ≤ cap)
    {rs : List (NDA V)} (hok : oneByOne m limit evalP xs = .ok rs) (out : Option (Res (List (NDA V)))) :
    GroupOutcome m limit cap evalP xs out ↔ out = some (.ok rs) := by
  have hal : ∀ x ∈ xs, x.toArr.aligned limit (List.range (okOr x.toArr.shape []).length) := fun x hx => aligned_of_samePace _ _ (hsp x hx)
  obtain ⟨h1, ⟨heap, h2⟩, ⟨ord, h3⟩⟩ := hc
  have hb := group_built (P := True) (Q := False) (m := m) (evalP := evalP) h1 h2 (fun x hx => served_of_ordered x _ (h3 x hx)) hwf hal (fun _ => ⟨hsp, rs, hok⟩) False.elim
  have key : ∀ out, GroupOutcome m limit cap evalP xs out → out = some (.ok rs) := by
    intro out h
    suffices hs : ∃ res, out = some res ∧ ∀ rs, res = .ok rs ↔ oneByOne m limit evalP xs = .ok rs by
      obtain ⟨res, rfl, h4⟩ := hs
      rw [(h4 rs).mpr hok]
    refine group_halts hb ?_ h
    · intro rs' b n c hb' s1 s2 i _
      rcases hb with ⟨e, k1, k2⟩ | ⟨rs', b', T', k1, k2, k4⟩
      · rw [k1] at hb'; cases hb'
      · rw [k1] at hb'; cases hb'
        obtain ⟨c1, c2⟩ := k2.clock trivial
        refine C27_clocked_terminates k2.valid (outs_wired k2.valid) c1 ?_ hcap s1 s2 i
        intro j
        by_cases hj : j < b.nodes.length
        · exact c2 j hj
        · unfold Graph.tokens
          rw [List.getElem?_eq_none (by rw [runAll_length]; simp; omega)]
          simp
  refine ⟨key out, ?_⟩
  rintro rfl
  obtain ⟨out, h⟩ := group_some (cap := cap) hb
  have := key out h
  rwa [this] at h

/-! ### Arrays of one chunk -/

omit [Inhabited α] in
theorem aligned_of_oneChunk : ∀ (a : Arr α) (o : List Nat), a.WF → a.oneChunk limit → o.Perm (List.range (a.den m).shape.length) → a.aligned limit o
  | .agg a axis k, o, hw, h, hp => by
    obtain ⟨hwa, s, hs, hax⟩ := hw
    have hd : (a.den m).shape = s := hwa.den_shape m hs
    have hsh : ((Arr.agg a axis k).den m).shape = (a.den m).shape.eraseIdx axis := rfl
    rw [hsh, List.length_eraseIdx, if_pos (by rw [hd]; exact hax)] at hp
    exact aligned_of_oneChunk a _ hwa h (aggOrder_perm' (by rw [hd]; exact hax) hp)
  | .elem1 a op, o, hw, h, hp => aligned_of_oneChunk a o hw h hp
  | .elem2 a b op, o, hw, h, hp => by
    have hb : (a.den m).shape = (b.den m).shape := by
      have e1 := hw.1.shape_eq m
      have e2 := hw.2.1.shape_eq m
      rw [hw.2.2, e2] at e1
      exact (Except.ok.inj e1).symm
    have hsh : ((Arr.elem2 a b op).den m).shape = (a.den m).shape := Arr.WF.den_shape m hw (by rw [Arr.shape]; exact hw.1.shape_eq m)
    rw [hsh] at hp
    refine ⟨aligned_of_oneChunk a o hw.1 h.1 hp, aligned_of_oneChunk b o hw.2.1 h.2 (hb ▸ hp), ?_⟩
    obtain ⟨w1, w2⟩ := skel_shape m a hw.1
    obtain ⟨v1, v2⟩ := skel_shape m b hw.2.1
    rw [(keys_one a.skel o w1 (oneChunk_fits a h.1) (by rw [w2]; exact hp)).1, (keys_one b.skel o v1 (oneChunk_fits b h.2) (by rw [v2, ← hb]; exact hp)).1]
    rfl
  | .adapter .., _, _, _, _ | .const .., _, _, _, _ | .newAxes .., _, _, _, _ | .bcast .., _, _, _, _ | .transposed .., _, _, _, _ | .stack .., _, _, _, _
  | .mosaic .., _, _, _, _ | .asType .., _, _, _, _ | .maskVal .., _, _, _, _ => trivial

theorem served_of_oneChunk {heap : Nat → AObj α} {ord : Nat → List Nat} (hord : ∀ i, ord i = List.range ((heap i).toArr.den m).shape.length) :
    ∀ (x : AObj α) (o : List Nat), x.inHeap heap → x.toArr.WF → x.toArr.oneChunk limit → o.Perm (List.range (x.toArr.den m).shape.length) →
    x.served m limit evalP ord o
  | .prod i a, o, hh, hw, h1, hp => by
    have e : heap i = .prod i a := hh
    refine sameStream_one a hw h1 ?_ hp
    rw [hord, e]; exact List.Perm.refl _
  | .agg i x axis k, o, hh, hw, h1, hp => by
    refine ⟨sameStream_one _ hw h1 (by rw [hord, hh.1]) hp, ?_⟩
    obtain ⟨hwa, s, hs, hax⟩ := hw
    have hd : (x.toArr.den m).shape = s := hwa.den_shape m hs
    have hsh : ((AObj.agg i x axis k).toArr.den m).shape = (x.toArr.den m).shape.eraseIdx axis := rfl
    rw [hsh, List.length_eraseIdx, if_pos (by rw [hd]; exact hax)] at hp
    exact served_of_oneChunk hord x _ hh.2 hwa h1 (aggOrder_perm' (by rw [hd]; exact hax) hp)
  | .elem1 i x op, o, hh, hw, h1, hp =>
    ⟨sameStream_one _ hw h1 (by rw [hord, hh.1]) hp, served_of_oneChunk hord x o hh.2 hw h1 hp⟩
  | .elem2 i x y op, o, hh, hw, h1, hp => by
    refine ⟨sameStream_one _ hw h1 (by rw [hord, hh.1]) hp, ?_⟩
    have hb : (x.toArr.den m).shape = (y.toArr.den m).shape := by
      have e1 := hw.1.shape_eq m
      have e2 := hw.2.1.shape_eq m
      rw [hw.2.2, e2] at e1
      exact (Except.ok.inj e1).symm
    have hsh : ((AObj.elem2 i x y op).toArr.den m).shape = (x.toArr.den m).shape := Arr.WF.den_shape m hw (by rw [AObj.toArr, Arr.shape]; exact hw.1.shape_eq m)
    rw [hsh] at hp
    exact ⟨served_of_oneChunk hord x o hh.2.1 hw.1 h1.1 hp, served_of_oneChunk hord y o hh.2.2 hw.2.1 h1.2 (hb ▸ hp)⟩

/-- C28, C27: if everything is read in one chunk, any arrays can be evaluated together, whatever they share and whatever fails:
whatever the schedule, `ndarrays(xs)` ends, with the results of evaluating the arrays one by one or an exception if one of these
fails. -/
theorem C28_one_chunk (hpr : ∀ x ∈ xs, x.Proper) {heap : Nat → AObj α} (hh : ∀ x ∈ xs, x.inHeap heap) (hwf : ∀ x ∈ xs, x.toArr.WF)
    (h1 : ∀ x ∈ xs, x.toArr.oneChunk limit) (hcap : 2 ≤ cap) :
    (∃ out, GroupOutcome m limit cap evalP xs out) ∧ ∀ out, GroupOutcome m limit cap evalP xs out →
      ∃ res, out = some res ∧ ∀ rs, res = .ok rs ↔ oneByOne m limit evalP xs = .ok rs := by
  have hperm : ∀ x ∈ xs, (List.range (okOr x.toArr.shape []).length).Perm (List.range (x.toArr.den m).shape.length) := by
    intro x hx
    rw [(hwf x hx).shape_eq m]; exact List.Perm.refl _
  have hb := group_built (P := False) (Q := True) (m := m) (evalP := evalP) hpr hh
    (fun x hx => served_of_oneChunk (heap := heap) (fun i => rfl) x _ (hh x hx) (hwf x hx) (h1 x hx) (hperm x hx)) hwf
    (fun x hx => aligned_of_oneChunk (m := m) _ _ (hwf x hx) (h1 x hx) (hperm x hx)) False.elim (fun _ => h1)
  refine ⟨group_some hb, fun out h => group_halts hb ?_ h⟩
  intro rs b n c hb' s1 s2 r _
  rcases hb with ⟨e, k1, k2⟩ | ⟨rs', b', T', k1, k2, k4⟩
  · rw [k1] at hb'; cases hb'
  · rw [k1] at hb'; cases hb'
    refine C27_small_terminates k2.valid (outs_wired k2.valid) ?_ s1 s2 r
    intro i
    by_cases hj : i < b.nodes.length
    · exact (k2.small trivial i hj).trans hcap
    · unfold Graph.tokens
      rw [List.getElem?_eq_none (by rw [runAll_length]; simp; omega)]
      simp

/-! ### In terms of the values -/

theorem oneByOne_of_returns {ys : List (NDA V)} (h : List.Forall₂ (fun x y => (AObj.toArr x).EngineReturns m limit y) xs ys) :
    ∃ N, ∀ n, N ≤ n → ∃ rs, oneByOne m limit (Arr.eval m limit n) xs = .ok rs ∧ List.Forall₂ (· ≈ₐ ·) rs ys := by
  induction h with
  | nil => exact ⟨0, fun n _ => ⟨[], rfl, .nil⟩⟩
  | @cons x y xs ys hx _ ih =>
    obtain ⟨N, hN⟩ := ih
    obtain ⟨M, hM⟩ := hx
    refine ⟨max N M, fun n hn => ?_⟩
    obtain ⟨rs, h1, h2⟩ := hN n (le_trans (le_max_left _ _) hn)
    obtain ⟨r, h3, h4⟩ := hM n (le_trans (le_max_right _ _) hn)
    refine ⟨r :: rs, ?_, .cons h4 h2⟩
    unfold oneByOne at h1 ⊢
    rw [mapM_ok_iff] at h1 ⊢
    exact .cons h3 h1

/-- C28: if `ndarrays([x])` alone returns `y` for each of the arrays, then `ndarrays(xs)` returns `ys` - under every schedule, for
arrays that share objects as long as every object is asked for its chunks in one order and operands are streamed in the same way. -/
theorem C28_values (hc : Compatible xs) (hwf : ∀ x ∈ xs, x.toArr.WF) (hsp : ∀ x ∈ xs, x.toArr.samePace)
    {ys : List (NDA V)} (h : List.Forall₂ (fun x y => (AObj.toArr x).EngineReturns m limit y) xs ys) :
    ∃ N, ∀ n, N ≤ n → ∃ rs, (∀ out, GroupOutcome m limit queueSize (Arr.eval m limit n) xs out ↔ out = some (.ok rs)) ∧ List.Forall₂ (· ≈ₐ ·) rs ys := by
  obtain ⟨N, hN⟩ := oneByOne_of_returns h
  refine ⟨N, fun n hn => ?_⟩
  obtain ⟨rs, h1, h2⟩ := hN n hn
  exact ⟨rs, C28_together_as_alone hc hwf hsp (by decide) h1, h2⟩

/-- C28, for arrays read in one chunk: no restriction on what is shared. -/
theorem C28_values_one_chunk (hpr : ∀ x ∈ xs, x.Proper) {heap : Nat → AObj α} (hh : ∀ x ∈ xs, x.inHeap heap) (hwf : ∀ x ∈ xs, x.toArr.WF)
    (h1 : ∀ x ∈ xs, x.toArr.oneChunk limit) {ys : List (NDA V)} (h : List.Forall₂ (fun x y => (AObj.toArr x).EngineReturns m limit y) xs ys) :
    ∃ N, ∀ n, N ≤ n → ∃ rs, (∀ out, GroupOutcome m limit queueSize (Arr.eval m limit n) xs out ↔ out = some (.ok rs)) ∧ List.Forall₂ (· ≈ₐ ·) rs ys := by
  obtain ⟨N, hN⟩ := oneByOne_of_returns h
  refine ⟨N, fun n hn => ?_⟩
  obtain ⟨rs, k1, k2⟩ := hN n hn
  obtain ⟨⟨out, ho⟩, hall⟩ := C28_one_chunk (m := m) (evalP := Arr.eval m limit n) (cap := queueSize) hpr hh hwf h1 (by decide)
  have key : ∀ out, GroupOutcome m limit queueSize (Arr.eval m limit n) xs out → out = some (.ok rs) := by
    intro out h
    obtain ⟨res, rfl, h4⟩ := hall out h
    rw [(h4 rs).mpr k1]
  refine ⟨rs, fun out' => ⟨key out', ?_⟩, k2⟩
  rintro rfl
  rw [← key out ho]; exact ho

end Biggus

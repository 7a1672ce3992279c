import Verif.Model.Ctors
import Verif.Props.Meta
/-
C35: what the constructors accept.
-/
namespace Biggus

variable {α : Type}

/-- `r` succeeds exactly if `P`, and fails with `ValueError` otherwise. -/
def AcceptsIff {β : Type} (r : Res β) (P : Prop) : Prop := (P → ∃ b, r = .ok b) ∧ (¬ P → r = .error .value)

/-- C35.  `NewAxesArray(a, new_axes)` needs one non-negative number more than `a` has dimensions; the result is well formed and has the expected
number of dimensions. -/
theorem C35_newaxes (a : Arr α) (s : List Nat) (hs : a.shape = .ok s) (na : List Int) :
    AcceptsIff (newAxesCtor a na) (na.length = s.length + 1 ∧ ∀ n ∈ na, 0 ≤ n) ∧
    ∀ b, newAxesCtor a na = .ok b → (a.WF → b.WF) ∧ b.shape = .ok (naInsert 1 (na.map Int.toNat) s) := by
  have hm : na.length = s.length + 1 → mkNewAxes a (na.map Int.toNat) = .ok (.newAxes a (na.map Int.toNat)) := by
    intro h
    exact (mkNewAxes_iff hs).mpr ⟨by simpa using h, rfl⟩
  have hany : (na.any (· < 0)) = true ↔ ¬ ∀ n ∈ na, 0 ≤ n := by simp
  unfold newAxesCtor
  rw [hs]
  simp only [bind, Except.bind]
  by_cases h1 : na.length = s.length + 1
  · rw [if_neg (by omega)]
    by_cases h2 : ∀ n ∈ na, 0 ≤ n
    · rw [if_neg (by rw [hany]; simpa using h2), hm h1]
      refine ⟨⟨fun _ => ⟨_, rfl⟩, fun h => absurd ⟨h1, h2⟩ h⟩, ?_⟩
      intro b hb
      cases hb
      refine ⟨fun hwf => ⟨hwf, s, hs, by simpa using h1⟩, ?_⟩
      show (a.shape >>= fun s => .ok (naInsert 1 (na.map Int.toNat) s)) = _
      rw [hs]; rfl
    · rw [if_pos (hany.mpr h2)]
      exact ⟨⟨fun h => absurd h.2 h2, fun _ => rfl⟩, fun b hb => by cases hb⟩
  · rw [if_pos (by omega)]
    exact ⟨⟨fun h => absurd h.1 h1, fun _ => rfl⟩, fun b hb => by cases hb⟩

/-- C35.  `BroadcastArray(a, broadcast, leading_shape)` of an array that is not itself a broadcast: accepted iff every axis of the dictionary
exists and has length 1, no new length is negative and no leading length is below 1; `ValueError` otherwise.  The shape is the leading shape
followed by the shape with the given lengths. -/
theorem C35_broadcast (a : Arr α) (hnb : a.notBcast = true) (s : List Nat) (hs : a.shape = .ok s) (dict : List (Int × Int)) (lead : List Int)
    (hd : (dict.map Prod.fst).Nodup) :
    AcceptsIff (bcastCtor a dict lead)
      ((∀ p ∈ dict, 0 ≤ p.1 ∧ p.1 < s.length ∧ s[p.1.toNat]? = some 1 ∧ 0 ≤ p.2) ∧ ∀ l ∈ lead, 1 ≤ l) ∧
    ∀ b, bcastCtor a dict lead = .ok b → (a.WF → a.noLead → b.WF) ∧
      ∃ t : List Nat, b.shape = .ok (lead.map Int.toNat ++ t) ∧ t.length = s.length ∧
        (∀ p ∈ dict, t[p.1.toNat]? = some p.2.toNat) ∧ ∀ i : Nat, (∀ p ∈ dict, p.1 ≠ i) → t[i]? = s[i]? := by
  have hdim : bcastNdim a s.length = s.length := by
    cases a <;> first | rfl | simp [Arr.notBcast] at hnb
  have hc : dictChecks s.length dict = true ↔ ∀ p ∈ dict, (0 ≤ p.1 ∧ p.1 < s.length) ∧ 0 ≤ p.2 := by
    simp [dictChecks]
  have hl : (lead.any (· < 1)) = true ↔ ¬ ∀ l ∈ lead, 1 ≤ l := by simp
  unfold bcastCtor
  rw [hs]
  simp only [bind, Except.bind]
  rw [hdim]
  by_cases h1 : ∀ p ∈ dict, (0 ≤ p.1 ∧ p.1 < s.length) ∧ 0 ≤ p.2
  · rw [if_neg (by rw [hc]; exact fun h => h h1)]
    by_cases h2 : ∀ l ∈ lead, 1 ≤ l
    · rw [if_neg (by rw [hl]; simpa using h2), mkBcast_notBcast hnb]
      have hnd : ((dict.map (fun p => (p.1.toNat, p.2.toNat))).map Prod.fst).Nodup := by
        rw [List.map_map]
        have : (Prod.fst ∘ fun p : Int × Int => (p.1.toNat, p.2.toNat)) = Int.toNat ∘ Prod.fst := rfl
        rw [this, ← List.map_map]
        refine List.Nodup.map_on ?_ hd
        intro x hx y hy hxy
        obtain ⟨p, hp, rfl⟩ := List.mem_map.mp hx
        obtain ⟨q, hq, rfl⟩ := List.mem_map.mp hy
        have := (h1 p hp).1.1; have := (h1 q hq).1.1
        omega
      have hiff := @mkBcastFlat_iff α a (.bcast a (dict.map (fun p => (p.1.toNat, p.2.toNat))) (lead.map Int.toNat)) s
        (dict.map (fun p => (p.1.toNat, p.2.toNat))) (lead.map Int.toNat) hs hnd
      by_cases h3 : ∀ p ∈ dict, s[p.1.toNat]? = some 1
      · have hok := hiff.mpr ⟨by
          intro p hp
          obtain ⟨q, hq, rfl⟩ := List.mem_map.mp hp
          exact h3 q hq, by
          intro l hl
          obtain ⟨l', hl', rfl⟩ := List.mem_map.mp hl
          have := h2 l' hl'
          omega, rfl⟩
        rw [hok]
        refine ⟨⟨fun _ => ⟨_, rfl⟩, fun h => absurd ⟨fun p hp => ⟨(h1 p hp).1.1, (h1 p hp).1.2, h3 p hp, (h1 p hp).2⟩, h2⟩ h⟩, ?_⟩
        intro b hb
        cases hb
        refine ⟨fun hwf hnl => ⟨hwf, hnb, hnl, hnd, ?_, s, hs, ?_⟩, ?_⟩
        · intro l hl
          obtain ⟨l', hl', rfl⟩ := List.mem_map.mp hl
          have := h2 l' hl'
          omega
        · intro p hp
          obtain ⟨q, hq, rfl⟩ := List.mem_map.mp hp
          exact h3 q hq
        · have key : ∀ (d : List (Int × Int)) (s : List Nat), (d.map Prod.fst).Nodup → (∀ p ∈ d, 0 ≤ p.1 ∧ s[p.1.toNat]? = some 1) →
              ∃ t : List Nat, shapeFromDict (d.map (fun p => (p.1.toNat, p.2.toNat))) s = .ok t ∧ t.length = s.length ∧
                (∀ p ∈ d, t[p.1.toNat]? = some p.2.toNat) ∧ ∀ i : Nat, (∀ p ∈ d, p.1 ≠ i) → t[i]? = s[i]? := by
            intro d
            induction d with
            | nil => intro s _ _; exact ⟨s, rfl, rfl, by simp, fun _ _ => rfl⟩
            | cons p d ih =>
              intro s hn hp
              rw [List.map_cons, List.nodup_cons] at hn
              obtain ⟨hp0, hp1⟩ := hp p List.mem_cons_self
              have hpl : p.1.toNat < s.length := by
                by_contra hcon
                rw [List.getElem?_eq_none (by omega)] at hp1; cases hp1
              have hne : ∀ q ∈ d, q.1 ≠ p.1 := fun q hq h => hn.1 (by rw [← h]; exact List.mem_map_of_mem hq)
              obtain ⟨t, t1, t2, t3, t4⟩ := ih (s.set p.1.toNat p.2.toNat) hn.2 (by
                intro q hq
                obtain ⟨h0, h1⟩ := hp q (List.mem_cons_of_mem _ hq)
                refine ⟨h0, ?_⟩
                rw [List.getElem?_set_ne (by have := hne q hq; omega)]
                exact h1)
              refine ⟨t, ?_, by simpa using t2, ?_, ?_⟩
              · rw [List.map_cons]
                unfold shapeFromDict
                simp only [hp1]
                rw [if_neg (by simp)]
                exact t1
              · intro q hq
                rcases List.mem_cons.mp hq with rfl | hq
                · rw [t4 _ (by intro x hx h; have := hne x hx; omega), List.getElem?_set_self hpl]
                · exact t3 q hq
              · intro i hi
                rw [t4 i (fun q hq => hi q (List.mem_cons_of_mem _ hq)), List.getElem?_set_ne]
                have := hi p List.mem_cons_self
                omega
          obtain ⟨t, t1, t2, t3, t4⟩ := key dict s hd (fun p hp => ⟨(h1 p hp).1.1, h3 p hp⟩)
          refine ⟨t, ?_, t2, t3, t4⟩
          show (a.shape >>= fun s => shapeFromDict _ s >>= fun s' => .ok (_ ++ s')) = _
          rw [hs]
          simp only [bind, Except.bind]
          rw [t1]
      · have hno : mkBcastFlat a (dict.map (fun p => (p.1.toNat, p.2.toNat))) (lead.map Int.toNat) = .error .value := by
          rcases mkBcastFlat_error (d := dict.map (fun p => (p.1.toNat, p.2.toNat))) (lead := lead.map Int.toNat) hs with ⟨b, hb⟩ | h
          · exfalso
            have := ((mkBcastFlat_iff hs hnd).mp hb).1
            exact h3 (fun p hp => this _ (List.mem_map_of_mem hp))
          · exact h
        rw [hno]
        exact ⟨⟨fun h => absurd (fun p hp => (h.1 p hp).2.2.1) h3, fun _ => rfl⟩, fun b hb => by cases hb⟩
    · rw [if_pos (hl.mpr h2)]
      exact ⟨⟨fun h => absurd h.2 h2, fun _ => rfl⟩, fun b hb => by cases hb⟩
  · rw [if_pos (by rw [hc]; exact h1)]
    exact ⟨⟨fun h => absurd (fun p hp => ⟨⟨(h.1 p hp).1, (h.1 p hp).2.1⟩, (h.1 p hp).2.2.2⟩) h1, fun _ => rfl⟩, fun b hb => by cases hb⟩

/-- C35.  `TransposedArray(a, axes)`: accepted iff there are as many axes as dimensions; if they are a permutation of the dimensions the result is
well formed.  Missing: that only permutations are accepted (false, see `C35_transposed_accepts_non_permutation`). -/
theorem C35_transposed_partial (a : Arr α) (s : List Nat) (hs : a.shape = .ok s) (axes : List Int) :
    AcceptsIff (transposedCtor a axes) (axes.length = s.length) ∧
    ∀ (p : List Nat) b, p.Perm (List.range s.length) → transposedCtor a (p.map Int.ofNat) = .ok b →
      (a.WF → b.WF) ∧ b.shape = .ok (p.map (fun i => s.getD i 0)) := by
  constructor
  · constructor
    · intro h
      exact ⟨_, (mkTransposed_iff hs).mpr ⟨by simpa using h, rfl⟩⟩
    · intro h
      unfold transposedCtor mkTransposed
      rw [hs]
      simp only [bind, Except.bind]
      rw [if_pos (by simpa using h)]
      rfl
  · intro p b hp hb
    have hpl : p.length = s.length := by simpa using hp.length_eq
    unfold transposedCtor at hb
    have hmap : (p.map Int.ofNat).map (fun i => if 0 ≤ i then i.toNat else (p.map Int.ofNat).length) = p := by
      rw [List.map_map]
      conv_rhs => rw [← List.map_id p]
      apply List.map_congr_left
      intro i _
      simp
    rw [hmap] at hb
    obtain ⟨_, rfl⟩ := (mkTransposed_iff hs).mp hb
    refine ⟨fun hwf => ⟨hwf, s, hs, hp⟩, ?_⟩
    show (a.shape >>= fun s => axesForward p s) = _
    rw [hs]
    show axesForward p s = _
    unfold axesForward
    rw [if_neg (by omega), if_pos (by rw [List.isPerm_iff, hpl]; exact hp)]
    congr 1
    rw [← List.filterMap_eq_map]
    apply List.filterMap_congr
    intro i hi
    have : i < s.length := by simpa using (hp.mem_iff.mp hi)
    simp [List.getD_eq_getElem?_getD, this]

/-- C35 fails for `TransposedArray`: axes that are no permutation are accepted; the array has then no shape (`KeyError`). -/
theorem C35_transposed_accepts_non_permutation : ∃ (a : Arr ℚ) (axes : List Int), a.WF ∧
    (transposedCtor a axes).map (fun b => b.shape) = .ok (.error .key) :=
  ⟨.const [2, 3] 0 0, [0, 0], trivial, by decide +kernel⟩

/-- C35.  `ArrayStack(stack)`: a non-empty stack is accepted iff all items have the same shape and the same dtype, `ValueError` otherwise; the shape
is the stack's followed by the items'. -/
theorem C35_stack (T : DTypes α) (ss : List Nat) (items : List Nat → Arr α) (h0 : ss.prod ≠ 0)
    (hs : ∀ i, InB ss i → ∃ s, (items i).shape = .ok s) :
    AcceptsIff (mkStackD T ss items) (∀ i j, InB ss i → InB ss j → (items i).shape = (items j).shape ∧ (items i).dtype T = (items j).dtype T) ∧
    ∀ b, mkStackD T ss items = .ok b → ((∀ i, InB ss i → (items i).WF) → b.WF) ∧
      ∀ i s, InB ss i → (items i).shape = .ok s → b.shape = .ok (ss ++ s) := by
  have hz := inB_zeros ss h0
  refine ⟨⟨?_, ?_⟩, ?_⟩
  · intro h
    obtain ⟨s, hs0⟩ := hs _ hz
    have hm : mkStack ss items = .ok (.stack ss items) :=
      mkStack_iff.mpr ⟨h0, ⟨s, fun i hi => by rw [(h i _ hi hz).1]; exact hs0⟩, rfl⟩
    obtain ⟨us, hus⟩ := (mapM_check (l := ndindex ss)
      (p := fun i => (items i).dtype T ≠ (items (ss.map (fun _ => 0))).dtype T)).mpr (by
        intro i hi hne
        exact hne (h i _ ((mem_ndindex ss i).mp hi) hz).2)
    refine ⟨.stack ss items, ?_⟩
    unfold mkStackD
    rw [hm]
    simp only [bind, Except.bind]
    rw [hus]
    rfl
  · intro h
    unfold mkStackD
    rcases mkStack_error h0 hs with ⟨b, hb⟩ | he
    · rw [hb]
      simp only [bind, Except.bind]
      obtain ⟨_, ⟨s, hs'⟩, _⟩ := mkStack_iff.mp hb
      rcases mapM_error' (fun i => if (items i).dtype T ≠ (items (ss.map (fun _ => 0))).dtype T then (.error .value : Res Unit) else .ok ())
        .value (ndindex ss) (by intro i _ e he; split at he <;> cases he; rfl) with ⟨us, hus⟩ | hus
      · exfalso
        have := mapM_check.mp ⟨us, hus⟩
        refine h (fun i j hi hj => ⟨by rw [hs' i hi, hs' j hj], ?_⟩)
        rw [Decidable.not_not.mp (this i ((mem_ndindex ss i).mpr hi)), Decidable.not_not.mp (this j ((mem_ndindex ss j).mpr hj))]
      · rw [hus]
    · rw [he]; rfl
  · intro b h
    unfold mkStackD at h
    obtain ⟨b', hb, h⟩ := bind_ok.mp h
    obtain ⟨us, hus, h⟩ := bind_ok.mp h
    cases h
    refine ⟨fun hwf => mkStack_WF hwf hb, ?_⟩
    obtain ⟨_, ⟨s, hs'⟩, rfl⟩ := mkStack_iff.mp hb
    intro i s' hi hsi
    rw [hs' i hi] at hsi
    cases hsi
    show ((items (ss.map (fun _ => 0))).shape >>= fun s => .ok (ss ++ s)) = _
    rw [hs' _ hz]; rfl

/-- C35 fails for an empty stack: `IndexError` (from `stack.flat[0]`) instead of `ValueError`. -/
theorem C35_empty_stack (T : DTypes α) (ss : List Nat) (items : List Nat → Arr α) (h0 : ss.prod = 0) :
    mkStackD T ss items = .error .index := by
  unfold mkStackD mkStack
  rw [if_pos h0]
  rfl

/-- C35.  `LinearMosaic(tiles, axis)`: at least one tile, all of the same rank (as in: more than `axis` dimensions): accepted iff the axis is in
range, the shapes agree except along the axis, and the dtypes agree; `ValueError` otherwise. -/
theorem C35_mosaic [Inhabited α] (T : DTypes α) (tiles : List (Arr α)) (hne : tiles ≠ []) (shape : Arr α → List Nat)
    (hs : ∀ t ∈ tiles, t.shape = .ok (shape t)) (rank : Nat) (hr : ∀ t ∈ tiles, (shape t).length = rank) (axis : Int) :
    AcceptsIff (mosaicCtor T tiles axis) (0 ≤ axis ∧ axis < rank ∧ ∀ t ∈ tiles, ∀ u ∈ tiles,
      (∀ i : Nat, i ≠ axis → (shape t)[i]? = (shape u)[i]?) ∧ t.dtype T = u.dtype T) ∧
    ∀ b, mosaicCtor T tiles axis = .ok b → ((∀ t ∈ tiles, t.WF) → b.WF) ∧
      ∀ t ∈ tiles, b.shape = .ok ((shape t).set axis.toNat ((tiles.map (fun t => (shape t).getD axis.toNat 0)).sum)) := by
  obtain ⟨t0, ts, rfl⟩ := List.exists_cons_of_ne_nil hne
  have hagree : (∀ t ∈ t0 :: ts, ∀ u ∈ t0 :: ts, ∀ i : Nat, (i : Int) ≠ axis → (shape t)[i]? = (shape u)[i]?) → 0 ≤ axis → axis < rank →
      ∀ t ∈ t0 :: ts, ∀ u ∈ t0 :: ts, ∀ x, (shape t).set axis.toNat x = (shape u).set axis.toNat x := by
    intro h h1 h2 t ht u hu x
    apply List.ext_getElem?
    intro i
    by_cases hi : i = axis.toNat
    · subst hi
      rw [List.getElem?_set_self (by rw [hr t ht]; omega), List.getElem?_set_self (by rw [hr u hu]; omega)]
    · rw [List.getElem?_set_ne (Ne.symm hi), List.getElem?_set_ne (Ne.symm hi)]
      exact h t ht u hu i (by omega)
  have hval : (∃ b, mkMosaic (t0 :: ts) axis.toNat = .ok b) ∨ mkMosaic (t0 :: ts) axis.toNat = .error .value := by
    unfold mkMosaic
    simp only [bind, Except.bind]
    rw [hs t0 List.mem_cons_self]
    simp only
    split
    · exact Or.inr rfl
    · rename_i hax
      rcases mapM_error' (fun t : Arr α => (do
        let s ← t.shape
        if ¬ axis.toNat < s.length then throw PyErr.index
        if s.eraseIdx axis.toNat ≠ (shape t0).eraseIdx axis.toNat then throw PyErr.value : Res Unit)) .value ts (by
          intro t ht e he
          rw [hs t (List.mem_cons_of_mem _ ht)] at he
          simp only [bind, Except.bind] at he
          rw [if_neg (by rw [hr t (List.mem_cons_of_mem _ ht), ← hr t0 List.mem_cons_self]; exact hax)] at he
          simp only [pure, Except.pure] at he
          split at he
          · cases he; rfl
          · cases he) with ⟨us, hus⟩ | hus
      · left
        simp only [bind, Except.bind] at hus
        rw [hus]
        exact ⟨_, rfl⟩
      · right
        simp only [bind, Except.bind] at hus
        rw [hus]
  have hokiff : 0 ≤ axis → ((∃ b, mkMosaic (t0 :: ts) axis.toNat = .ok b) ↔ axis < rank ∧ ∀ t ∈ t0 :: ts, ∀ u ∈ t0 :: ts,
      ∀ i : Nat, (i : Int) ≠ axis → (shape t)[i]? = (shape u)[i]?) := by
    intro h0
    constructor
    · rintro ⟨b, hb⟩
      obtain ⟨_, ⟨s, hax, hk⟩, _⟩ := mkMosaic_iff.mp hb
      have hsh : ∀ t ∈ t0 :: ts, ∃ k, shape t = s.set axis.toNat k := by
        intro t ht
        obtain ⟨k, hk⟩ := hk t ht
        rw [hs t ht] at hk
        exact ⟨k, Except.ok.inj hk⟩
      constructor
      · obtain ⟨k, hk⟩ := hsh t0 List.mem_cons_self
        have := hr t0 List.mem_cons_self
        rw [hk, List.length_set] at this
        omega
      · intro t ht u hu i hi
        obtain ⟨k, hk⟩ := hsh t ht
        obtain ⟨k', hk'⟩ := hsh u hu
        rw [hk, hk', List.getElem?_set_ne (by omega), List.getElem?_set_ne (by omega)]
    · rintro ⟨h1, h2⟩
      refine ⟨_, mkMosaic_iff.mpr ⟨by simp, ⟨shape t0, by rw [hr t0 List.mem_cons_self]; omega, ?_⟩, rfl⟩⟩
      intro t ht
      refine ⟨(shape t).getD axis.toNat 0, ?_⟩
      rw [hs t ht, ← hagree h2 h0 h1 t ht t0 List.mem_cons_self]
      congr 1
      have hlt : axis.toNat < (shape t).length := by rw [hr t ht]; omega
      rw [List.getD_eq_getElem?_getD, List.getElem?_eq_getElem hlt]
      simp
  have hdt : (∃ us, (t0 :: ts).tail.mapM (fun t => if t.dtype T ≠ ((t0 :: ts).headD default).dtype T then (.error .value : Res Unit) else .ok ()) = .ok us) ↔
      ∀ t ∈ t0 :: ts, ∀ u ∈ t0 :: ts, t.dtype T = u.dtype T := by
    rw [mapM_check]
    constructor
    · intro h
      have h' : ∀ t ∈ t0 :: ts, t.dtype T = t0.dtype T := by
        intro t ht
        rcases List.mem_cons.mp ht with rfl | ht
        · rfl
        · exact Decidable.not_not.mp (h t ht)
      intro t ht u hu
      rw [h' t ht, h' u hu]
    · intro h t ht hne
      exact hne (h t (List.mem_cons_of_mem _ ht) t0 List.mem_cons_self)
  show AcceptsIff (if axis < 0 then _ else mkMosaicD T (t0 :: ts) axis.toNat) _ ∧ ∀ b, (if axis < 0 then _ else mkMosaicD T (t0 :: ts) axis.toNat) = _ → _
  by_cases h0 : axis < 0
  · rw [if_pos h0]
    exact ⟨⟨fun h => absurd h.1 (by omega), fun _ => rfl⟩, fun b hb => by cases hb⟩
  · rw [if_neg h0]
    have h0 : 0 ≤ axis := by omega
    refine ⟨⟨?_, ?_⟩, ?_⟩
    · rintro ⟨_, h1, h2⟩
      obtain ⟨b, hb⟩ := (hokiff h0).mpr ⟨h1, fun t ht u hu => (h2 t ht u hu).1⟩
      obtain ⟨us, hus⟩ := hdt.mpr (fun t ht u hu => (h2 t ht u hu).2)
      refine ⟨b, ?_⟩
      unfold mkMosaicD
      rw [hb]
      simp only [bind, Except.bind]
      rw [hus]
      rfl
    · intro h
      unfold mkMosaicD
      rcases hval with ⟨b, hb⟩ | he
      · rw [hb]
        simp only [bind, Except.bind]
        rcases mapM_error' (fun t : Arr α => if t.dtype T ≠ ((t0 :: ts).headD default).dtype T then (.error .value : Res Unit) else .ok ())
          .value (t0 :: ts).tail (by intro i _ e he; split at he <;> cases he; rfl) with ⟨us, hus⟩ | hus
        · exfalso
          have h1 := (hokiff h0).mp ⟨b, hb⟩
          have h2 := hdt.mp ⟨us, hus⟩
          exact h ⟨h0, h1.1, fun t ht u hu => ⟨h1.2 t ht u hu, h2 t ht u hu⟩⟩
        · rw [hus]
      · rw [he]; rfl
    · intro b h
      unfold mkMosaicD at h
      obtain ⟨b', hb, h⟩ := bind_ok.mp h
      obtain ⟨us, hus, h⟩ := bind_ok.mp h
      cases h
      refine ⟨fun hwf => mkMosaic_WF hwf hb, ?_⟩
      obtain ⟨h1, h2⟩ := (hokiff h0).mp ⟨b, hb⟩
      obtain ⟨_, _, rfl⟩ := mkMosaic_iff.mp hb
      intro t ht
      rw [hagree h2 h0 h1 t ht t0 List.mem_cons_self]
      show ((t0 : Arr α).shape >>= fun s => ((List.range (t0 :: ts).length).mapM (fun i => (((t0 :: ts).getD i default).shape >>= fun t =>
        .ok (t.getD axis.toNat 0)))) >>= fun lens => .ok (s.set axis.toNat lens.sum)) = _
      rw [hs t0 List.mem_cons_self, mapM_ok _ _ (fun i => (shape ((t0 :: ts).getD i default)).getD axis.toNat 0) (by
        intro i hi
        rw [hs _ (getD_mem _ i default (List.mem_range.mp hi))]; rfl)]
      simp only [bind, Except.bind]
      congr 3
      apply List.ext_getElem
      · simp
      · intro i hi1 hi2
        simp only [List.length_map, List.length_range] at hi1
        simp only [List.getElem_map, List.getElem_range]
        rw [List.getD_eq_getElem _ _ hi1]

/-- C35 fails for a mosaic without tiles, and for a tile with too few dimensions after the first: `IndexError` instead of `ValueError`. -/
theorem C35_mosaic_index_error : (∀ (T : DTypes ℚ) axis, mosaicCtor T [] axis = .error .index) ∧
    (mosaicCtor exDTypes [.const [2, 3] 0 0, .const [2] 0 0] 1).map (fun _ => ()) = .error .index :=
  ⟨fun _ _ => rfl, by decide +kernel⟩

/-- C35 fails for a broadcast of a broadcast: an axis that was stretched already is stretched again, although it does not have length 1. -/
theorem C35_broadcast_twice_accepted : ∃ a b : Arr ℚ, a.shape = .ok [3] ∧ bcastCtor a [(0, 5)] [] = .ok b ∧ b.shape = .ok [5] :=
  ⟨.bcast (.const [1] 0 0) [(0, 3)] [], .bcast (.const [1] 0 0) [(0, 5)] [], by decide +kernel, rfl, by decide +kernel⟩

/-- Concrete cases: accepted and rejected arguments. -/
example : (newAxesCtor (Arr.const [2, 3] (0 : ℚ) 0) [2, 0, 1]).map (fun b => b.shape) = .ok (.ok [1, 1, 2, 3, 1]) ∧
    (newAxesCtor (Arr.const [2, 3] (0 : ℚ) 0) [2, -1, 1]).map (fun b => b.shape) = .error .value ∧
    (bcastCtor (Arr.const [2, 1] (0 : ℚ) 0) [(1, 4)] [5]).map (fun b => b.shape) = .ok (.ok [5, 2, 4]) ∧
    (bcastCtor (Arr.const [2, 1] (0 : ℚ) 0) [(0, 4)] []).map (fun b => b.shape) = .error .value ∧
    (bcastCtor (Arr.const [2, 1] (0 : ℚ) 0) [(1, 4)] [0]).map (fun b => b.shape) = .error .value ∧
    (transposedCtor (Arr.const [2, 1] (0 : ℚ) 0) [1, 0]).map (fun b => b.shape) = .ok (.ok [1, 2]) ∧
    (transposedCtor (Arr.const [2, 1] (0 : ℚ) 0) [0]).map (fun b => b.shape) = .error .value ∧
    (mkStackD exDTypes [3, 2] (fun _ => Arr.const [2, 1] (0 : ℚ) 0)).map (fun b => b.shape) = .ok (.ok [3, 2, 2, 1]) ∧
    (mkStackD exDTypes [3, 2] (fun i => Arr.const [2, i.getD 0 0] (0 : ℚ) 0)).map (fun b => b.shape) = .error .value ∧
    (mosaicCtor exDTypes [Arr.const [2, 1] (0 : ℚ) 0, Arr.const [2, 3] 0 0] 1).map (fun b => b.shape) = .ok (.ok [2, 4]) ∧
    (mosaicCtor exDTypes [Arr.const [2, 1] (0 : ℚ) 0, Arr.const [2, 3] 0 0] 0).map (fun b => b.shape) = .error .value ∧
    (mosaicCtor exDTypes [Arr.const [2, 1] (0 : ℚ) 0, Arr.const [2, 3] 0 0] (-1)).map (fun b => b.shape) = .error .value := by
  refine ⟨?_, ?_, ?_, ?_, ?_, ?_, ?_, ?_, ?_, ?_, ?_, ?_⟩ <;> decide +kernel

end Biggus

import Verif.Props.Containers
/-
C09, C10: exactly what happens when an array that already is a broadcast is broadcast again.
-/
namespace Biggus
open Spec

variable {α V : Type} [Inhabited α] [Inhabited V] {m : Mode α V} {limit : Nat}

/-- The axes of `d`, moved `k` to the right. -/
def shiftAxes (k : Nat) (d : List (Nat × Nat)) : List (Nat × Nat) := d.map (fun p => (p.1 + k, p.2))

/-- The leading dimensions an array already got by a broadcast. -/
def Arr.leadDims : Arr α → List Nat
  | .bcast _ _ lead => lead
  | _ => []

/-- `a` yields `x`; and if `a` is a broadcast, the array it broadcasts can be evaluated. -/
def Arr.YieldsBase (m : Mode α V) (limit : Nat) (a : Arr α) (x : NDA V) : Prop :=
  a.notBcast = true ∧ a.Yields m limit x ∨
  ∃ a' d lead y, a = .bcast a' d lead ∧ a'.Yields m limit y ∧ (d.map Prod.fst).Nodup ∧ (∀ p ∈ d, y.shape[p.1]? = some 1) ∧ (∀ l ∈ lead, 1 ≤ l) ∧
    y.stretch d lead ≈ₐ x

theorem lookup_shiftAxes (k : Nat) (d : List (Nat × Nat)) (i : Nat) : (shiftAxes k d).lookup i = if k ≤ i then d.lookup (i - k) else none := by
  unfold shiftAxes
  induction d with
  | nil => simp
  | cons p d ih =>
    rw [List.map_cons, List.lookup_cons, List.lookup_cons, ih]
    by_cases h : i = p.1 + k
    · subst h; simp
    · have h1 : (i == p.1 + k) = false := by simpa using h
      rw [h1]
      by_cases hk : k ≤ i
      · have h2 : (i - k == p.1) = false := by simp; omega
        simp [hk, h2]
      · simp [hk]

theorem shiftAxes_zero (d : List (Nat × Nat)) : shiftAxes 0 d = d := by simp [shiftAxes]

omit [Inhabited V] in
/-- Stretching the inner dimensions of a broadcast is stretching dimensions further to the right of the broadcast. -/
theorem stretch_inner {y : NDA V} {d' d : List (Nat × Nat)} {lead' lead : List Nat} :
    y.stretch (dictUpdate d' d) (lead ++ lead') ≈ₐ (y.stretch d' lead').stretch (shiftAxes lead'.length d) lead := by
  refine ⟨?_, fun idx hi => ?_⟩
  · simp only [NDA.stretch, List.append_assoc]
    congr 1
    apply List.ext_getElem?
    intro i
    rw [bcShape_getElem?, Nat.zero_add, lookup_shiftAxes]
    by_cases hi : i < lead'.length
    · rw [List.getElem?_append_left hi, List.getElem?_append_left hi, if_neg (by omega)]
      simp
    · rw [List.getElem?_append_right (by omega), List.getElem?_append_right (by omega), if_pos (by omega), bcShape_getElem?, bcShape_getElem?, Nat.zero_add,
        lookup_dictUpdate]
      cases y.shape[i - lead'.length]? <;> cases d.lookup (i - lead'.length) <;> simp
  · simp only [NDA.stretch, List.length_append]
    congr 1
    apply List.ext_getElem?
    intro i
    rw [bcIdx_getElem?, bcIdx_getElem?, List.getElem?_drop, List.getElem?_drop, bcIdx_getElem?, List.getElem?_drop, Nat.zero_add, Nat.zero_add, lookup_shiftAxes,
      if_pos (by omega), lookup_dictUpdate, Nat.add_sub_cancel_left, ← Nat.add_assoc]
    cases idx[lead.length + lead'.length + i]? <;> cases d.lookup i <;> cases d'.lookup i <;> simp

theorem Arr.YieldsBase.yields {a : Arr α} {x : NDA V} (h : a.YieldsBase m limit x) : a.Yields m limit x := by
  rcases h with ⟨_, h⟩ | ⟨a', d, lead, y, rfl, hy, hn, h1, _, e⟩
  · exact h
  · exact (yields_bcast hy hn h1).congr e

/-- C09.  What every broadcast that is accepted evaluates to, also when the array broadcast is a broadcast already: the axes named are taken as axes of the array
with its leading broadcast dimensions dropped, that is, `a.leadDims.length` further to the right than the documentation of `BroadcastArray` says.  Without leading
dimensions this is `C09_broadcast_repeats_data`. -/
theorem C09_nested_exact {a b : Arr α} {x : NDA V} {d : List (Nat × Nat)} {lead : List Nat} (h : a.YieldsBase m limit x) (hn : (d.map Prod.fst).Nodup)
    (hb : mkBcast a d lead = .ok b) :
    (∃ z, z ≈ₐ x ∧ b.Yields m limit (z.stretch (shiftAxes a.leadDims.length d) lead)) ∧ (∀ l ∈ lead, 1 ≤ l) := by
  rcases h with ⟨hnb, h⟩ | ⟨a', d', lead', y, rfl, hy, hn', h1', hl', e⟩
  · rw [mkBcast_notBcast hnb] at hb
    obtain ⟨h1, h2, rfl⟩ := (mkBcastFlat_iff h.1 hn).mp hb
    have : a.leadDims = [] := by cases a <;> first | rfl | simp [Arr.notBcast] at hnb
    rw [this, List.length_nil, shiftAxes_zero]
    exact ⟨⟨x, NDA.Eqv.refl _, yields_bcast h hn h1⟩, h2⟩
  · have hb' : mkBcastFlat a' (dictUpdate d' d) (lead ++ lead') = .ok b := hb
    have hnn := dictUpdate_nodup hn' hn
    obtain ⟨h1, h2, rfl⟩ := (mkBcastFlat_iff hy.1 hnn).mp hb'
    exact ⟨⟨y.stretch d' lead', e, (yields_bcast hy hnn h1).congr stretch_inner⟩, fun l hl => h2 l (List.mem_append_left _ hl)⟩

/-- C09.  Adding leading dimensions only is right for every array, also for one that is a broadcast with leading dimensions already. -/
theorem C09_more_leading {a : Arr α} {x : NDA V} {lead : List Nat} (h : a.YieldsBase m limit x) (hl : ∀ l ∈ lead, 1 ≤ l) :
    ∃ b, mkBcast a [] lead = .ok b ∧ b.Yields m limit (x.stretch [] lead) := by
  have hok : ∃ b, mkBcast a [] lead = .ok b := by
    rcases h with ⟨hnb, h⟩ | ⟨a', d', lead', y, rfl, hy, hn', h1', hl', e⟩
    · rw [mkBcast_notBcast hnb]
      exact ⟨_, mkBcastFlat_ok h.1 (by simp) (by simp) hl⟩
    · refine ⟨_, mkBcastFlat_ok hy.1 (dictUpdate_nodup hn' (by simp)) ?_ ?_⟩
      · intro p hp
        rcases List.mem_append.mp hp with hp | hp
        · exact h1' p (List.mem_filter.mp hp).1
        · cases hp
      · intro l hl'
        rcases List.mem_append.mp hl' with h | h
        · exact hl l h
        · exact (by assumption : ∀ l ∈ lead', 1 ≤ l) l h
  obtain ⟨b, hb⟩ := hok
  obtain ⟨⟨z, hz, hy⟩, _⟩ := C09_nested_exact h (by simp) hb
  exact ⟨b, hb, hy.congr (stretch_congr hz (by simp [shiftAxes]))⟩

theorem Arr.YieldsBase.flat {a : Arr α} {x : NDA V} (h : a.YieldsBase m limit x) (hl : a.leadDims = []) : a.YieldsFlat m limit x := by
  rcases h with h | ⟨a', d', lead', y, rfl, hy, hn', h1', hl', e⟩
  · exact Or.inl h
  · have hl : lead' = [] := hl
    subst hl
    exact Or.inr ⟨a', d', y, rfl, hy, hn', h1', e⟩

/-- One side of `broadcast_arrays`: exactly when it gives an array of the wanted shape. -/
theorem bcastSide_exact {a : Arr α} {x : NDA V} {full : List Nat} (h : a.YieldsBase m limit x) (hb : BroadcastsTo x.shape full) :
    ((∃ b, bcastSide a (bcastKwargs full x.shape) = .ok b ∧ b.shape = .ok full) ↔
      (∀ l ∈ full.take (full.length - x.shape.length), 1 ≤ l) ∧ (a.leadDims = [] ∨ x.shape = full.drop (full.length - x.shape.length))) ∧
    (∀ b, bcastSide a (bcastKwargs full x.shape) = .ok b → b.shape = .ok full → b.Yields m limit (broadcastTo x full)) ∧
    (∀ e, bcastSide a (bcastKwargs full x.shape) = .error e → e = .value) := by
  have hk := bcastKwargs_ok hb
  have hst := hk.stretch hb
  set d := (bcastKwargs full x.shape).1 with hd
  set lead := (bcastKwargs full x.shape).2 with hlead
  have hfull : lead ++ bcShape d 0 x.shape = full := hst.1
  have hlen : lead.length = full.length - x.shape.length := by rw [hk.lead]; simp
  -- nothing is stretched
  have hdx : d = [] ↔ x.shape = full.drop (full.length - x.shape.length) := by
    constructor
    · intro h
      rw [h, bcShape_nil] at hfull
      conv_rhs => rw [← hlen, ← hfull]
      simp
    · intro h
      match hdd : d with
      | [] => rfl
      | p :: ds =>
        exfalso
        have h1 := hk.look p.1
        rw [List.lookup_cons_self] at h1
        split at h1
        · rename_i hc
          apply hc.1
          rw [List.getD_eq_getElem?_getD, List.getD_eq_getElem?_getD]
          conv_rhs => rw [h]
          rw [List.getElem?_drop]
        · cases h1
  have hkw : bcastKwargs full x.shape = (d, lead) := rfl
  -- given the conditions
  have hback : (∀ l ∈ full.take (full.length - x.shape.length), 1 ≤ l) → (a.leadDims = [] ∨ x.shape = full.drop (full.length - x.shape.length)) →
      ∃ b, bcastSide a (bcastKwargs full x.shape) = .ok b ∧ b.Yields m limit (broadcastTo x full) := by
    intro hl hor
    rcases hor with hor | hor
    · exact yields_bcastSide (h.flat hor) hb hl
    · have hd0 := hdx.mpr hor
      rw [hkw, hd0]
      rw [hd0] at hst
      unfold bcastSide
      by_cases hl0 : lead = []
      · rw [hl0] at hst ⊢
        refine ⟨a, rfl, h.yields.congr (NDA.Eqv.trans ?_ hst)⟩
        exact ⟨by simp [NDA.stretch, bcShape_nil], fun idx _ => by simp [NDA.stretch, bcIdx_nil]⟩
      · obtain ⟨b, h1, h2⟩ := C09_more_leading h (lead := lead) (by rw [hk.lead]; exact hl)
        exact ⟨b, by simpa [hl0] using h1, h2.congr hst⟩
  have hforth : ∀ b, bcastSide a (bcastKwargs full x.shape) = .ok b → b.shape = .ok full →
      (∀ l ∈ full.take (full.length - x.shape.length), 1 ≤ l) ∧ (a.leadDims = [] ∨ x.shape = full.drop (full.length - x.shape.length)) := by
    intro b h1 h2
    rw [← hk.lead, ← hdx]
    rw [hkw] at h1
    unfold bcastSide at h1
    by_cases he : d = [] ∧ lead = []
    · rw [he.2]
      exact ⟨by simp, Or.inr he.1⟩
    · rw [if_neg (by simpa [List.isEmpty_iff] using he)] at h1
      obtain ⟨⟨z, hz, hy⟩, hl⟩ := C09_nested_exact h hk.nodup h1
      refine ⟨hl, ?_⟩
      by_contra hcon
      rw [not_or] at hcon
      obtain ⟨hc1, hc2⟩ := hcon
      have hsome : ∃ j, (d.lookup j).isSome = true := by
        match hdd : d, hc2 with
        | p :: ds, _ => exact ⟨p.1, by rw [List.lookup_cons_self]; rfl⟩
      classical
      set j := Nat.find hsome with hj
      have hj1 := Nat.find_spec hsome
      rw [← hj] at hj1
      obtain ⟨v, hv⟩ := Option.isSome_iff_exists.mp hj1
      have hsh : lead ++ bcShape (shiftAxes a.leadDims.length d) 0 x.shape = lead ++ bcShape d 0 x.shape := by
        rw [hfull]
        have := hy.1
        rw [h2] at this
        injection this with this
        rw [this, ← hz.1]
        rfl
      have hsh := List.append_cancel_left hsh
      have hjj := congrArg (fun l => l[j]?) hsh
      simp only [bcShape_getElem?, Nat.zero_add, hv] at hjj
      have hnone : (shiftAxes a.leadDims.length d).lookup j = none := by
        rw [lookup_shiftAxes]
        split
        · have hpos : 0 < a.leadDims.length := List.length_pos_iff.mpr hc1
          have := Nat.find_min hsome (m := j - a.leadDims.length) (by omega)
          exact Option.not_isSome_iff_eq_none.mp this
        · rfl
      rw [hnone] at hjj
      have hlk := hk.look j
      rw [hv] at hlk
      split at hlk
      · rename_i hc
        rw [List.getElem?_eq_getElem hc.2] at hjj
        simp only [Option.map_some, Option.getD_none, Option.getD_some, Option.some.injEq] at hjj hlk
        apply hc.1
        rw [← hlk, List.getD_eq_getElem _ _ hc.2]
        exact hjj.symm
      · cases hlk
  refine ⟨⟨fun ⟨b, h1, h2⟩ => hforth b h1 h2, fun ⟨h1, h2⟩ => ?_⟩, fun b h1 h2 => ?_, fun e he => ?_⟩
  · obtain ⟨b, g1, g2⟩ := hback h1 h2
    exact ⟨b, g1, g2.1⟩
  · obtain ⟨k1, k2⟩ := hforth b h1 h2
    obtain ⟨b', g1, g2⟩ := hback k1 k2
    rw [h1] at g1
    cases g1
    exact g2
  · unfold bcastSide at he
    split at he
    · cases he
    · rcases h with ⟨hnb, h⟩ | ⟨a', d', lead', y, rfl, hy, _⟩
      · rw [mkBcast_notBcast hnb] at he
        rcases mkBcastFlat_error (d := (bcastKwargs full x.shape).1) (lead := (bcastKwargs full x.shape).2) h.1 with ⟨b, hb⟩ | hb
        · rw [hb] at he; cases he
        · rw [hb] at he; cases he; rfl
      · rcases mkBcastFlat_error (d := dictUpdate d' (bcastKwargs full x.shape).1) (lead := (bcastKwargs full x.shape).2 ++ lead') hy.1 with ⟨b, hb⟩ | hb
        · have he : mkBcastFlat a' _ _ = .error e := he
          rw [hb] at he; cases he
        · have he : mkBcastFlat a' _ _ = .error e := he
          rw [hb] at he; cases he; rfl

/-- C10, exactly.  For all arrays `a`, `b` that evaluate to `x`, `y` (whether they are broadcasts already or not): if NumPy's rule gives no common shape,
`ValueError` is raised.  If it gives the shape `r`, `broadcast_arrays` gives two arrays of that shape if and only if no dimension that one of the two lacks is empty,
and an array that already has leading broadcast dimensions need not be stretched along any of its dimensions; the results are `np.broadcast_arrays(x, y)` then.  In all cases
the only exception raised is `ValueError`. -/
theorem C10_exact (a b : Arr α) (x y : NDA V) (ha : a.YieldsBase m limit x) (hb : b.YieldsBase m limit y) :
    ((¬ ∃ r, Broadcasts x.shape y.shape r) → broadcastArrays a b = .error .value) ∧
    (∀ r, Broadcasts x.shape y.shape r →
      ((∃ a' b', broadcastArrays a b = .ok (a', b') ∧ a'.shape = .ok r ∧ b'.shape = .ok r) ↔
        (∀ l ∈ r.take (r.length - min x.shape.length y.shape.length), 1 ≤ l) ∧
          (a.leadDims = [] ∨ x.shape = r.drop (r.length - x.shape.length)) ∧ (b.leadDims = [] ∨ y.shape = r.drop (r.length - y.shape.length))) ∧
      (∀ a' b', broadcastArrays a b = .ok (a', b') → a'.shape = .ok r → b'.shape = .ok r →
        a'.Yields m limit (broadcastTo x r) ∧ b'.Yields m limit (broadcastTo y r))) ∧
    (∀ e, broadcastArrays a b = .error e → e = .value) := by
  have hxs := ha.yields.1
  have hys := hb.yields.1
  have hno : (¬ ∃ r, Broadcasts x.shape y.shape r) → broadcastArrays a b = .error .value := by
    intro h
    unfold broadcastArrays
    rw [hxs, hys]
    show (computeBcastShape x.shape y.shape >>= fun full => _) = _
    rw [computeBcastShape_error h]
    rfl
  have hyes : ∀ r, Broadcasts x.shape y.shape r → broadcastArrays a b =
      (bcastSide a (bcastKwargs r x.shape) >>= fun a' => bcastSide b (bcastKwargs r y.shape) >>= fun b' => .ok (a', b')) := by
    intro r hr
    unfold broadcastArrays
    rw [hxs, hys]
    show (computeBcastShape x.shape y.shape >>= fun full => _) = _
    rw [computeBcastShape_iff.mpr hr]
    rfl
  have hpair : ∀ r, Broadcasts x.shape y.shape r → ∀ a' b', broadcastArrays a b = .ok (a', b') ↔
      bcastSide a (bcastKwargs r x.shape) = .ok a' ∧ bcastSide b (bcastKwargs r y.shape) = .ok b' := by
    intro r hr a' b'
    rw [hyes r hr]
    constructor
    · intro h
      obtain ⟨a₁, h1, h⟩ := bind_ok.mp h
      obtain ⟨b₁, h2, h⟩ := bind_ok.mp h
      injection h with h
      injection h with e1 e2
      rw [← e1, ← e2]
      exact ⟨h1, h2⟩
    · rintro ⟨h1, h2⟩
      rw [h1, h2]
      rfl
  refine ⟨hno, fun r hr => ?_, fun e he => ?_⟩
  · obtain ⟨ia, va, _⟩ := bcastSide_exact ha hr.left
    obtain ⟨ib, vb, _⟩ := bcastSide_exact hb hr.symm.left
    have hmin : (∀ l ∈ r.take (r.length - min x.shape.length y.shape.length), 1 ≤ l) ↔
        (∀ l ∈ r.take (r.length - x.shape.length), 1 ≤ l) ∧ (∀ l ∈ r.take (r.length - y.shape.length), 1 ≤ l) := by
      have := hr.1
      rcases le_total x.shape.length y.shape.length with h | h
      · rw [min_eq_left h, show r.length - y.shape.length = 0 by omega]; simp
      · rw [min_eq_right h, show r.length - x.shape.length = 0 by omega]; simp
    refine ⟨?_, ?_⟩
    · rw [hmin]
      constructor
      · rintro ⟨a', b', h, h1, h2⟩
        obtain ⟨g1, g2⟩ := (hpair r hr a' b').mp h
        obtain ⟨p1, p2⟩ := ia.mp ⟨a', g1, h1⟩
        obtain ⟨q1, q2⟩ := ib.mp ⟨b', g2, h2⟩
        exact ⟨⟨p1, q1⟩, p2, q2⟩
      · rintro ⟨⟨p1, q1⟩, p2, q2⟩
        obtain ⟨a', g1, h1⟩ := ia.mpr ⟨p1, p2⟩
        obtain ⟨b', g2, h2⟩ := ib.mpr ⟨q1, q2⟩
        exact ⟨a', b', (hpair r hr a' b').mpr ⟨g1, g2⟩, h1, h2⟩
    · intro a' b' h h1 h2
      obtain ⟨g1, g2⟩ := (hpair r hr a' b').mp h
      exact ⟨va a' g1 h1, vb b' g2 h2⟩
  · by_cases hr : ∃ r, Broadcasts x.shape y.shape r
    · obtain ⟨r, hr⟩ := hr
      rw [hyes r hr] at he
      obtain ⟨_, _, ea⟩ := bcastSide_exact ha hr.left
      obtain ⟨_, _, eb⟩ := bcastSide_exact hb hr.symm.left
      cases h1 : bcastSide a (bcastKwargs r x.shape) with
      | error e1 => rw [h1] at he; cases he; exact ea _ h1
      | ok a' =>
        rw [h1] at he
        have he : (bcastSide b (bcastKwargs r y.shape) >>= fun b' => (.ok (a', b') : Res (Arr α × Arr α))) = .error e := he
        cases h2 : bcastSide b (bcastKwargs r y.shape) with
        | error e2 => rw [h2] at he; cases he; exact eb _ h2
        | ok b' => rw [h2] at he; cases he
    · rw [hno hr] at he
      cases he
      rfl

/-- A broadcast of (1, 1) to (2, 1, 1) -/
def exLead : Arr ℚ := .bcast (.const [1, 1] 0 0) [] [2]

theorem exLead_yields : exLead.YieldsBase exMode 100 ((⟨[1, 1], fun _ => exMode.const 0⟩ : NDA ℚ).stretch [] [2]) :=
  Or.inr ⟨_, [], [2], _, rfl, yields_const [1, 1] 0 0, by decide, (fun _ h => by cases h), by decide, NDA.Eqv.refl _⟩

/-- C10 fails of the code silently: the conditions of `C10_exact` hold for (2, 1, 1) against (4, 2, 1, 1), and fail against (2, 3, 1), where NumPy gives
(2, 3, 1) but `broadcast_arrays` returns an array of shape (2, 1, 3), and against (2, 1, 3), where it raises `ValueError`. -/
theorem C10_leading_broadcast_misaligned : Broadcasts [2, 1, 1] [4, 2, 1, 1] [4, 2, 1, 1] ∧ Broadcasts [2, 1, 1] [2, 3, 1] [2, 3, 1] ∧
    (broadcastArrays exLead (.const [4, 2, 1, 1] 0 0) >>= fun p => p.1.shape) = .ok [4, 2, 1, 1] ∧
    (broadcastArrays exLead (.const [2, 3, 1] 0 0) >>= fun p => p.1.shape) = .ok [2, 1, 3] ∧
    (broadcastArrays exLead (.const [2, 1, 3] 0 0)).map (fun _ => ()) = .error .value := by
  refine ⟨?_, ?_, by decide +kernel, by decide +kernel, by decide +kernel⟩ <;> rw [← computeBcastShape_iff] <;> decide +kernel

end Biggus

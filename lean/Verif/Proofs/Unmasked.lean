import Verif.Proofs.ModeRel
import Verif.Spec.Unmasked
/-
The masked handlers on columns without masked elements.
-/
namespace Biggus

variable {α : Type}

theorem unmasked_some (col : List α) : unmasked (col.map some) = col := by
  induction col with
  | nil => rfl
  | cons x col ih => simpa [unmasked] using ih

theorem getD_map_some [Zero α] (col : List α) : (col.map some).map (fun o : Option α => o.getD 0) = col := by
  induction col with
  | nil => rfl
  | cons x col ih => simp

theorem countP_map_some (col : List α) : (col.map some).countP Option.isNone = 0 := by
  induction col with
  | nil => rfl
  | cons x col ih => simp

section
variable [Field α]

theorem welfordM_foldl (col : List α) : ∀ s : StdState α, s.k ≠ 0 → (col.map some).foldl welfordMStep s = col.foldl welfordStep s := by
  induction col with
  | nil => intro s _; rfl
  | cons x col ih =>
    intro s hs
    have : welfordMStep s (some x) = welfordStep s x := by simp [welfordMStep, welfordStep, hs]
    simp only [List.map_cons, List.foldl_cons, this]
    exact ih _ (by simp [welfordStep])

/-- The running state of the masked handler after the values of a column, none masked, is that of the plain handler. -/
theorem stdM_state (x : α) (col : List α) :
    stdMStep ⟨0, 0, 0⟩ ((x :: col).map some) = stdStep ⟨1, 0, 0⟩ (x :: col) := by
  have h1 : welfordMStep (⟨0, 0, 0⟩ : StdState α) (some x) = ⟨1, x, 0⟩ := by simp [welfordMStep]
  simp only [stdMStep, List.map_cons, List.foldl_cons, h1]
  rw [welfordM_foldl _ _ (by simp)]
  simp [stdStep]

theorem welford_k (col : List α) : ∀ s : StdState α, (col.foldl welfordStep s).k = s.k + col.length := by
  induction col with
  | nil => intro s; rfl
  | cons x col ih => intro s; simp only [List.foldl_cons, ih]; simp [welfordStep]; omega

theorem welford_q [LinearOrder α] [IsStrictOrderedRing α] (col : List α) :
    ∀ s : StdState α, s.k ≠ 0 → 0 ≤ s.q → 0 ≤ (col.foldl welfordStep s).q := by
  induction col with
  | nil => intro s _ h; exact h
  | cons x col ih =>
    intro s hk hq
    refine ih _ (by simp [welfordStep]) ?_
    simp only [welfordStep]
    refine add_nonneg hq (mul_nonneg (mul_self_nonneg _) (mul_nonneg (Nat.cast_nonneg _) ?_))
    rw [sub_nonneg]
    exact_mod_cast Nat.succ_le_succ (Nat.zero_le _)

theorem std_state_k (x : α) (col : List α) : (stdStep (⟨1, 0, 0⟩ : StdState α) (x :: col)).k = col.length + 1 := by
  simp only [stdStep, if_true]
  rw [welford_k]
  simp; omega

end

variable [Field α] [LinearOrder α]

/-- If the aggregate of a column without masked elements is not masked, it is what the plain aggregation gives. -/
theorem handler_agree (sqrt : α → α) (k : AggKind α) (col : List α) (v : α)
    (h : (maskedHandler sqrt k).run col.length [col.map some] = some v) : (plainHandler sqrt k).run col.length [col] = v := by
  cases k with
  | count =>
    simp only [maskedHandler, countMH, Handler.run, List.foldl, unmasked_some, Option.some.injEq] at h
    simpa [plainHandler, countH, Handler.run] using h
  | min =>
    simp only [maskedHandler, minMH, Handler.run, List.foldl, reduceMasked, unmasked_some] at h
    cases col with
    | nil => cases h
    | cons x col => simpa [plainHandler, minH, Handler.run] using h
  | max =>
    simp only [maskedHandler, maxMH, Handler.run, List.foldl, reduceMasked, unmasked_some] at h
    cases col with
    | nil => cases h
    | cons x col => simpa [plainHandler, maxH, Handler.run] using h
  | sum =>
    simp only [maskedHandler, sumMH, Handler.run, List.foldl, getD_map_some] at h
    split at h
    · cases h
    · simpa [plainHandler, sumH, Handler.run] using h
  | mean mdtol =>
    simp only [maskedHandler, meanMH, Handler.run, List.foldl, meanMFin, meanMStep, unmasked_some, countP_map_some] at h
    split at h
    · cases h
    · split at h
      · cases h
      · simpa [plainHandler, meanH, Handler.run] using h
  | std ddof =>
    cases col with
    | nil => simp [maskedHandler, stdMH, Handler.run, stdMStep] at h
    | cons x col =>
      simp only [maskedHandler, stdMH, Handler.run, List.foldl_cons, List.foldl_nil, stdM_state] at h
      split at h
      · cases h
      · split at h
        · cases h
        · split at h
          · cases h
          · simpa [plainHandler, stdH, Handler.run] using h
  | var ddof =>
    cases col with
    | nil => simp [maskedHandler, varMH, stdMH, Handler.run, stdMStep] at h
    | cons x col =>
      simp only [maskedHandler, varMH, stdMH, Handler.run, List.foldl_cons, List.foldl_nil, stdM_state] at h
      split at h
      · cases h
      · split at h
        · cases h
        · split at h
          · cases h
          · simpa [plainHandler, varH, stdH, Handler.run] using h

/-- The aggregate of a column without masked elements is not masked, if the aggregation has a value. -/
theorem handler_some [IsStrictOrderedRing α] (sqrt : α → α) (k : AggKind α) (col : List α) (hk : k.hasValue col.length) :
    ∃ v, (maskedHandler sqrt k).run col.length [col.map some] = some v := by
  have hn : ∀ {x : α} {l : List α}, (x :: l).map some ≠ [] := by simp
  cases k with
  | count => exact ⟨_, rfl⟩
  | min =>
    cases col with
    | nil => exact absurd rfl hk
    | cons x col => simp [maskedHandler, minMH, Handler.run, reduceMasked, unmasked]
  | max =>
    cases col with
    | nil => exact absurd rfl hk
    | cons x col => simp [maskedHandler, maxMH, Handler.run, reduceMasked, unmasked]
  | sum =>
    cases col with
    | nil => exact absurd rfl hk
    | cons x col => simp [maskedHandler, sumMH, Handler.run]
  | mean mdtol =>
    obtain ⟨h1, h2⟩ := hk
    simp only [maskedHandler, meanMH, Handler.run, List.foldl, meanMFin, meanMStep, unmasked_some, countP_map_some]
    rw [if_neg, if_neg]
    · exact ⟨_, rfl⟩
    · simpa using h1
    · simpa using fun _ _ => h2
  | std ddof =>
    obtain ⟨h1, h2⟩ := hk
    cases col with
    | nil => exact absurd rfl h1
    | cons x col =>
      simp only [maskedHandler, stdMH, Handler.run, List.foldl_cons, List.foldl_nil, stdM_state]
      have hd : (0 : α) < (((stdStep (⟨1, 0, 0⟩ : StdState α) (x :: col)).k : Nat) : α) - (ddof : α) := by
        rw [std_state_k, sub_pos]
        have : ddof < ((col.length + 1 : Nat) : Int) := by simpa using h2
        exact_mod_cast (Int.cast_lt (R := α)).mpr this
      rw [if_neg (by rw [std_state_k]; simp), if_neg hd.ne', if_neg]
      · exact ⟨_, rfl⟩
      · rw [not_lt]
        refine div_nonneg ?_ hd.le
        simp only [stdStep, if_true]
        exact welford_q _ _ (by simp) (le_refl _)
  | var ddof =>
    obtain ⟨h1, h2⟩ := hk
    cases col with
    | nil => exact absurd rfl h1
    | cons x col =>
      simp only [maskedHandler, varMH, stdMH, Handler.run, List.foldl_cons, List.foldl_nil, stdM_state]
      have hd : (0 : α) < (((stdStep (⟨1, 0, 0⟩ : StdState α) (x :: col)).k : Nat) : α) - (ddof : α) := by
        rw [std_state_k, sub_pos]
        have : ddof < ((col.length + 1 : Nat) : Int) := by simpa using h2
        exact_mod_cast (Int.cast_lt (R := α)).mpr this
      rw [if_neg (by rw [std_state_k]; simp), if_neg hd.ne', if_neg]
      · exact ⟨_, rfl⟩
      · rw [not_lt]
        refine div_nonneg ?_ hd.le
        simp only [stdStep, if_true]
        exact welford_q _ _ (by simp) (le_refl _)

/-- What a plain element and a masked element have in common: the same value, or the second is masked. -/
def AgreeElem (x : α) (y : Option α) : Prop := ∀ v, y = some v → x = v

theorem forall₂_agree_some {l : List α} {l' : List (Option α)} (h : List.Forall₂ AgreeElem l l') (h' : ∀ o ∈ l', o.isSome = true) :
    l' = l.map some := by
  induction h with
  | nil => rfl
  | @cons x y l l' hxy _ ih =>
    obtain ⟨v, rfl⟩ := Option.isSome_iff_exists.mp (h' y (by simp))
    rw [hxy v rfl, ih (fun o ho => h' o (by simp [ho]))]
    rfl

theorem forall₂_some {l : List α} {l' : List (Option α)} (h : List.Forall₂ (fun x y => y = some x) l l') : l' = l.map some := by
  induction h with
  | nil => rfl
  | cons h _ ih => rw [h, ih]; rfl

theorem column_len {β : Type} (x : NDA β) (axis : Nat) (idx : List Nat) : (x.column axis idx).length = x.shape.getD axis 0 := by
  simp [NDA.column]

theorem column_inB {β : Type} {x : NDA β} {axis : Nat} {idx : List Nat} {P : β → Prop} (h : ∀ i, InB x.shape i → P (x.get i))
    (hax : axis < x.shape.length) (hi : InB (x.shape.eraseIdx axis) idx) : ∀ v ∈ x.column axis idx, P v := by
  have := column_rel (R := fun v _ => P v) (y := x) ⟨rfl, h⟩ hax hi
  intro v hv
  obtain ⟨w, _, hw⟩ := forall₂_mem_left this hv
  exact hw

variable [Inhabited α]

theorem relOk_agree (sqrt : α → α) (cast : Nat → α → α) : ∀ a : Arr α, a.WF → a.aggsUnmasked sqrt cast →
    a.relOk (ndMode sqrt cast) (maMode sqrt cast) AgreeElem
  | .adapter o c keys, _, _ => by
    intro idx _ v hv
    show (c.data.get idx).getD c.fill = v
    rw [show c.data.get idx = some v from hv]; rfl
  | .const s v dt, _, _ => by
    intro u hu
    exact Option.some.inj hu
  | .newAxes a na, ⟨hwa, _⟩, h => relOk_agree sqrt cast a hwa h
  | .bcast a d lead, ⟨hwa, _⟩, h => relOk_agree sqrt cast a hwa h
  | .transposed a axes, ⟨hwa, _⟩, h => relOk_agree sqrt cast a hwa h
  | .stack ss items, ⟨_, s, hi⟩, h => fun i hb => relOk_agree sqrt cast (items i) (hi i hb).1 (h i hb)
  | .mosaic n tiles axis, ⟨_, s, _, ht⟩, h => fun i hb => relOk_agree sqrt cast (tiles i) (ht i hb).1 (h i hb)
  | .asType a dt, hwf, h => by
    refine ⟨relOk_agree sqrt cast a hwf h, fun x y hxy v hv => ?_⟩
    cases y with
    | none => cases hv
    | some u => rw [hxy u rfl]; exact Option.some.inj hv
  | .maskVal a v, hwf, h => by
    refine ⟨relOk_agree sqrt cast a hwf h, fun x y hxy u hu => ?_⟩
    simp only [maMode] at hu
    split at hu
    · cases hu
    · exact hxy u hu
  | .agg a axis k, ⟨hwa, s, hs, hax⟩, ⟨h, hu⟩ => by
    have ih := relOk_agree sqrt cast a hwa h
    have hr := den_rel a hwa ih
    refine ⟨ih, fun idx hi v hv => ?_⟩
    have hsh : (a.den (ndMode sqrt cast)).shape = s := by rw [hwa.shape_eq (ndMode sqrt cast)] at hs; exact Except.ok.inj hs
    have hax1 : axis < (a.den (ndMode sqrt cast)).shape.length := by rw [hsh]; exact hax
    have hc := column_rel hr hax1 hi
    have hc2 := forall₂_agree_some hc (column_inB (x := a.den (maMode sqrt cast)) (P := fun o : Option α => o.isSome = true) hu (by rw [← hr.1]; exact hax1) (by rw [← hr.1]; exact hi))
    rw [hc2, ← hr.1, ← column_len _ axis idx] at hv
    rw [← column_len _ axis idx]
    exact handler_agree sqrt k _ v hv
  | .elem1 a op, hwf, ⟨h, hop, hag⟩ => by
    have hwa : a.WF := hwf
    have ih := relOk_agree sqrt cast a hwa h
    have hr := den_rel a hwa ih
    obtain ⟨g, hg⟩ := Option.isSome_iff_exists.mp hop
    obtain ⟨g1, g2⟩ := hag g hg
    refine ⟨ih, fun idx hi v hv => ?_⟩
    simp only [ndMode, Option.getD_some]
    simp only [maMode, hg, Option.getD_some] at hv
    have := hr.2 idx hi
    change g ((a.den (maMode sqrt cast)).get idx) = some v at hv
    show op.np ((a.den (ndMode sqrt cast)).get idx) = v
    cases hy : (a.den (maMode sqrt cast)).get idx with
    | none => rw [hy, g1] at hv; cases hv
    | some u =>
      rw [hy] at hv
      rw [this u hy]
      exact g2 u v hv
  | .elem2 a b op, ⟨hwa, hwb, hab⟩, ⟨h, h', hop, hag⟩ => by
    have ih := relOk_agree sqrt cast a hwa h
    have ih' := relOk_agree sqrt cast b hwb h'
    have hr := den_rel a hwa ih
    have hr' := den_rel b hwb ih'
    have hsh : (a.den (ndMode sqrt cast)).shape = (b.den (ndMode sqrt cast)).shape := by
      rw [hwa.shape_eq (ndMode sqrt cast), hwb.shape_eq (ndMode sqrt cast)] at hab; exact Except.ok.inj hab
    obtain ⟨g, hg⟩ := Option.isSome_iff_exists.mp hop
    obtain ⟨g1, g2, g3⟩ := hag g hg
    refine ⟨ih, ih', fun idx hi v hv => ?_⟩
    have e1 := hr.2 idx hi
    have e2 := hr'.2 idx (by rw [← hsh]; exact hi)
    have hv' : g ((a.den (maMode sqrt cast)).get idx) ((b.den (maMode sqrt cast)).get idx) = some v := by
      have := hv
      simp only [show (maMode sqrt cast).op2 op = some g from hg, Option.getD_some] at this
      exact this
    show op.np ((a.den (ndMode sqrt cast)).get idx) ((b.den (ndMode sqrt cast)).get idx) = v
    cases hy : (a.den (maMode sqrt cast)).get idx with
    | none => rw [hy, g1] at hv'; cases hv'
    | some u =>
      cases hz : (b.den (maMode sqrt cast)).get idx with
      | none => rw [hz, g2] at hv'; cases hv'
      | some w =>
        rw [hy, hz] at hv'
        rw [e1 u hy, e2 w hz]
        exact g3 u w v hv'

theorem relOk_maskless [IsStrictOrderedRing α] (sqrt : α → α) (cast : Nat → α → α) : ∀ a : Arr α, a.WF → a.maskless sqrt cast →
    a.relOk (ndMode sqrt cast) (maMode sqrt cast) (fun x y => y = some x)
  | .adapter o c keys, _, h => by
    intro idx hi
    obtain ⟨v, hv⟩ := Option.isSome_iff_exists.mp (h idx hi)
    show c.data.get idx = some ((c.data.get idx).getD c.fill)
    rw [hv]; rfl
  | .const s v dt, _, _ => rfl
  | .newAxes a na, ⟨hwa, _⟩, h => relOk_maskless sqrt cast a hwa h
  | .bcast a d lead, ⟨hwa, _⟩, h => relOk_maskless sqrt cast a hwa h
  | .transposed a axes, ⟨hwa, _⟩, h => relOk_maskless sqrt cast a hwa h
  | .stack ss items, ⟨_, s, hi⟩, h => fun i hb => relOk_maskless sqrt cast (items i) (hi i hb).1 (h i hb)
  | .mosaic n tiles axis, ⟨_, s, _, ht⟩, h => fun i hb => relOk_maskless sqrt cast (tiles i) (ht i hb).1 (h i hb)
  | .asType a dt, hwf, h => by
    refine ⟨relOk_maskless sqrt cast a hwf h, fun x y hxy => ?_⟩
    subst hxy; rfl
  | .maskVal a v, hwf, h => h.elim
  | .agg a axis k, ⟨hwa, s, hs, hax⟩, ⟨h, hu⟩ => by
    have ih := relOk_maskless sqrt cast a hwa h
    have hr := den_rel a hwa ih
    refine ⟨ih, fun idx hi => ?_⟩
    have hsh : (a.den (ndMode sqrt cast)).shape = s := by rw [hwa.shape_eq (ndMode sqrt cast)] at hs; exact Except.ok.inj hs
    have hax1 : axis < (a.den (ndMode sqrt cast)).shape.length := by rw [hsh]; exact hax
    have hc2 := forall₂_some (column_rel hr hax1 hi)
    have hv := hu s hs
    rw [← hsh, ← column_len _ axis idx] at hv
    obtain ⟨v, hv⟩ := handler_some sqrt k _ hv
    rw [hc2, ← hr.1, ← column_len (a.den (ndMode sqrt cast)) axis idx]
    have h2 := handler_agree sqrt k _ v hv
    show (maskedHandler sqrt k).run _ _ = some ((plainHandler sqrt k).run _ _)
    rw [hv, h2]
  | .elem1 a op, hwf, ⟨h, g, hg, hop⟩ => by
    have hwa : a.WF := hwf
    have ih := relOk_maskless sqrt cast a hwa h
    have hr := den_rel a hwa ih
    refine ⟨ih, fun idx hi => ?_⟩
    rw [show (maMode sqrt cast).op1 op = some g from hg, Option.getD_some, hr.2 idx hi]
    exact hop idx hi
  | .elem2 a b op, ⟨hwa, hwb, hab⟩, ⟨h, h', g, hg, hop⟩ => by
    have ih := relOk_maskless sqrt cast a hwa h
    have ih' := relOk_maskless sqrt cast b hwb h'
    have hr := den_rel a hwa ih
    have hr' := den_rel b hwb ih'
    have hsh : (a.den (ndMode sqrt cast)).shape = (b.den (ndMode sqrt cast)).shape := by
      rw [hwa.shape_eq (ndMode sqrt cast), hwb.shape_eq (ndMode sqrt cast)] at hab; exact Except.ok.inj hab
    refine ⟨ih, ih', fun idx hi => ?_⟩
    rw [show (maMode sqrt cast).op2 op = some g from hg, Option.getD_some, hr.2 idx hi, hr'.2 idx (by rw [← hsh]; exact hi)]
    exact hop idx hi

end Biggus

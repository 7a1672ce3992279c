import Verif.Proofs.Threads
import Verif.Props.Index
import Verif.Props.Save
import Verif.Props.Nested
import Verif.Props.GroupsWitness
/-
C70: evaluation with threads at every level.
-/
namespace Biggus
open Spec

variable {α V : Type} [Inhabited α] [Inhabited V] {m : Mode α V} {limit : Nat}

/-- Threaded evaluation always returns `r`: there are executions, and whatever the schedules of the threads of all calls of the engine,
nested ones included, every one of them ends with `r`; nothing hangs and nothing raises.  (For every large enough bound on the
nesting.) -/
def Arr.AlwaysReturns (m : Mode α V) (limit : Nat) (a : Arr α) (r : NDA V) : Prop :=
  ∃ N, ∀ n, N ≤ n → (∃ res, a.Runs m limit (WellShared limit) n res) ∧
    ∀ res, a.Runs m limit (WellShared limit) n res → ∃ d, res = .ok d ∧ d ≈ₐ r

theorem alwaysReturns_of {a : Arr α} {x : NDA V} (hwf : a.WF) (hok : a.Ok m limit .whole) (hd : a.den m ≈ₐ x) : a.AlwaysReturns m limit x := by
  obtain ⟨N, hN⟩ := exists_level a
  refine ⟨N, fun n hn => ⟨runs_exists m limit n a, fun res h => ?_⟩⟩
  obtain ⟨d, h1, h2⟩ := runs_good m limit n a res hwf (good_of m limit n a hwf hok (Arr.levelLe.mono a N n hn hN)) h
  exact ⟨d, h1, h2.trans hd⟩

/-- C70.  If an expression of the grammar evaluates to `x`, then evaluating it with threads returns `x` under every schedule of every
call of the engine, and so it does after any sequence of indexings by simple keys. -/
theorem C70_every_schedule (fwd : Bool) (a : Arr α) (x : NDA V) (hb : a.Built m limit fwd false .whole) (hx : a.Yields m limit x)
    (kss : List (List Key)) (hh : SimpleHistory fwd kss x.shape) :
    ∃ b r, kss.foldlM (fun a ks => Arr.getitem a ks) a = .ok b ∧ indexAll x kss = .ok r ∧ b.AlwaysReturns m limit r := by
  obtain ⟨h1, h2, _, h4⟩ := hb.fine
  obtain ⟨b, r, k1, k2, k3, k4, k5, _⟩ := C06_simple_keys fwd kss a x h1 h2 h4 hx hh
  exact ⟨b, r, k1, k2, alwaysReturns_of k4 k5 (k3.2.den_eqv k4 k5).symm⟩

/-- C70 for groups: `biggus.ndarrays(xs)` for expressions of the grammar, under every schedule of its threads and of those of the
calls of the engine made by them. -/
theorem C70_group_every_schedule (fwd : Bool) (xs : List (Arr α)) (ys : List (NDA V))
    (hb : ∀ a ∈ xs, a.Built m limit fwd false .sliced) (hx : List.Forall₂ (fun a y => Arr.Yields m limit a y) xs ys) :
    ∃ N, ∀ n, N ≤ n → (∃ res, EngineCall m limit (WellShared limit) (Arr.Runs m limit (WellShared limit) n) xs res) ∧
      ∀ res, EngineCall m limit (WellShared limit) (Arr.Runs m limit (WellShared limit) n) xs res →
        ∃ rs, res = .ok rs ∧ List.Forall₂ (· ≈ₐ ·) rs ys := by
  obtain ⟨N, hN⟩ := eventually_all xs (fun a n => a.levelLe n) (fun a _ => by
    obtain ⟨N, hN⟩ := exists_level a
    exact ⟨N, fun n hn => Arr.levelLe.mono a N n hn hN⟩)
  refine ⟨N, fun n hn => ⟨engineCall_exists m limit (runs_exists m limit n) xs, fun res h => ?_⟩⟩
  obtain ⟨rs, h1, h2⟩ := engineCall_ok m limit _ (Arr.good m limit n) (fun b r hb hG hr => runs_good m limit n b r hb hG hr) (xs := xs) (fun a ha => by
    obtain ⟨k1, k2, k3, _⟩ := (hb a ha).fineS
    exact ⟨k1, streamGood_of m limit n _ (good_of m limit n) a k1 k3 k2 (hN n hn a ha)⟩) h
  refine ⟨rs, h1, ?_⟩
  clear hN h h1
  induction hx generalizing rs with
  | nil => cases h2; exact .nil
  | @cons a y xs ys hy _ ih =>
    cases h2 with
    | @cons r _ rs _ hr hrs =>
      obtain ⟨k1, k2, k3, _⟩ := (hb a (by simp)).fineS
      refine .cons (hr.trans (hy.2.den_eqv k1 (k2.mono m limit a .sliced .whole (Or.inr (Or.inr rfl)))).symm) ?_
      exact ih (fun b hb' => hb b (by simp [hb'])) rs hrs

/-- C70 for `save`: `read ks` is what evaluating `array[ks]` with threads gives in some execution.  In all of them the target is left
with the elements of the array. -/
theorem C70_save_every_schedule (a : Arr α) (x target : NDA V) (hb : a.Built m limit true false .whole) (hx : a.Yields m limit x)
    (ht : target.shape = x.shape) :
    ∃ N, ∀ n, N ≤ n → ∀ read : List Key → Res (NDA V),
      (∀ ks ∈ saveKeys limit x.shape, ∃ b, a.getitem ks = .ok b ∧ b.Runs m limit (WellShared limit) n (read ks)) →
      ∃ t, save limit x.shape read target = .ok t ∧ t ≈ₐ x := by
  obtain ⟨h1, h2, _, h4⟩ := hb.fine
  obtain ⟨N, hN⟩ := eventually_all (saveKeys limit x.shape)
    (fun ks n => ∀ r, npIndex x ks = .ok r → ∀ b res, a.getitem ks = .ok b → b.Runs m limit (WellShared limit) n res → ∃ d, res = .ok d ∧ d ≈ₐ r) (by
      intro ks hks
      have hs := saveKeys_simple limit x.shape ks hks
      obtain ⟨b, r, k1, k2, k3, k4, k5, _⟩ := C06_simple_keys true [ks] a x h1 h2 h4 hx ⟨hs, fun _ _ _ _ => trivial⟩
      have k1' : a.getitem ks = .ok b := by
        rw [List.foldlM_cons] at k1
        obtain ⟨b', hb', k1⟩ := bind_ok.mp k1
        cases k1; exact hb'
      have k2' : npIndex x ks = .ok r := by
        unfold indexAll at k2
        rw [List.foldlM_cons] at k2
        obtain ⟨b', hb', k2⟩ := bind_ok.mp k2
        cases k2; exact hb'
      obtain ⟨N, hN⟩ := alwaysReturns_of k4 k5 (k3.2.den_eqv k4 k5).symm
      refine ⟨N, fun n hn r' hr' b' res hb' hres => ?_⟩
      rw [k2'] at hr'; cases hr'
      rw [k1'] at hb'; cases hb'
      exact (hN n hn).2 res hres)
  refine ⟨N, fun n hn read hread => ?_⟩
  obtain ⟨⟨t, t1, t2⟩, _⟩ := C19_save_writes_every_element_once limit x target read ht (fun ks hks r hr => by
    obtain ⟨b, hb, hr'⟩ := hread ks hks
    exact hN n hn ks hks r hr b _ hb hr')
  exact ⟨t, t1, t2⟩

/-! ### Concrete cases -/

/-- The hypotheses of `C70_every_schedule` for the transposed mean of a sum (`exExpr`; a history for it is in `Props/Index.lean`). -/
example : exExpr.Built exMode 5 true false .whole ∧ Res.view (exExpr.eval exMode 5 9) = .ok ([4, 2], [14, 26, 15, 27, 16, 28, 17, 29]) ∧
    Res.view (exExpr.evalBy exMode (fun xs => xs.mapM (engineEval exMode 5 8))) = .ok ([4, 2], [14, 26, 15, 27, 16, 28, 17, 29]) :=
  ⟨exExpr_built, by decide +kernel, by decide +kernel⟩

/-- Objects that share almost everything may be evaluated together. -/
example : WellShared 3 exTogether := ⟨exTogether_ok.1, Or.inr (Or.inl exTogether_ok.2.2.1)⟩

/-- Any sharing is allowed. -/
def AnyShared (ys : List (AObj α)) : Prop := (∀ y ∈ ys, y.Proper) ∧ ∃ heap, ∀ y ∈ ys, y.inHeap heap

/-- A 4×4 array of the numbers 0, 1, ... -/
def exSq : Arr ℚ := .adapter true ⟨⟨[4, 4], fun i => some (flatIndex [4, 4] i : Nat)⟩, 0, 0⟩ []

theorem EngineCall.mono {P Q : List (AObj α) → Prop} (hpq : ∀ ys, P ys → Q ys) {R : Arr α → Res (NDA V) → Prop} {xs : List (Arr α)} {res : Res (List (NDA V))}
    (h : EngineCall m limit P R xs res) : EngineCall m limit Q R xs res := by
  obtain ⟨e, ys, out, h1, h2, h3, h4⟩ := h
  exact ⟨e, ys, out, h1, h2, hpq _ h3, h4⟩

/-- `sum(x, 0)` and `sum(x, 1)` of one and the same `x`. -/
def exSqSums : List (AObj ℚ) := [.agg 1 (.prod 0 exSq) 0 .sum, .agg 2 (.prod 0 exSq) 1 .sum]

/-- Without the restriction on what is shared C70 fails: `(sum(x, 0) + sum(x, 1)).ndarray()` of one and the same `x`, read in more than one chunk,
has an execution with a wrong result. -/
theorem C70_conflicting_orders_wrong : ∃ res, (Arr.elem2 (.agg exSq 0 .sum) (.agg exSq 1 .sum) ⟨fun x y => x + y, none⟩).Runs exMode 1 AnyShared 1 res ∧
    Res.view res = .ok ([4], [27, 35, 43, 51]) ∧
    Res.view ((Arr.elem2 (.agg exSq 0 .sum) (.agg exSq 1 .sum) ⟨fun x y => x + y, none⟩).eval exMode 1 2) = .ok ([4], [30, 50, 70, 90]) := by
  classical
  have hex : ∀ xs, ∃ res, EngineCall exMode 1 AnyShared (Arr.Runs exMode 1 AnyShared 0) xs res := fun xs => by
    obtain ⟨res, h⟩ := engineCall_exists exMode 1 (R := Arr.Runs exMode 1 AnyShared 0) (fun b => ⟨_, rfl⟩) xs
    exact ⟨res, h.mono (fun ys hy => ⟨hy.1.proper, hy.1.coherent⟩)⟩
  choose engs he using hex
  obtain ⟨out, ho⟩ := groupOutcome_exists exMode 1 queueSize (fun b => b.evalBy exMode (fun _ => .error .runtime)) exSqSums
  have hv := outcome_by_run 1000 (v := some (.ok [([4], [24, 28, 32, 36]), ([4], [3, 7, 11, 15])])) (by decide +kernel) ho
  obtain ⟨res, rfl, hw⟩ := Option.map_eq_some_iff.mp hv
  clear hv
  match res, hw with
  | .ok [x, y], hv =>
    have hv : (Except.ok [(x.shape, x.toList), (y.shape, y.toList)] : Res (List (List Nat × List ℚ))) = .ok [([4], [24, 28, 32, 36]), ([4], [3, 7, 11, 15])] := hv
    simp only [Except.ok.injEq, List.cons.injEq, Prod.mk.injEq, and_true] at hv
    obtain ⟨⟨hx1, hx2⟩, hy1, hy2⟩ := hv
    refine ⟨npOp2 (fun x y => x + y) x y, ⟨fun xs => if xs = [.agg exSq 0 .sum, .agg exSq 1 .sum] then .ok [x, y] else engs xs, fun xs => ?_, ?_⟩, ?_, by decide +kernel⟩
    · show EngineCall _ _ _ _ xs (if xs = [.agg exSq 0 .sum, .agg exSq 1 .sum] then .ok [x, y] else engs xs)
      by_cases hc : xs = [.agg exSq 0 .sum, .agg exSq 1 .sum]
      · rw [if_pos hc, hc]
        refine ⟨_, exSqSums, _, fun b => rfl, rfl, ⟨?_, ?_⟩, ho, Or.inl rfl⟩
        · simp [exSqSums, AObj.Proper, Arr.isProd, exSq]
        · exact ⟨fun i => if i = 0 then .prod 0 exSq else if i = 1 then .agg 1 (.prod 0 exSq) 0 .sum else .agg 2 (.prod 0 exSq) 1 .sum,
            by simp [exSqSums, AObj.inHeap]⟩
      · rw [if_neg hc]
        exact he xs
    · simp only [Arr.evalBy, if_pos]
      rfl
    · obtain ⟨sx, gx⟩ := x
      obtain ⟨sy, gy⟩ := y
      cases hx1
      cases hy1
      have e : ndindex [4] = [[0], [1], [2], [3]] := by decide
      simp only [NDA.toList, e, List.map_cons, List.map_nil, List.cons.injEq, and_true] at hx2 hy2
      obtain ⟨a0, a1, a2, a3⟩ := hx2
      obtain ⟨b0, b1, b2, b3⟩ := hy2
      have : bcastShape [4] [4] = some [4] := by decide
      simp only [npOp2, this, Res.view, Except.map, NDA.toList, e, List.map_cons, List.map_nil, NDA.bcastTo,
        show bcastIdx [4] [0] = [0] by decide, show bcastIdx [4] [1] = [1] by decide, show bcastIdx [4] [2] = [2] by decide,
        show bcastIdx [4] [3] = [3] by decide, a0, a1, a2, a3, b0, b1, b2, b3]
      norm_num
  | .ok [], hv => injection hv with hv; cases hv
  | .ok [_], hv => injection hv with hv; simp at hv
  | .ok (_ :: _ :: _ :: _), hv => injection hv with hv; simp at hv
  | .error e, hv => cases hv

end Biggus

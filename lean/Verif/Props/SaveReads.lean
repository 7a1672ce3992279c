import Verif.Proofs.SaveReads
import Verif.Props.Save
import Verif.Props.Reads
/-
C32 / C19: what `biggus.save` reads from the data sources.
-/
namespace Biggus
open Spec

/-- Forgetting what is read. -/
theorem saveLoopL_erase {β γ : Type} (tshape : List Nat) (read : List Key → Res (NDA β × List γ)) : ∀ keys : List (List Key),
    Except.map Prod.fst (saveLoopL tshape read keys) = saveLoop tshape (fun ks => Except.map Prod.fst (read ks)) keys
  | [] => rfl
  | ks :: rest => by
    have ih := saveLoopL_erase tshape read rest
    unfold saveLoopL saveLoop
    cases h1 : read ks with
    | error e => rfl
    | ok d =>
      have hm : Except.map Prod.fst (Except.ok d : Res (NDA β × List γ)) = .ok d.1 := rfl
      simp only [bind, Except.bind, hm]
      cases h2 : npAssignments tshape ks d.1 with
      | error e => rfl
      | ok w =>
        simp only
        rw [← ih]
        cases saveLoopL tshape read rest <;> rfl

theorem saveL_erase {β γ : Type} (limit : Nat) (shape : List Nat) (read : List Key → Res (NDA β × List γ)) (target : NDA β) :
    Except.map Prod.fst (saveL limit shape read target) = save limit shape (fun ks => Except.map Prod.fst (read ks)) target := by
  unfold saveL save saveWrites
  rw [← saveLoopL_erase]
  cases saveLoopL target.shape read (saveKeys limit shape) <;> rfl

theorem saveLoopL_log {β γ : Type} {tshape : List Nat} {read : List Key → Res (NDA β × List γ)} {μ : List Key → Multiset γ} :
    ∀ {keys : List (List Key)} {r : List (List Nat × β) × List γ}, (∀ ks ∈ keys, ∀ d, read ks = .ok d → (d.2 : Multiset γ) = μ ks) →
    saveLoopL tshape read keys = .ok r → (r.2 : Multiset γ) = lsum keys μ
  | [], r, _, h => by cases h; rfl
  | ks :: rest, r, hk, h => by
    unfold saveLoopL at h
    obtain ⟨d, hd, h⟩ := bind_ok.mp h
    obtain ⟨w, _, h⟩ := bind_ok.mp h
    obtain ⟨r', hr', h⟩ := bind_ok.mp h
    cases h
    have ih := saveLoopL_log (fun ks hks => hk ks (List.mem_cons_of_mem _ hks)) hr'
    rw [lsum_cons, ← ih, ← hk ks List.mem_cons_self d hd]
    rfl

section
variable {α V : Type} [Inhabited α] [Inhabited V] {m : Mode α V} {limit : Nat}

/-- Each piece evaluated by `save`. -/
theorem save_piece {a : Arr α} {x : NDA V} (h1 : a.WF) (h2 : a.Ok m limit .whole) (h4 : a.Plain m true false .whole)
    (hd : a.den m ≈ₐ x) (ht : a.saveThrifty false) {ks : List Key} (hks : ks ∈ saveKeys limit x.shape) :
    ∃ b σ, a.getitem ks = .ok b ∧ resolve ks x.shape = .ok σ ∧ (∀ k ∈ ks, k ≠ Key.newaxis) ∧
      ∀ n d log, b.evalL m limit n = .ok (d, log) → (log : Multiset (Option α)) = ((a.den (usesMode α)).ortho σ).total := by
  have hks0 := hks
  unfold saveKeys at hks0
  rw [ndindex_pickCuts] at hks0
  obtain ⟨c1, c2, σ, hσ⟩ := cart_resolve limit false x.shape ks hks0
  have hx : Exact ks := c2
  obtain ⟨fk, hf, hk⟩ := saveKeys_simple limit x.shape ks hks
  have hfe := expand_resolve hx hσ
  rw [hfe] at hf
  cases hf
  rw [dropNew_exact hx] at hk
  obtain ⟨g1, g2⟩ := simpleKeys_guards m false h1 h4 (fk := ks) (by rw [hd.1, dropNew_exact hx]; exact hk)
  obtain ⟨b, k1, k2, k3, k4, _⟩ := index_returns m limit false h1 h2 hd hfe g1 g2
    (npIndex_ok_iff.mpr ⟨ks, σ, hfe, hσ, rfl⟩)
  have hfr := simple_frugal m true a false false .whole h1 h4 (fun _ => rfl) ht ks ks b (by rw [hd.1]; exact hfe)
    (by rw [hd.1]; exact hk) k1
  refine ⟨b, σ, k1, hσ, (fun k hk e => by subst e; cases (c2 _ hk).1), fun n d log hl => ?_⟩
  have hs : (a.den (usesMode α)).shape = x.shape := by
    have e1 := h1.shape_eq (usesMode α)
    rw [h1.shape_eq m] at e1
    injection e1 with e1
    rw [← e1, hd.1]
  obtain ⟨b', j1, _, j3, _⟩ := getitem_ok (usesMode α) a h1 ks ks _ (by rw [hs]; exact hfe) g1
    (npIndex_ok_iff.mpr ⟨ks, σ, by rw [hs]; exact hfe, by rw [hs]; exact hσ, rfl⟩)
  rw [k1] at j1
  cases j1
  rw [Multiset.coe_eq_coe.mpr (evalL_reads m limit n b k2 k3 (hfr.thrifty b false) (d, log) hl),
    ← den_total b false 0 k2 (hfr.thrifty b false), total_congr j3]

/-- C32, C19: `biggus.save([a], [target])` reads every needed source element exactly once, and nothing else, for every chunk
limit; and the target equals what evaluation gives (`x`).  `reads` lists the elements in the order of reading.
Missing: expressions that are not `saveThrifty`, where the claim is false of the code
(`C32_save_numpy_aggregation_reads_too_much`). -/
theorem C32_save_reads_once_partial (a : Arr α) (x target : NDA V) (hb : a.Built m limit true false .whole) (hx : a.Yields m limit x)
    (ht : a.saveThrifty false) (hs : target.shape = x.shape) :
    ∃ N, ∀ n, N ≤ n → ∃ t reads,
      saveL limit x.shape (fun ks => a.getitem ks >>= fun b => b.evalL m limit n) target = .ok (t, reads) ∧
      t ≈ₐ x ∧ reads.Perm a.needed := by
  obtain ⟨⟨N, hN⟩, _⟩ := C19_save a x target hb hx hs
  obtain ⟨h1, h2, _, h4⟩ := hb.fine
  have hd : a.den m ≈ₐ x := (hx.2.den_eqv h1 h2).symm
  refine ⟨N, fun n hn => ?_⟩
  obtain ⟨t, ws, e1, e2, _, _⟩ := hN n hn
  have hread : (fun ks => Except.map Prod.fst (a.getitem ks >>= fun b => b.evalL m limit n)) =
      (fun ks => a.getitem ks >>= fun b => b.eval m limit n) := by
    funext ks
    cases a.getitem ks with
    | error e => rfl
    | ok b => exact evalL_erase m limit n b
  have he := saveL_erase limit x.shape (fun ks => a.getitem ks >>= fun b => b.evalL m limit n) target
  rw [hread, e1] at he
  cases hl : saveL limit x.shape (fun ks => a.getitem ks >>= fun b => b.evalL m limit n) target with
  | error e => rw [hl] at he; cases he
  | ok r =>
    rw [hl] at he
    injection he with he
    refine ⟨t, r.2, by rw [← he], e2, ?_⟩
    unfold saveL at hl
    obtain ⟨r', hr', hl⟩ := bind_ok.mp hl
    cases hl
    show List.Perm r'.2 _
    have hpc := fun ks hks => save_piece (ks := ks) h1 h2 h4 hd ht hks
    choose! B σ p1 p2 p3 p4 using hpc
    have hsu : (a.den (usesMode α)).shape = x.shape := by
      have e1 := h1.shape_eq (usesMode α)
      rw [h1.shape_eq m] at e1
      injection e1 with e1
      rw [← e1, hd.1]
    rw [← Multiset.coe_eq_coe, saveLoopL_log (μ := fun ks => ((a.den (usesMode α)).ortho (σ ks)).total) ?_ hr',
      ← den_total a false 0 h1 ((ht.frugal a false).thrifty a false)]
    · have e : ∀ ks ∈ saveKeys limit x.shape, ((a.den (usesMode α)).ortho (σ ks)).total =
          lsum (cart (List.zipWith keyPos ks x.shape)) (a.den (usesMode α)).get := by
        intro ks hks
        unfold NDA.total NDA.ortho
        simp only
        rw [← ndindex_selSrc ks x.shape (σ ks) (p3 ks hks) (p2 ks hks), lsum_map]
      rw [lsum_congr e, ← lsum_flatMap]
      unfold saveKeys
      rw [ndindex_pickCuts]
      unfold NDA.total
      rw [hsu]
      exact lsum_perm (cart_tiles_perm _ _ (allSlices_tiles limit false x.shape)) _
    · intro ks hks d hd
      rw [p1 ks hks] at hd
      exact p4 ks hks n d.1 d.2 hd

/-- C32, C19 for orthogonal sources (netCDF variables and the like) without broadcasting: every such expression. -/
theorem C32_save_ortho_reads_once (a : Arr α) (x target : NDA V) (hb : a.Built m limit true false .whole) (hx : a.Yields m limit x)
    (ho : a.orthoOnly) (hs : target.shape = x.shape) :
    ∃ N, ∀ n, N ≤ n → ∃ t reads,
      saveL limit x.shape (fun ks => a.getitem ks >>= fun b => b.evalL m limit n) target = .ok (t, reads) ∧
      t ≈ₐ x ∧ reads.Perm a.needed := by
  have key : ∀ (a : Arr α) (st : Bool), a.orthoOnly → a.saveThrifty st := by
    intro a
    induction a with
    | adapter o c keys => exact fun st h => Or.inl h
    | const s v dt => exact fun _ _ => trivial
    | newAxes a na ih => exact fun st h => ih st h
    | bcast a d l ih => exact fun st h => h.elim
    | transposed a axes ih => exact fun st h => ih st h
    | stack ss items ih => exact fun st h i hi => ih i st (h i hi)
    | mosaic n tiles axis ih => exact fun st h i hi => ih i true (h i hi)
    | asType a dt ih => exact fun st h => ih st h
    | maskVal a v ih => exact fun st h => ih st h
    | agg a axis k ih => exact fun st h => ih true h
    | elem1 a op ih => exact fun st h => ih true h
    | elem2 a b op iha ihb => exact fun st h => ⟨iha true h.1, ihb true h.2⟩
  exact C32_save_reads_once_partial a x target hb hx (key a false ho) hs

end

/-- What is read when an aggregation of an orthogonal source is saved in pieces of at most 2 elements: every element once. -/
example : readLog (saveL 2 [2, 4] (fun ks => (Arr.agg (.adapter true exSource []) 1 .sum).getitem ks >>= fun b => b.evalL exMode 2 2)
    ⟨[2, 4], fun _ => 0⟩) =
    .ok ([0, 1, 4, 5, 8, 9, 2, 3, 6, 7, 10, 11, 12, 13, 16, 17, 20, 21, 14, 15, 18, 19, 22, 23].map some) := by
  decide +kernel

/-- C32 fails of the code for aggregations of NumPy sources: saving the sum over the last axis of a (4, 4) array in pieces of at
most 2 elements needs 16 elements; for each of the four chunks of each of the two pieces the whole source is read:
128 elements. -/
theorem C32_save_numpy_aggregation_reads_too_much :
    (Arr.agg (.adapter false exSixteen []) 1 .sum : Arr ℚ).needed.length = 16 ∧
    Except.map List.length (readLog (saveL 2 [4] (fun ks => (Arr.agg (.adapter false exSixteen []) 1 .sum).getitem ks >>=
      fun b => b.evalL exMode 2 2) ⟨[4], fun _ => 0⟩)) = .ok 128 := by
  refine ⟨by decide +kernel, by decide +kernel⟩

end Biggus

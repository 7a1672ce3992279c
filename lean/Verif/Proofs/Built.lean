import Verif.Spec.Built
import Verif.Proofs.Index
import Verif.Proofs.Constructors
import Verif.Props.Adapters
/-
Every expression of the grammar `Arr.Built` is well formed, can be evaluated, and can be indexed with simple keys.
-/
namespace Biggus

variable {α V : Type} [Inhabited α] [Inhabited V] {m : Mode α V} {limit : Nat} {fwd : Bool}

omit [Inhabited α] in
theorem takeSafe_nil : takeSafe ([] : List Key) := by unfold takeSafe fancySafe; simp

theorem Arr.Built.fineR {tile : Bool} {cut : Cut} {a : Arr α} (h : a.Built m limit fwd tile cut) :
    a.WF ∧ a.Ok m limit cut ∧ (cut ≠ .whole → a.streamOk m limit) ∧ ∀ rep : Bool, (rep = true → a.lawfulAggs m) → a.PlainR rep m fwd tile cut := by
  induction h with
  | source tile cut o c hsafe ho =>
    refine ⟨fresh_adapter_WF o c, ⟨Or.inr hsafe, fun _ l => by simp, fun _ => ⟨takeSafe_nil, fun _ => Or.inr (by simp)⟩⟩, fun _ => trivial,
      fun _ _ => ⟨hsafe, by simp, ?_⟩⟩
    cases tile
    · exact Or.inr (Or.inr ⟨rfl, rfl⟩)
    · exact Or.inl (ho rfl)
  | const => exact ⟨trivial, trivial, fun _ => trivial, fun _ _ => trivial⟩
  | @newAxes cut a na b hc _ h ih =>
    obtain ⟨h1, h2, h3, h4⟩ := ih
    have hw := mkNewAxes_WF h1 h
    obtain ⟨s, hs⟩ : ∃ s, a.shape = .ok s := ⟨_, h1.shape_eq m⟩
    obtain ⟨_, rfl⟩ := (mkNewAxes_iff hs).mp h
    exact ⟨hw, ⟨hc, h2⟩, fun _ => trivial, fun r hl => ⟨rfl, h4 r hl⟩⟩
  | @bcast cut a d lead b hc _ hnl hn h ih =>
    obtain ⟨h1, h2, h3, h4⟩ := ih
    obtain ⟨hw, _⟩ := mkBcast_WF h1 hnl hn h
    refine ⟨hw, ?_⟩
    unfold mkBcast at h
    split at h
    · rename_i a' d' l'
      unfold mkBcastFlat at h
      obtain ⟨s, hs, h⟩ := bind_ok.mp h
      obtain ⟨s', hs', h⟩ := bind_ok.mp h
      split at h
      · cases h
      · cases h
        exact ⟨⟨hc, h2.2⟩, fun _ => trivial, fun r hl => ⟨rfl, (h4 r hl).2⟩⟩
    · unfold mkBcastFlat at h
      obtain ⟨s, hs, h⟩ := bind_ok.mp h
      obtain ⟨s', hs', h⟩ := bind_ok.mp h
      split at h
      · cases h
      · cases h
        exact ⟨⟨hc, h2⟩, fun _ => trivial, fun r hl => ⟨rfl, h4 r hl⟩⟩
  | @transposed tile cut a axes s b _ hs hp h ih =>
    obtain ⟨h1, h2, h3, h4⟩ := ih
    have hw := mkTransposed_WF h1 hs hp h
    obtain ⟨_, rfl⟩ := (mkTransposed_iff hs).mp h
    exact ⟨hw, h2, fun _ => trivial, h4⟩
  | @stack tile cut ss items b h1 h2 _ h ih =>
    have hw := mkStack_WF (fun i hi => (ih i hi).1) h
    obtain ⟨_, _, rfl⟩ := mkStack_iff.mp h
    exact ⟨hw, ⟨fun h => h1 (Or.inr h), fun h => (h2 h).1, fun i hi => (ih i hi).2.1⟩, fun _ => trivial,
      fun r hl => ⟨fun h => h1 (Or.inl h), fun h => (h2 h).2, fun i hi => (ih i hi).2.2.2 r (fun h => hl h i hi)⟩⟩
  | @mosaic tile cut axis b tiles hf h1 _ h hpos ih =>
    have hw := mkMosaic_WF (fun t ht => (ih t ht).1) h
    obtain ⟨h0, _, rfl⟩ := mkMosaic_iff.mp h
    have hm : ∀ i, i < tiles.length → tiles.getD i default ∈ tiles := by
      intro i hi
      rw [List.getD_eq_getElem _ _ hi]; exact List.getElem_mem hi
    have hp : 0 < ((List.range tiles.length).map (fun i => (okOr (tiles.getD i default).shape []).getD axis 0)).sum := by
      obtain ⟨_, s, hax, hs⟩ := hw
      generalize hlens : (List.range tiles.length).map (fun i => (okOr (tiles.getD i default).shape []).getD axis 0) = lens
      obtain ⟨k, hk⟩ := (hs 0 (List.length_pos_iff.mpr h0)).2
      have hl : (List.range tiles.length).mapM (fun i => do let t ← (tiles.getD i default).shape; return t.getD axis 0) =
          Except.ok lens := by
        rw [mapM_ok _ _ (fun i => (okOr (tiles.getD i default).shape []).getD axis 0), hlens]
        intro i hi
        obtain ⟨k, hk⟩ := (hs i (List.mem_range.mp hi)).2
        rw [hk]; rfl
      have hsh : (Arr.mosaic tiles.length (fun i => tiles.getD i default) axis).shape =
          .ok ((s.set axis k).set axis lens.sum) := by
        show (do
          let s ← (tiles.getD 0 default).shape
          let lens ← (List.range tiles.length).mapM (fun i => do let t ← (tiles.getD i default).shape; return t.getD axis 0)
          return s.set axis lens.sum) = _
        rw [hk, hl]; rfl
      have := hpos _ hsh
      rw [List.getD_eq_getElem _ _ (by simp; exact hax)] at this
      simpa using this
    refine ⟨hw, ?_, fun _ => trivial, fun r hl => ⟨hf, hp, fun hc i hi => h1 hc _ (hm i hi),
      fun i hi => (ih _ (hm i hi)).2.2.2 r (fun h => hl h i hi)⟩⟩
    unfold Arr.Ok
    split
    · rename_i hc
      intro i hi
      have := (ih _ (hm i hi)).2.1
      simpa [hc] using this
    · rename_i hc
      refine ⟨hp, fun i hi => ?_⟩
      have := (ih _ (hm i hi)).2.1
      simpa [hc] using this
  | asType dt _ ih => exact ⟨ih.1, ih.2.1, fun _ => trivial, ih.2.2.2⟩
  | maskVal v _ ih => exact ⟨ih.1, ih.2.1, fun _ => trivial, ih.2.2.2⟩
  | @agg tile cut a s axis k _ hs hax he hl ih =>
    obtain ⟨h1, h2, h3, h4⟩ := ih
    have : (Arr.agg a axis k).streamOk m limit := ⟨by rw [hs]; exact he, hl, h3 (streamed_ne cut)⟩
    exact ⟨⟨h1, s, hs, hax⟩, ⟨this, h2⟩, fun _ => this, fun r hl => ⟨fun h => (hl h).1, h4 r (fun h => (hl h).2)⟩⟩
  | elem1 _ ho ih => exact ⟨ih.1, ⟨ho, ih.2.2.1 (streamed_ne _), ih.2.1⟩, fun _ => ⟨ho, ih.2.2.1 (streamed_ne _)⟩, ih.2.2.2⟩
  | elem2 _ _ ho hs hk iha ihb =>
    exact ⟨⟨iha.1, ihb.1, hs⟩, ⟨ho, iha.2.2.1 (streamed_ne _), ihb.2.2.1 (streamed_ne _), iha.2.1, ihb.2.1⟩,
      fun hc => ⟨ho, iha.2.2.1 (streamed_ne _), ihb.2.2.1 (streamed_ne _), hk.resolve_left hc⟩,
      fun r hl => ⟨fun h => (hl h).1, iha.2.2.2 r (fun h => (hl h).2.1), ihb.2.2.2 r (fun h => (hl h).2.2)⟩⟩

theorem Arr.Built.fine {tile : Bool} {cut : Cut} {a : Arr α} (h : a.Built m limit fwd tile cut) :
    a.WF ∧ a.Ok m limit cut ∧ (cut ≠ .whole → a.streamOk m limit) ∧ a.Plain m fwd tile cut := by
  obtain ⟨h1, h2, h3, h4⟩ := h.fineR
  exact ⟨h1, h2, h3, h4 false (fun h => by cases h)⟩

/-- The same for expressions the engine may cut. -/
theorem Arr.Built.fineS {tile : Bool} {a : Arr α} (h : a.Built m limit fwd tile .sliced) :
    a.WF ∧ a.Ok m limit .sliced ∧ a.streamOk m limit ∧ a.Plain m fwd tile .sliced :=
  ⟨h.fine.1, h.fine.2.1, h.fine.2.2.1 (by simp), h.fine.2.2.2⟩

/-- Simple keys are accepted by NumPy. -/
theorem simpleKeys_npIndex {x : NDA V} {ks : List Key} (h : SimpleKeys fwd ks x.shape) :
    ∃ fk σ, expandKeys ks x.shape.length = .ok fk ∧ List.Forall₂ (SimpleKey fwd false) (dropNew fk) x.shape ∧
      resolve fk x.shape = .ok σ ∧ npIndex x ks = .ok (x.ortho σ) := by
  obtain ⟨fk, hf, hs⟩ := h
  obtain ⟨τ, hτ⟩ := simpleKeys_resolve hs
  obtain ⟨σ, hσ⟩ := resolve_dropNew (by first | exact hτ | exact hτ.1) (expandKeys_spec hf).1
  exact ⟨fk, σ, hf, hs, hσ, npIndex_ok_iff.mpr ⟨fk, σ, hf, hσ, rfl⟩⟩

end Biggus

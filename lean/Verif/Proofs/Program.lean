import Verif.Spec.Program
import Verif.Proofs.Built
import Verif.Proofs.Compose
import Verif.Proofs.BroadcastArrays
import Verif.Props.Elementwise
/-
Every program evaluates to what NumPy computes.
-/
namespace Biggus
open Spec

variable {α V : Type} [Inhabited α] [Inhabited V] {m : Mode α V} {limit : Nat} {fwd : Bool} {isAgg : AggKind α → List V → V → Prop}

/-- What is known after every step of a program. -/
structure Fine (m : Mode α V) (limit : Nat) (fwd ix arr : Bool) (cut : Cut) (a : Arr α) (x : NDA V) : Prop where
  wf : a.WF
  ok : a.Ok m limit cut
  stream : cut ≠ .whole → a.streamOk m limit
  plain : ix = true → a.Plain m fwd arr cut
  yields : a.Yields m limit x

theorem Fine.whole {ix arr : Bool} {cut : Cut} {a : Arr α} {x : NDA V} (h : Fine m limit fwd ix arr cut a x) : a.Ok m limit .whole :=
  h.ok.mono m limit a cut .whole (Or.inr (Or.inr rfl))

theorem Fine.den {ix arr : Bool} {cut : Cut} {a : Arr α} {x : NDA V} (h : Fine m limit fwd ix arr cut a x) : a.den m ≈ₐ x :=
  (h.yields.2.den_eqv h.wf h.whole).symm

theorem Fine.engine {ix arr : Bool} {cut : Cut} {a : Arr α} {x : NDA V} (h : Fine m limit fwd ix arr cut a x) (hc : cut ≠ .whole) :
    a.EngineReturns m limit x :=
  (engineReturns_den h.wf (h.stream hc) (h.ok.mono m limit a cut .sliced (by
    cases cut
    · exact absurd rfl hc
    · exact Or.inl rfl
    · exact Or.inr (Or.inl rfl)))).congr h.den

theorem Fine.flat {ix arr : Bool} {cut : Cut} {a : Arr α} {x : NDA V} (h : Fine m limit fwd ix arr cut a x) (hn : a.noLead) :
    a.YieldsFlat m limit x := by
  by_cases hb : a.notBcast = true
  · exact Or.inl ⟨hb, h.yields⟩
  · obtain ⟨hw, hok, hy⟩ := (⟨h.wf, h.whole, h.yields⟩ : a.WF ∧ a.Ok m limit .whole ∧ a.Yields m limit x)
    cases a <;> first | exact absurd rfl hb | skip
    rename_i a' d l
    have hl : l = [] := hn
    subst hl
    obtain ⟨hw', _, _, hnd, _, s, hs, h1⟩ := hw
    have hy' : a'.Yields m limit (a'.den m) := .of_den hw' hok.2
    have hs' : s = (a'.den m).shape := by
      have := hy'.1
      rw [hs] at this
      exact Except.ok.inj this
    subst hs'
    exact Or.inr ⟨a', d, a'.den m, rfl, hy', hnd, h1, (yields_bcast hy' hnd h1).unique hy⟩

theorem program_fine (hsound : ∀ k col v, col ≠ [] → isAgg k col v → v = (m.handler k).run col.length [col])
    {ix arr : Bool} {cut : Cut} {a : Arr α} {x : NDA V} (h : a.Program m limit isAgg fwd ix arr cut x) : Fine m limit fwd ix arr cut a x := by
  induction h with
  | source ix arr cut o c hsafe ho =>
    have hw := fresh_adapter_WF o c
    have hok : ∀ cut, (Arr.adapter o c []).Ok m limit cut := fun cut =>
      ⟨Or.inr hsafe, fun _ l => by simp, fun _ => ⟨takeSafe_nil, fun _ => Or.inr (by simp)⟩⟩
    refine ⟨hw, hok cut, fun _ => trivial, fun hi => ⟨hsafe, by simp, ?_⟩, (Arr.Yields.of_den hw (hok .whole)).congr (fresh_adapter_den m o c)⟩
    cases arr
    · exact Or.inr (Or.inr ⟨rfl, rfl⟩)
    · exact Or.inl (ho hi rfl)
  | const => exact ⟨trivial, trivial, fun _ => trivial, fun _ => trivial, yields_const _ _ _⟩
  | @newAxes ix arr cut a x na b hc ht _ h ih =>
    have hw := mkNewAxes_WF ih.wf h
    obtain ⟨hl, rfl⟩ := (mkNewAxes_iff ih.yields.1).mp h
    exact ⟨hw, ⟨hc, ih.ok⟩, fun _ => trivial, fun hi => ⟨ht hi, ih.plain hi⟩, yields_newAxes ih.yields hl⟩
  | @bcast ix arr cut a x d lead b hc ht _ hnl hn h1 hlead h ih =>
    obtain ⟨hw, _⟩ := mkBcast_WF ih.wf hnl hn h
    obtain ⟨b', hb', hy, _⟩ := yields_mkBcast (ih.flat hnl) hn h1 hlead
    rw [h] at hb'
    cases hb'
    have hokpl : b.Ok m limit cut ∧ (cut ≠ .whole → b.streamOk m limit) ∧ (ix = true → b.Plain m fwd arr cut) := by
      have h2 := ih.ok
      have h4 := ih.plain
      unfold mkBcast at h
      split at h
      · unfold mkBcastFlat at h
        obtain ⟨s, hs, h⟩ := bind_ok.mp h
        obtain ⟨s', hs', h⟩ := bind_ok.mp h
        split at h
        · cases h
        · cases h
          exact ⟨⟨hc, h2.2⟩, fun _ => trivial, fun hi => ⟨ht hi, (h4 hi).2⟩⟩
      · unfold mkBcastFlat at h
        obtain ⟨s, hs, h⟩ := bind_ok.mp h
        obtain ⟨s', hs', h⟩ := bind_ok.mp h
        split at h
        · cases h
        · cases h
          exact ⟨⟨hc, h2⟩, fun _ => trivial, fun hi => ⟨ht hi, h4 hi⟩⟩
    exact ⟨hw, hokpl.1, hokpl.2.1, hokpl.2.2, hy⟩
  | @transposed ix arr cut a x axes b _ hp h ih =>
    have hw := mkTransposed_WF ih.wf ih.yields.1 hp h
    obtain ⟨_, rfl⟩ := (mkTransposed_iff ih.yields.1).mp h
    exact ⟨hw, ih.ok, fun _ => trivial, ih.plain, yields_transposed ih.yields hp⟩
  | @stack ix arr cut ss items b x h1 h2 h3 _ h ih =>
    have hw := mkStack_WF (fun i hi => (ih i hi).wf) h
    obtain ⟨h0, ⟨s, hs⟩, rfl⟩ := mkStack_iff.mp h
    refine ⟨hw, ⟨fun h => h1 (Or.inr h), h2, fun i hi => (ih i hi).ok⟩, fun _ => trivial,
      fun hix => ⟨fun h => h1 (Or.inl ⟨hix, h⟩), h3 hix, fun i hi => (ih i hi).plain hix⟩, yields_stack (s := s) h0 (fun i hi => ⟨(ih i hi).yields, ?_⟩)⟩
    have := (ih i hi).yields.1
    rw [hs i hi] at this
    exact (Except.ok.inj this).symm
  | @mosaic ix arr cut axis b tiles x hf h1 _ h hpos ih =>
    have hm : ∀ i, i < tiles.length → tiles.getD i default ∈ tiles := by
      intro i hi
      rw [List.getD_eq_getElem _ _ hi]; exact List.getElem_mem hi
    have hw := mkMosaic_WF (tiles := tiles) (fun t ht => by
      obtain ⟨i, hi, rfl⟩ := List.getElem_of_mem ht
      have := (ih i hi).wf
      rwa [List.getD_eq_getElem _ _ hi] at this) h
    obtain ⟨h0, ⟨s, hax, hs⟩, rfl⟩ := mkMosaic_iff.mp h
    have hlen : 0 < tiles.length := List.length_pos_iff.mpr h0
    have hsh : ∀ i, i < tiles.length → ∃ k, (x i).shape = s.set axis k := by
      intro i hi
      obtain ⟨k, hk⟩ := hs _ (hm i hi)
      have := (ih i hi).yields.1
      rw [hk] at this
      exact ⟨k, (Except.ok.inj this).symm⟩
    have hy : (Arr.mosaic tiles.length (fun i => tiles.getD i default) axis).Yields m limit (NDA.concat tiles.length x axis) :=
      yields_mosaic (s := s) hlen hax (fun i hi => ⟨(ih i hi).yields, hsh i hi⟩)
    have hp : ix = true ∨ cut ≠ .whole →
        0 < ((List.range tiles.length).map (fun i => (okOr (tiles.getD i default).shape []).getD axis 0)).sum := by
      intro hc
      have := hpos hc
      have e : (List.range tiles.length).map (fun i => (okOr (tiles.getD i default).shape []).getD axis 0) =
          (List.range tiles.length).map (fun i => (x i).shape.getD axis 0) := by
        refine List.map_congr_left (fun i hi => ?_)
        rw [(ih i (List.mem_range.mp hi)).yields.1]; rfl
      rw [e]
      obtain ⟨k, hk⟩ := hsh 0 hlen
      have hax' : axis < (x 0).shape.length := by rw [hk]; simpa using hax
      simpa [NDA.concat, hax'] using this
    refine ⟨hw, ?_, fun _ => trivial, fun hix => ⟨hf hix, hp (Or.inl hix), fun hc i hi => h1 hix hc _ (hm i hi),
      fun i hi => (ih i hi).plain hix⟩, hy⟩
    unfold Arr.Ok
    split
    · rename_i hc
      intro i hi
      have := (ih i hi).ok
      simpa [hc] using this
    · rename_i hc
      refine ⟨hp (Or.inr hc), fun i hi => ?_⟩
      have := (ih i hi).ok
      simpa [hc] using this
  | asType dt _ ih => exact ⟨ih.wf, ih.ok, fun _ => trivial, ih.plain, yields_asType dt ih.yields⟩
  | maskVal v _ ih => exact ⟨ih.wf, ih.ok, fun _ => trivial, ih.plain, yields_maskVal v ih.yields⟩
  | @agg ix arr cut a x axis k r _ hax hne hl hr ih =>
    have hso : (Arr.agg a axis k).streamOk m limit := ⟨Or.inl (by rw [ih.yields.1]; exact hne), hl, ih.stream (streamed_ne cut)⟩
    have hwf : (Arr.agg a axis k).WF := ⟨ih.wf, x.shape, ih.yields.1, hax⟩
    have hok : (Arr.agg a axis k).Ok m limit cut := ⟨hso, ih.ok⟩
    refine ⟨hwf, hok, fun _ => hso, fun hi => ⟨(fun h => by cases h), ih.plain hi⟩,
      (Arr.Yields.of_den hwf (hok.mono m limit _ cut .whole (Or.inr (Or.inr rfl)))).congr ?_⟩
    have hd := ih.den
    have hr' := aggregateOf_congr hax hd.symm hr
    refine ⟨hr'.1.symm, fun idx hi => ?_⟩
    have hlen := column_length (a.den m) axis idx
    have h2 := hr'.2 idx (by rw [hr'.1]; exact hi)
    have h3 := hsound k _ _ (by
      intro e
      rw [e, hd.1] at hlen
      exact hne hlen.symm) h2
    rw [hlen] at h3
    exact h3.symm
  | @elem1 ix arr cut a x op f _ ho ih =>
    have hso := ih.stream (streamed_ne _)
    have hs : (m.op1 op).isSome = true := by rw [ho]; rfl
    exact ⟨ih.wf, ⟨hs, hso, ih.ok⟩, fun _ => ⟨hs, hso⟩, ih.plain, ih.yields.1, returns_elem1 ho (ih.engine (streamed_ne _))⟩
  | @elem2 ix arr cut a x b y op f _ _ ho hxy hk iha ihb =>
    have hsa := iha.stream (streamed_ne _)
    have hsb := ihb.stream (streamed_ne _)
    have hs : (m.op2 op).isSome = true := by rw [ho]; rfl
    exact ⟨⟨iha.wf, ihb.wf, by rw [iha.yields.1, ihb.yields.1, hxy]⟩, ⟨hs, hsa, hsb, iha.ok, ihb.ok⟩,
      fun hc => ⟨hs, hsa, hsb, hk.resolve_left hc⟩, fun hi => ⟨(fun h => by cases h), iha.plain hi, ihb.plain hi⟩,
      iha.yields.1, returns_elem2 ho (iha.engine (streamed_ne _)) (ihb.engine (streamed_ne _)) hxy⟩
  | @index arr cut a x ks b r _ hks hca hb hr ih =>
    obtain ⟨fk, hf, hs, hex⟩ := hks
    have hd := ih.den
    obtain ⟨r', hr', hrr⟩ := npIndex_congr hd.symm hr
    rw [← hd.1] at hf hs
    obtain ⟨g1, g2⟩ := simple_ok m true fwd a arr cut ih.wf (ih.plain rfl) _ hs
    have g1 := keysOk_dropNew _ _ g1
    have g2 := clean_dropNew _ _ _ _ _ g2
    obtain ⟨b', h1, h2, h3, _⟩ := getitem_ok m a ih.wf ks fk r' hf g1 hr'
    rw [hb] at h1
    cases h1
    obtain ⟨fk', σ, q1, q2, _⟩ := npIndex_ok_iff.mp hr'
    rw [hf] at q1
    cases q1
    have hE : arr = true → Exact fk := fun h => by
      have e := hex h
      rw [← e]
      exact simpleKeys_exact hs
    have hkept := getitem_kept m limit true a cut ih.wf ih.ok ks fk σ b hf q2 g1 g2 (fun h => hE (hca h)) hb
    exact ⟨h2, hkept.ok, fun hc => hkept.stream hc (ih.stream hc), fun _ => hkept.plain rfl fwd arr hE (ih.plain rfl),
      (Arr.Yields.of_den h2 (hkept.ok.mono m limit _ cut .whole (Or.inr (Or.inr rfl)))).congr (h3.trans hrr.symm)⟩
  | same _ he ih => exact ⟨ih.wf, ih.ok, ih.stream, ih.plain, ih.yields.congr he⟩
  | keep _ ih => exact ⟨ih.wf, ih.ok, ih.stream, (fun h => by cases h), ih.yields⟩

/-- An operand of a binary operation, after broadcasting to the common shape. -/
theorem program_bcastSide (hsound : ∀ k col v, col ≠ [] → isAgg k col v → v = (m.handler k).run col.length [col]) {ix : Bool} {cut : Cut} {a : Arr α}
    {x : NDA V} {r : List Nat} (h : a.Program m limit isAgg fwd ix false cut x) (hc : cut ≠ .arrays) (hnl : a.noLead) (hr : BroadcastsTo x.shape r)
    (hl : ∀ l ∈ r.take (r.length - x.shape.length), 1 ≤ l) :
    ∃ a', bcastSide a (bcastKwargs r x.shape) = .ok a' ∧ a'.Program m limit isAgg fwd ix false cut (broadcastTo x r) ∧ (x.shape = r → a' = a) ∧
      (x.shape ≠ r → a'.isProd = true) := by
  have hk := bcastKwargs_ok hr
  have hst := hk.stretch hr
  have hself : x.shape = r → bcastKwargs r x.shape = ([], []) := by
    rintro rfl; exact bcastKwargs_self _
  unfold bcastSide
  split
  · rename_i he
    simp only [Bool.and_eq_true, List.isEmpty_iff] at he
    have e : x ≈ₐ broadcastTo x r := by
      rw [he.1, he.2] at hst
      refine NDA.Eqv.trans ?_ hst
      exact ⟨by simp [NDA.stretch, bcShape_nil], fun idx _ => by simp [NDA.stretch, bcIdx_nil]⟩
    exact ⟨a, rfl, .same h e, fun _ => rfl, fun hn => absurd e.1 hn⟩
  · rename_i he
    obtain ⟨b, h1, _⟩ := yields_mkBcast (lead := (bcastKwargs r x.shape).2) ((program_fine hsound h).flat hnl) hk.nodup hk.ones (by rw [hk.lead]; exact hl)
    refine ⟨b, h1, .same (.bcast hc (fun _ => rfl) h hnl hk.nodup hk.ones (by rw [hk.lead]; exact hl) h1) hst, fun hs => ?_, fun _ => mkBcast_isProd h1⟩
    rw [hself hs] at he
    exact absurd rfl he

end Biggus

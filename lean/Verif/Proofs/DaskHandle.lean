import Verif.Proofs.DaskNodes
/-
The tasks of an aggregation or element-wise operation.
-/
namespace Biggus

variable {α V : Type}

theorem forall₂_flatten {β γ : Type} {R : β → γ → Prop} {L : List (List β)} {L' : List (List γ)} (h : List.Forall₂ (List.Forall₂ R) L L') :
    List.Forall₂ R L.flatten L'.flatten := by
  induction h with
  | nil => exact .nil
  | cons hr _ ih => exact List.rel_append hr ih

theorem args_ok {v : Nat → DVal V} {deps : List Nat} {cs : List (Chunk V)} (h : List.Forall₂ (fun d c => v d = .chunk c) deps cs) :
    (deps.map v).mapM DVal.toChunk = .ok cs := by
  rw [mapM_ok_iff, List.forall₂_map_left_iff]
  refine h.imp ?_
  intro d c hd
  rw [hd]
  rfl

/-- One task after the other. -/
theorem foldl_groups [Inhabited α] {arr : Arr α} {S : List Nat} {srcs : List (List (KeyTuple × Nat))}
    {P : List SliceTuple × List (List KeyTuple) → DTask α → Prop} : ∀ (L : List (List SliceTuple × List (List KeyTuple))) (st : List Nat × List (DTask α)),
    (∀ g ∈ L, ∃ t, P g t ∧ ∀ st, addGroup arr S srcs st g = .ok (st.1 ++ [st.2.length], st.2 ++ [t])) →
    ∃ ts, List.Forall₂ P L ts ∧ L.foldlM (addGroup arr S srcs) st = .ok (st.1 ++ List.range' st.2.length L.length, st.2 ++ ts)
  | [], st, _ => ⟨[], .nil, by simp; rfl⟩
  | g :: L, st, h => by
    obtain ⟨t, h1, h2⟩ := h g (by simp)
    obtain ⟨ts, h3, h4⟩ := foldl_groups L (st.1 ++ [st.2.length], st.2 ++ [t]) (fun g hg => h g (by simp [hg]))
    refine ⟨t :: ts, .cons h1 h3, ?_⟩
    rw [List.foldlM_cons, h2 st]
    show L.foldlM _ _ = _
    rw [h4, List.length_cons, List.range'_succ, List.append_assoc, List.append_assoc]
    simp

/-- The part `κ` of the array. -/
def partOf (ax : Option Nat) (S : List Nat) (κ : KeyTuple) (cs : List (Chunk V)) : List (Chunk V) :=
  cs.filter (fun c => decide (normalizeKeys (dropAx ax (c.1.map keySlice)) S = κ))

/-- A source of the array. -/
def SourceOk (ax : Option Nat) (S : List Nat) (N : List (List PySlice)) (tasks : List (DTask α)) (v : Nat → DVal V) (ids : List Nat) (cs : List (Chunk V)) : Prop :=
  ∃ (A : NDA V) (cuts : List (List Key)) (order : List Nat) (D : List (List PySlice)), NodeOk A cuts tasks v ids order cs D ∧ CutsOk cuts A.shape ∧
    (∀ a, ax = some a → a < A.shape.length) ∧ S = dropAx ax A.shape ∧ N = normL S (dropAx ax (cuts.map (fun c => c.map keySlice)))

/-- What a source is for the groups. -/
structure SrcFor [Inhabited α] (ax : Option Nat) (S : List Nat) (N : List (List PySlice)) (tasks : List (DTask α)) (v : Nat → DVal V) (srcs : List (KeyTuple × Nat))
    (cs : List (Chunk V)) : Prop where
  keys : ProdKeys S N (srcs.map Prod.fst)
  len : srcs.length = cs.length
  deps : ∀ (arr : Arr α) κ, κ ∈ cart N → ∃ deps, groupDeps arr S κ ((srcs.map Prod.fst).filter (fun k => decide (normalizeKeys k S = κ)), srcs) = .ok deps ∧
        List.Forall₂ (fun d c => d < tasks.length ∧ v d = .chunk c) deps (partOf ax S κ cs)

theorem sources_ok [Inhabited α] {ax : Option Nat} {S : List Nat} {N : List (List PySlice)} {tasks : List (DTask α)} {v : Nat → DVal V} {sources : List (List Nat)}
    {chs : List (List (Chunk V))} (h : List.Forall₂ (SourceOk ax S N tasks v) sources chs) :
    ∃ srcss, sources.mapM (fun ids => ids.mapM (sourceKey tasks ax)) = .ok srcss ∧ List.Forall₂ (SrcFor ax S N tasks v) srcss chs := by
  induction h with
  | nil => exact ⟨[], rfl, .nil⟩
  | @cons ids cs sources chs hr _ ih =>
    obtain ⟨srcss, i1, i2⟩ := ih
    obtain ⟨A, cuts, order, D, h1, h2, h3, h4, h5⟩ := hr
    obtain ⟨srcs, k1, k2, k3, k4⟩ := source_ok h1 h2 ax h3 h4 h5
    refine ⟨srcs :: srcss, ?_, .cons ⟨k2, k3, k4⟩ i2⟩
    rw [List.mapM_cons, k1]
    simp only [i1, bind, Except.bind, pure, Except.pure]

theorem streamNodes_ok [Inhabited α] [Inhabited V] {m : Mode α V} {evalP : Arr α → Res (NDA V)} {arr : Arr α} {B : NDA V} (hsh : arr.shape = .ok B.shape)
    {ax : Option Nat} {cuts : List (List Key)} (hcuts : CutsOk cuts B.shape) (hspec : List.Forall₂ DimCut B.shape (cuts.map (fun c => c.map keySlice)))
    {N : List (List PySlice)} (hN : N = normL B.shape (cuts.map (fun c => c.map keySlice))) {tasks : List (DTask α)} {v : Nat → DVal V} (hv : DVals m evalP tasks v)
    {sources : List (List Nat)} {chs : List (List (Chunk V))} (hsrc : List.Forall₂ (SourceOk ax B.shape N tasks v) sources chs) (hne : sources ≠ [])
    (hfew : ∀ c ∈ cuts, c.length ≤ 9999)
    (hgroup : ∀ κ ∈ cart N, ∃ sub c, arr.getitem (κ.map Key.slice) = .ok sub ∧ produceChunks m sub (chs.map (partOf ax B.shape κ)).flatten = .ok c ∧
      ∃ o ∈ cart (cuts.map (fun c => c.map keySlice)), normalizeKeys o B.shape = κ ∧ c.1 = o.map Key.slice ∧ ∃ σ, resolve c.1 B.shape = .ok σ ∧ c.2 ≈ₐ B.ortho σ) :
    ∃ ids ts v' cs, streamNodes arr ax sources tasks = .ok (ids, tasks ++ ts) ∧ (∀ i, i < tasks.length → v' i = v i) ∧ DVals m evalP (tasks ++ ts) v' ∧
      NodeOk B cuts (tasks ++ ts) v' ids (List.range B.shape.length) cs N := by
  set S := B.shape with hS
  set C := cuts.map (fun c => c.map keySlice) with hC
  have hNspec : List.Forall₂ DimSpec S N := by rw [hN]; exact normL_spec hspec
  obtain ⟨hNdim, hNN, hNslice⟩ := specs_normal hNspec
  obtain ⟨srcss, hs1, hs2⟩ := sources_ok hsrc
  have hsl : srcss.length = sources.length := by rw [hs2.length_eq, hsrc.length_eq]
  set inputs := srcss.map (fun s => s.map Prod.fst) with hinputs
  have hcase : ProdCase S inputs N := by
    refine ⟨hNspec, ?_, ?_, ?_⟩
    · intro he
      have : srcss = [] := by simpa [hinputs] using he
      rw [this] at hsl
      exact hne (List.length_eq_zero_iff.mp hsl.symm)
    · intro l hl
      obtain ⟨s, hsm, rfl⟩ := List.mem_map.mp hl
      obtain ⟨_, _, hh⟩ := forall₂_mem_left hs2 hsm
      exact hh.keys
    · rw [hN]
      refine normL_few hspec ?_
      intro c hc
      obtain ⟨c', hc', rfl⟩ := List.mem_map.mp hc
      simpa using hfew c' hc'
  obtain ⟨g, hg1, hg2⟩ := groupKeys_prod hcase
  have hrange : List.range inputs.length = List.range srcss.length := by simp [hinputs]
  rw [hrange] at hg1
  -- one task
  have htask : ∀ κ ∈ cart N, ∃ t : DTask α, (t.keys = κ.map Key.slice ∧ (∀ d ∈ t.deps, d < tasks.length) ∧ ∃ c, t.run m evalP (t.deps.map v) = .ok (.chunk c) ∧
      ∃ o ∈ cart C, normalizeKeys o S = κ ∧ c.1 = o.map Key.slice ∧ ∃ σ, resolve c.1 S = .ok σ ∧ c.2 ≈ₐ B.ortho σ) ∧
      ∀ st, addGroup arr S srcss st (κ.map tup, inputs.map (fun l => l.filter (fun k => decide (normalizeKeys k S = κ)))) =
        .ok (st.1 ++ [st.2.length], st.2 ++ [t]) := by
    intro κ hκ
    obtain ⟨sub, c, hg, hp, hc⟩ := hgroup κ hκ
    obtain ⟨depss, hd1, hd2⟩ : ∃ depss, ((inputs.map (fun l => l.filter (fun k => decide (normalizeKeys k S = κ)))).zip srcss).mapM (groupDeps arr S κ) = .ok depss ∧
        List.Forall₂ (List.Forall₂ (fun d c => d < tasks.length ∧ v d = .chunk c)) depss (chs.map (partOf ax S κ)) := by
      rw [hinputs]
      clear hs1 hsl hinputs hcase hg1 hg2 hrange hp hgroup
      clear hfew hsrc
      clear inputs
      induction hs2 with
      | nil => exact ⟨[], rfl, .nil⟩
      | @cons s cs srcss chs hr _ ih =>
        obtain ⟨depss, i1, i2⟩ := ih
        obtain ⟨deps, k1, k2⟩ := hr.deps arr κ hκ
        refine ⟨deps :: depss, ?_, .cons k2 i2⟩
        rw [List.map_cons, List.map_cons, List.zip_cons_cons, List.mapM_cons, k1]
        simp only [i1, bind, Except.bind, pure, Except.pure]
    have hdf := forall₂_flatten hd2
    refine ⟨.handle (κ.map Key.slice) sub depss.flatten, ⟨rfl, ?_, c, ?_, hc⟩, ?_⟩
    · intro d hd
      obtain ⟨c', _, h⟩ := forall₂_mem_left hdf hd
      exact h.1
    · show (DTask.handle (κ.map Key.slice) sub depss.flatten).run m evalP (depss.flatten.map v) = _
      unfold DTask.run
      simp only
      rw [args_ok (hdf.imp (fun d c h => h.2))]
      show (produceChunks m sub _ >>= _) = _
      rw [hp]
      rfl
    · intro st
      have htk : (κ.map tup).map (fun t => (⟨t.1, t.2.1, t.2.2⟩ : PySlice)) = κ := by
        rw [List.map_map]
        conv_rhs => rw [← List.map_id κ]
        rfl
      unfold addGroup
      simp only [htk]
      rw [hd1]
      show (arr.getitem (κ.map Key.slice) >>= _) = _
      rw [hg]
      rfl
  obtain ⟨ts, ht1, ht2⟩ := foldl_groups (arr := arr) (S := S) (srcs := srcss) (P := fun g t => ∃ κ : KeyTuple, g.1 = κ.map tup ∧ t.keys = κ.map Key.slice ∧ (∀ d ∈ t.deps, d < tasks.length) ∧
      ∃ c, t.run m evalP (t.deps.map v) = .ok (.chunk c) ∧ ∃ o ∈ cart C, normalizeKeys o S = κ ∧ c.1 = o.map Key.slice ∧ ∃ σ, resolve c.1 S = .ok σ ∧ c.2 ≈ₐ B.ortho σ)
    g.1 ([], tasks) (by
      intro x hx
      rw [hg2] at hx
      obtain ⟨κ, hκ, rfl⟩ := List.mem_map.mp hx
      obtain ⟨t, h1, h2⟩ := htask κ hκ
      exact ⟨t, ⟨κ, rfl, h1⟩, h2⟩)
  rw [hg2, List.forall₂_map_left_iff] at ht1
  -- the chunks
  obtain ⟨cs, hc1, hc2⟩ : ∃ cs : List (Chunk V), List.Forall₂ (fun t w => (∀ d ∈ DTask.deps t, d < tasks.length) ∧ t.run m evalP (t.deps.map v) = .ok w) ts (cs.map DVal.chunk) ∧
      List.Forall₂ (fun (κt : KeyTuple × DTask α) (c : Chunk V) => κt.2.keys = κt.1.map Key.slice ∧
        ∃ o ∈ cart C, normalizeKeys o S = κt.1 ∧ c.1 = o.map Key.slice ∧ ∃ σ, resolve c.1 S = .ok σ ∧ c.2 ≈ₐ B.ortho σ) ((cart N).zip ts) cs := by
    clear hg2 hcase ht2
    generalize cart N = L at ht1
    induction ht1 with
    | nil => exact ⟨[], .nil, .nil⟩
    | @cons κ t L ts hr _ ih =>
      obtain ⟨cs, i1, i2⟩ := ih
      obtain ⟨κ', h1, h2, h3, c, h4, h5⟩ := hr
      have hκ : κ = κ' := by
        have : Function.Injective tup := fun a b h => tup_inj h
        exact this.list_map h1
      subst hκ
      exact ⟨c :: cs, .cons ⟨h3, h4⟩ i1, .cons ⟨h2, h5⟩ i2⟩
  obtain ⟨v', hv1, hv2, hv3⟩ := hv.extend hc1
  have hlen : ts.length = (cart N).length := ht1.length_eq.symm
  have hcl : cs.length = ts.length := by rw [← List.length_map (f := DVal.chunk), ← hc1.length_eq]
  refine ⟨List.range' tasks.length (cart N).length, ts, v', cs, ?_, hv1, hv2, ?_⟩
  · unfold streamNodes
    rw [hsh]
    simp only [bind, Except.bind, hs1]
    have hg1' : groupKeys S (List.map (fun s => List.map Prod.fst s) srcss) (List.range srcss.length) = .ok g := hg1
    simp only [hg1']
    rw [ht2, hg2, List.length_map]
    rfl
  · have hcart : cart N = (cart C).map (fun k => normalizeKeys k S) := by rw [hN, cart_normL _ _ hspec.length_eq]
    have hget : ∀ j (hj : j < (cart C).length) (hj' : j < cs.length), ∃ t, ts[j]? = some t ∧ t.keys = (normalizeKeys (cart C)[j] S).map Key.slice ∧
        cs[j].1 = (cart C)[j].map Key.slice ∧ ∃ σ, resolve cs[j].1 S = .ok σ ∧ cs[j].2 ≈ₐ B.ortho σ := by
      intro j hj hj'
      have hjt : j < ts.length := by omega
      have hjn : j < (cart N).length := by omega
      have hz : j < ((cart N).zip ts).length := by rw [hc2.length_eq]; exact hj'
      obtain ⟨h1, o, ho, h2, h3, h4⟩ := hc2.get hz hj'
      simp only [List.get_eq_getElem, List.getElem_zip] at h1 h2 h3 h4
      have hκ : (cart N)[j] = normalizeKeys (cart C)[j] S := by simp only [hcart, List.getElem_map]
      rw [hκ] at h1 h2
      have := norm_inj hspec ho (List.getElem_mem hj) h2
      subst this
      exact ⟨ts[j], List.getElem?_eq_getElem hjt, h1, h3, h4⟩
    have hlen2 : cs.length = (cart C).length := by rw [hcl, hlen, hcart, List.length_map]
    refine ⟨List.Perm.refl _, ⟨?_, ?_⟩, hNdim, by rw [hNN, hN], List.nodup_range', ?_⟩
    · rw [← hcuts.length, chunkKeysOf_range, ← slices_of_cuts hcuts, cart_mapmap]
      apply List.ext_getElem
      · simp [hlen2, hC]
      · intro j h1 h2
        rw [List.getElem_map, List.getElem_map]
        obtain ⟨_, _, _, h, _⟩ := hget j (by simpa [hC] using h2) (by simpa using h1)
        exact h
    · intro c hcm
      obtain ⟨j, hj, rfl⟩ := List.getElem_of_mem hcm
      obtain ⟨_, _, _, _, h⟩ := hget j (by omega) hj
      exact h
    · rw [List.forall₂_iff_get]
      refine ⟨by rw [List.length_range', hcl, hlen], ?_⟩
      intro j h1 h2
      simp only [List.get_eq_getElem, List.getElem_range', Nat.one_mul]
      obtain ⟨t, k1, k2, k3, _⟩ := hget j (by omega) h2
      refine ⟨hv3 j _ (by simp [h2]), t, normalizeKeys (cart C)[j] S, ?_, k2, ?_, ?_⟩
      · rw [List.getElem?_append_right (by omega), Nat.add_sub_cancel_left]; exact k1
      · rw [hcart]; exact List.mem_map_of_mem (List.getElem_mem _)
      · rw [k3, keySlice_slice]
        apply normalizeKeys_normal hNspec
        rw [hcart]; exact List.mem_map_of_mem (List.getElem_mem _)

end Biggus

import Verif.Proofs.EvalNodes
import Verif.Spec.EvalGuards
/-
Streams of chunks: what the nodes of the engine emit, as data.
-/
namespace Biggus

variable {α V : Type}

/-- A forward slice without step selecting something of a non-empty axis. -/
def SliceOk (k : Key) (n : Nat) : Prop :=
  (∃ s : PySlice, k = .slice s ∧ s.step = none) ∧ ∃ l, resolve1 k n = .ok (.pick l) ∧ (n ≠ 0 → l ≠ []) ∧
    l.Pairwise (· < ·)

/-- Cuts of one dimension of length `n`. -/
structure CutOk (c : List Key) (n : Nat) : Prop where
  nodup : c.Nodup
  ne : c ≠ []
  zero : n = 0 → c.length = 1
  tile : c.flatMap (fun k => keyPos k n) = List.range n
  slices : ∀ k ∈ c, SliceOk k n

def CutsOk (cuts : List (List Key)) (shape : List Nat) : Prop := List.Forall₂ CutOk cuts shape

theorem SliceOk.exact {k : Key} {n : Nat} (h : SliceOk k n) : k.isNewaxis = false ∧ k.isEllipsis = false := by
  obtain ⟨⟨s, rfl, _⟩, _⟩ := h
  exact ⟨rfl, rfl⟩

theorem CutsOk.tiles {cuts : List (List Key)} {shape : List Nat} (h : CutsOk cuts shape) : TilesDims cuts shape := by
  unfold TilesDims
  exact h.imp (fun _ _ h => h.tile)

theorem CutsOk.length {cuts : List (List Key)} {shape : List Nat} (h : CutsOk cuts shape) : cuts.length = shape.length :=
  List.Forall₂.length_eq h

theorem forall₂_mem_left {β γ : Type} {R : β → γ → Prop} {l : List β} {m : List γ} (h : List.Forall₂ R l m) {x : β}
    (hx : x ∈ l) : ∃ y ∈ m, R x y := by
  induction h with
  | nil => simp at hx
  | cons hr _ ih =>
    rcases List.mem_cons.mp hx with rfl | hx
    · exact ⟨_, by simp, hr⟩
    · obtain ⟨y, hy, hr⟩ := ih hx
      exact ⟨y, by simp [hy], hr⟩

theorem CutsOk.nodup {cuts : List (List Key)} {shape : List Nat} (h : CutsOk cuts shape) : ∀ c ∈ cuts, c.Nodup := by
  intro c hc
  obtain ⟨n, _, hn⟩ := forall₂_mem_left h hc
  exact hn.nodup

theorem CutsOk.eraseIdx {cuts : List (List Key)} {shape : List Nat} (h : CutsOk cuts shape) (axis : Nat) :
    CutsOk (cuts.eraseIdx axis) (shape.eraseIdx axis) := by
  unfold CutsOk at *
  induction h generalizing axis with
  | nil => simp
  | cons hr ht ih =>
    cases axis with
    | zero => simpa using ht
    | succ a => simpa using ⟨hr, ih a⟩

/-- The chunk keys of good cuts. -/
theorem chunkKeys_ok {cuts : List (List Key)} {shape order : List Nat} (h : CutsOk cuts shape)
    (hp : order.Perm (List.range shape.length)) {ks : List Key} (hk : ks ∈ chunkKeysOf cuts order) :
    List.Forall₂ SliceOk ks shape := by
  have h1 := (chunkKeysOf_perm_cart (n := shape.length) hp cuts h.length h.nodup).1
  have h2 := (mem_cart Key.full cuts ks).mp (h1.mem_iff.mp hk)
  rw [List.forall₂_iff_get]
  refine ⟨by rw [h2.1, h.length], ?_⟩
  intro i hi hi'
  have h3 := h2.2 i (by rw [h.length]; exact hi')
  have h4 := forall₂_getD h i (by rw [h.length]; exact hi') [] 0
  have := h4.slices _ h3
  rw [List.getD_eq_getElem?_getD, List.getElem?_eq_getElem hi, List.getD_eq_getElem?_getD, List.getElem?_eq_getElem hi'] at this
  simpa using this

theorem sliceOk_exact {ks : List Key} {shape : List Nat} (h : List.Forall₂ SliceOk ks shape) : Exact ks := by
  intro k hk
  obtain ⟨n, _, hn⟩ := forall₂_mem_left h hk
  exact hn.exact

theorem sliceOk_resolve {ks : List Key} {shape : List Nat} (h : List.Forall₂ SliceOk ks shape) :
    ∃ σ, resolve ks shape = .ok σ ∧ ∀ s ∈ σ, s.isPick = true := by
  induction h with
  | nil => exact ⟨[], rfl, by simp⟩
  | @cons k n ks ns hr _ ih =>
    obtain ⟨σ, h1, h2⟩ := ih
    obtain ⟨l, hl, _⟩ := hr.2
    refine ⟨.pick l :: σ, ?_, ?_⟩
    · rw [resolve_cons_iff hr.exact.1]
      exact ⟨n, ns, _, σ, rfl, rfl, hl, h1⟩
    · intro s hs
      rcases List.mem_cons.mp hs with rfl | hs
      · rfl
      · exact h2 s hs

theorem chunkKeys_cover {cuts : List (List Key)} {shape order idx : List Nat} (h : CutsOk cuts shape)
    (hp : order.Perm (List.range shape.length)) (hi : InB shape idx) :
    ∃ ks ∈ chunkKeysOf cuts order, inRegion ks shape idx = true := by
  have h1 := (chunkKeysOf_perm_cart (n := shape.length) hp cuts h.length h.nodup).1
  have h2 := cart_covers_once cuts shape h.tiles idx hi
  rw [← h1.countP_eq] at h2
  have : 0 < (chunkKeysOf cuts order).countP (fun ks => inRegion ks shape idx) := by omega
  rw [List.countP_pos_iff] at this
  obtain ⟨ks, hk, hr⟩ := this
  exact ⟨ks, hk, hr⟩

/-- A stream of chunks carrying the array `A`, cut by `cuts`, in the order `order`. -/
structure StreamOk (A : NDA V) (cuts : List (List Key)) (order : List Nat) (cs : List (Chunk V)) : Prop where
  keys : cs.map Prod.fst = chunkKeysOf cuts order
  data : ∀ c ∈ cs, ∃ σ, resolve c.1 A.shape = .ok σ ∧ c.2 ≈ₐ A.ortho σ

theorem StreamOk.assemble [Inhabited V] {A : NDA V} {cuts : List (List Key)} {order : List Nat} {cs : List (Chunk V)}
    (h : StreamOk A cuts order cs) (hc : CutsOk cuts A.shape) (hp : order.Perm (List.range A.shape.length)) :
    ∃ r, assemble A.shape cs = .ok r ∧ r ≈ₐ A := by
  apply assemble_ok
  · intro c hcs
    obtain ⟨σ, h1, h2⟩ := h.data c hcs
    refine ⟨σ, sliceOk_exact (chunkKeys_ok hc hp ?_), h1, h2⟩
    rw [← h.keys]
    exact List.mem_map_of_mem hcs
  · intro idx hidx
    obtain ⟨ks, hk, hr⟩ := chunkKeys_cover hc hp hidx
    rw [← h.keys] at hk
    obtain ⟨c, hcs, rfl⟩ := List.mem_map.mp hk
    exact ⟨c, hcs, hr⟩

/-! ### aggregation -/

theorem aggProcessData_ok (h : Handler V) {axis : Nat} {st : NDA h.σ} {d : NDA V}
    (hs : d.shape.eraseIdx axis = st.shape) (hne : d.shape.getD axis 0 ≠ 0 ∨ h.emptyErr = none) :
    aggProcessData h axis st d = .ok ⟨st.shape, fun idx => h.step (st.get idx) (d.column axis idx)⟩ := by
  unfold aggProcessData
  simp only [hs, ne_eq, not_true_eq_false, if_false]
  by_cases h0 : d.shape.getD axis 0 = 0
  · simp only [h0, if_true]
    rcases hne with hne | hne
    · exact absurd h0 hne
    · rw [hne]
      have : ∀ idx, d.column axis idx = [] := by
        intro idx; unfold NDA.column; rw [h0]; rfl
      simp only [this]
  · simp only [h0, if_false]

theorem eraseIdx_insertIdx' {β : Type} (l : List β) (i : Nat) (x : β) (h : i ≤ l.length) :
    (l.insertIdx i x).eraseIdx i = l := by
  rw [List.eraseIdx_insertIdx_self]

/-- The remaining chunks of one output region. -/
theorem aggLoop_same (h : Handler V) (axis n : Nat) (o : List Key) (ho : axis ≤ o.length) (rest : List (Chunk V)) :
    ∀ (cs1 : List (Chunk V)) (cuts1 : List Key) (st : NDA h.σ), cs1.map Prod.fst = cuts1.map (fun c => o.insertIdx axis c) →
    (∀ c ∈ cs1, c.2.shape.eraseIdx axis = st.shape ∧ (c.2.shape.getD axis 0 ≠ 0 ∨ h.emptyErr = none)) →
    aggLoop h axis n (some (o, st)) (cs1 ++ rest) =
      aggLoop h axis n (some (o, ⟨st.shape, fun idx =>
        (cs1.map (fun c => c.2.column axis idx)).foldl h.step (st.get idx)⟩)) rest := by
  intro cs1
  induction cs1 with
  | nil => intro cuts1 st _ _; rfl
  | cons c cs1 ih =>
    intro cuts1 st hk hd
    match cuts1, hk with
    | k :: cuts1, hk =>
      simp only [List.map_cons, List.cons.injEq] at hk
      obtain ⟨hc1, hc2⟩ := hd c (by simp)
      have hproc : aggProcessChunk h axis n (some (o, st)) c =
          .ok (some (o, ⟨st.shape, fun idx => h.step (st.get idx) (c.2.column axis idx)⟩), []) := by
        unfold aggProcessChunk
        simp only [hk.1, eraseIdx_insertIdx' o axis k ho, ne_eq, not_true_eq_false, if_false,
          aggProcessData_ok h hc1 hc2, bind, Except.bind, pure, Except.pure]
      simp only [List.cons_append, aggLoop, hproc, bind, Except.bind, pure, Except.pure, List.nil_append]
      have := ih cuts1 ⟨st.shape, fun idx => h.step (st.get idx) (c.2.column axis idx)⟩ hk.2
        (fun c hc => hd c (by simp [hc]))
      rw [this]
      simp only [List.map_cons, List.foldl_cons]
      cases aggLoop h axis n (some (o, ⟨st.shape, fun idx => List.foldl h.step (h.step (st.get idx) (c.2.column axis idx))
        (List.map (fun c => c.2.column axis idx) cs1)⟩)) rest <;> rfl

/-- What is emitted when a new region starts. -/
def aggPending (h : Handler V) (n : Nat) : AggState V h → List (Chunk V)
  | some (cur, s) => [aggFinalise h n cur s]
  | none => []

/-- All chunks of one output region, coming from another region (or at the start). -/
theorem aggLoop_group (h : Handler V) (axis n : Nat) (o : List Key) (ho : axis ≤ o.length) (rest : List (Chunk V))
    (st : AggState V h) (hst : ∀ cur s, st = some (cur, s) → cur ≠ o) (cs1 : List (Chunk V)) (cuts1 : List Key)
    (hne : cuts1 ≠ []) (shape : List Nat) (hk : cs1.map Prod.fst = cuts1.map (fun c => o.insertIdx axis c))
    (hd : ∀ c ∈ cs1, c.2.shape.eraseIdx axis = shape ∧ (c.2.shape.getD axis 0 ≠ 0 ∨ h.emptyErr = none)) :
    aggLoop h axis n st (cs1 ++ rest) = (aggLoop h axis n (some (o, ⟨shape, fun idx =>
        (cs1.map (fun c => c.2.column axis idx)).foldl h.step h.boot⟩)) rest).map
        (fun out => aggPending h n st ++ out) := by
  match cuts1, hne with
  | k :: cuts1, _ =>
    match cs1, hk with
    | c :: cs1, hk =>
      simp only [List.map_cons, List.cons.injEq] at hk
      obtain ⟨hc1, hc2⟩ := hd c (by simp)
      have hdata : aggProcessData h axis ⟨c.2.shape.eraseIdx axis, fun _ => h.boot⟩ c.2 =
          .ok ⟨shape, fun idx => h.step h.boot (c.2.column axis idx)⟩ := by
        rw [aggProcessData_ok h rfl hc2, hc1]
      have hproc : aggProcessChunk h axis n st c =
          .ok (some (o, ⟨shape, fun idx => h.step h.boot (c.2.column axis idx)⟩),
            aggPending h n st) := by
        unfold aggProcessChunk
        rw [hk.1, eraseIdx_insertIdx' o axis k ho]
        match st, hst with
        | none, _ => simp only [hdata, bind, Except.bind, pure, Except.pure, aggPending]
        | some (cur, s), hst =>
          have : o ≠ cur := fun e => hst cur s rfl e.symm
          simp only [ne_eq, this, not_false_eq_true, if_true, hdata, bind, Except.bind, pure, Except.pure,
            aggPending]
      simp only [List.cons_append, aggLoop, hproc, bind, Except.bind, pure, Except.pure]
      rw [aggLoop_same h axis n o ho rest cs1 cuts1 _ hk.2 (fun c hc => hd c (by simp [hc]))]
      simp only [List.map_cons, List.foldl_cons]
      cases aggLoop h axis n (some (o, ⟨shape, fun idx => List.foldl h.step (h.step h.boot (c.2.column axis idx))
        (List.map (fun c => c.2.column axis idx) cs1)⟩)) rest <;> rfl

/-- The aggregation loop emits one chunk for each output region. -/
theorem aggLoop_groups (h : Handler V) (axis n : Nat) (cuts1 : List Key) (hne : cuts1 ≠ []) (P : Chunk V → Prop) :
    ∀ (outs : List (List Key)) (cs : List (Chunk V)) (cur : List Key) (s : NDA h.σ),
    (cur :: outs).Nodup → (∀ o ∈ outs, axis ≤ o.length) →
    cs.map Prod.fst = outs.flatMap (fun o => cuts1.map (fun c => o.insertIdx axis c)) →
    (∀ o ∈ outs, ∀ cs1 : List (Chunk V), (∀ c ∈ cs1, c ∈ cs) → cs1.map Prod.fst = cuts1.map (fun c => o.insertIdx axis c) →
      ∃ shape, (∀ c ∈ cs1, c.2.shape.eraseIdx axis = shape ∧ (c.2.shape.getD axis 0 ≠ 0 ∨ h.emptyErr = none)) ∧
        P (o, ⟨shape, fun idx => h.fin n ((cs1.map (fun c => c.2.column axis idx)).foldl h.step h.boot)⟩)) →
    ∃ out, aggLoop h axis n (some (cur, s)) cs = .ok (aggFinalise h n cur s :: out) ∧ out.map Prod.fst = outs ∧
      ∀ c ∈ out, P c := by
  intro outs
  induction outs with
  | nil =>
    intro cs cur s _ _ hk _
    simp only [List.flatMap_nil, List.map_eq_nil_iff] at hk
    subst hk
    exact ⟨[], rfl, rfl, by simp⟩
  | cons o outs ih =>
    intro cs cur s hnd hol hk hg
    rw [List.flatMap_cons, List.map_eq_append_iff] at hk
    obtain ⟨cs1, cs2, rfl, hk1, hk2⟩ := hk
    obtain ⟨shape, hd, hP⟩ := hg o (by simp) cs1 (fun c hc => by simp [hc]) hk1
    have hnd' := List.nodup_cons.mp hnd
    rw [aggLoop_group h axis n o (hol o (by simp)) cs2 (some (cur, s))
      (by intro c s' e; injection e with e; injection e with e1 e2; subst e1
          intro e; apply hnd'.1; rw [e]; simp) cs1 cuts1 hne shape hk1 hd]
    obtain ⟨out, h1, h2, h3⟩ := ih cs2 o ⟨shape, fun idx => (cs1.map (fun c => c.2.column axis idx)).foldl h.step h.boot⟩
      hnd'.2 (fun o ho => hol o (by simp [ho])) hk2
      (fun o' ho' cs1' hin => hg o' (by simp [ho']) cs1' (fun c hc => by simp [hin c hc]))
    rw [h1]
    refine ⟨_, rfl, ?_, ?_⟩
    · simp [h2, aggFinalise]
    · intro c hc
      rcases List.mem_cons.mp hc with rfl | hc
      · exact hP
      · exact h3 c hc

theorem picks_split {σ : List Sel} {idx : List Nat} {p : Nat} (hσ : ∀ s ∈ σ, s.isPick = true) (hp : p ≤ σ.length)
    (hi : InB (selShape σ) idx) : selSrc σ idx = selSrc (σ.take p) (idx.take p) ++ selSrc (σ.drop p) (idx.drop p) ∧
      InB (selShape (σ.take p)) (idx.take p) ∧ InB (selShape (σ.drop p)) (idx.drop p) := by
  have h1 : (selShape (σ.take p)).length = p := by
    rw [selShape_picks _ (fun s hs => hσ s (List.mem_of_mem_take hs)), List.length_take]; omega
  have h2 : selShape σ = selShape (σ.take p) ++ selShape (σ.drop p) := by rw [← selShape_append, List.take_append_drop]
  rw [h2] at hi
  obtain ⟨i1, i2⟩ := inB_split hi
  rw [h1] at i1 i2
  refine ⟨?_, i1, i2⟩
  conv => lhs; rw [← List.take_append_drop p σ]
  rw [selSrc_append (by rw [h1]; exact i1), h1]

/-- Columns of a chunk are pieces of the columns of the array. -/
theorem chunk_column {A d : NDA V} {axis : Nat} {o : List Key} {c : Key} {σ σo : List Sel} {n : Nat} {l : List Nat}
    (hax : axis < A.shape.length) (hn : A.shape.getD axis 0 = n) (ho : o.length + 1 = A.shape.length) (heo : Exact o)
    (hσo : resolve o (A.shape.eraseIdx axis) = .ok σo) (hpick : ∀ s ∈ σo, s.isPick = true)
    (hcx : c.isNewaxis = false ∧ c.isEllipsis = false) (hc : resolve1 c n = .ok (.pick l))
    (hσ : resolve (o.insertIdx axis c) A.shape = .ok σ) (hd : d ≈ₐ A.ortho σ) :
    d.shape.eraseIdx axis = selShape σo ∧ d.shape.getD axis 0 = l.length ∧
    ∀ idx, InB (selShape σo) idx → d.column axis idx = l.map (fun j => A.get ((selSrc σo idx).insertIdx axis j)) := by
  obtain ⟨sp, n0, sr, hsplit, hspl⟩ : ∃ sp n0 sr, A.shape = sp ++ n0 :: sr ∧ sp.length = axis := by
    refine ⟨A.shape.take axis, A.shape[axis], A.shape.drop (axis + 1), ?_, by simp; omega⟩
    rw [← List.drop_eq_getElem_cons hax, List.take_append_drop]
  have hn0 : n0 = n := by rw [← hn, hsplit, getD_middle _ _ _ _ _ hspl]
  subst hn0
  have hko : o = o.take axis ++ o.drop axis := (List.take_append_drop _ _).symm
  set o1 := o.take axis with ho1
  set o2 := o.drop axis with ho2
  have hlo1 : o1.length = axis := by rw [ho1, List.length_take]; omega
  have hins : o.insertIdx axis c = o1 ++ c :: o2 := by
    rw [hko]; exact insertIdx_middle _ _ _ _ hlo1
  have her : A.shape.eraseIdx axis = sp ++ sr := by
    rw [hsplit]; exact eraseIdx_middle _ _ _ _ hspl
  have he1 : Exact o1 := fun k hk => heo k (List.mem_of_mem_take hk)
  have he2 : Exact o2 := fun k hk => heo k (List.mem_of_mem_drop hk)
  rw [her, hko] at hσo
  obtain ⟨σ1, σ2, rfl, hr1, hr2⟩ := resolve_append_inv he1 (by rw [hlo1, hspl]) hσo
  have hσ' : σ = σ1 ++ .pick l :: σ2 := by
    have : resolve (o.insertIdx axis c) A.shape = .ok (σ1 ++ .pick l :: σ2) := by
      rw [hins, hsplit]
      apply resolve_append he1 hr1
      rw [resolve_cons_iff hcx.1]
      exact ⟨n0, sr, _, σ2, rfl, rfl, hc, hr2⟩
    rw [this] at hσ
    injection hσ with hσ
    exact hσ.symm
  subst hσ'
  have hl1 : σ1.length = axis := by rw [(resolve_length he1 hr1).2, hspl]
  have hp1 : ∀ s ∈ σ1, s.isPick = true := fun s hs => hpick s (by simp [hs])
  have hs1 : (selShape σ1).length = axis := by rw [selShape_picks _ hp1, hl1]
  have hds : d.shape = selShape σ1 ++ l.length :: selShape σ2 := by
    rw [hd.1]; simp [NDA.ortho, selShape_append, selShape]
  refine ⟨?_, ?_, ?_⟩
  · rw [hds, eraseIdx_middle _ _ _ _ hs1, selShape_append]
  · rw [hds]; exact getD_middle _ _ _ _ _ hs1
  · intro idx hidx
    rw [selShape_append] at hidx
    obtain ⟨i1, i2⟩ := inB_split hidx
    rw [hs1] at i1 i2
    have hil := i1.length
    have hidx' : idx = idx.take axis ++ idx.drop axis := (List.take_append_drop _ _).symm
    set a1 := idx.take axis
    set a2 := idx.drop axis
    have hla1 : a1.length = axis := by rw [hil, hs1]
    have hsrc : selSrc (σ1 ++ σ2) idx = selSrc σ1 a1 ++ selSrc σ2 a2 := by
      rw [hidx', selSrc_append (by rw [hs1, List.take_append_of_le_length (by omega), List.take_of_length_le (by omega)]; exact i1)]
      rw [hs1, List.take_append_of_le_length (by omega), List.take_of_length_le (by omega),
        List.drop_append_of_le_length (by omega), List.drop_of_length_le (by omega)]
      rfl
    have hsl : (selSrc σ1 a1).length = axis := by
      have := (selSrc_inB hr1 a1 i1).length
      rw [this, hspl]
    unfold NDA.column
    have hlen : d.shape.getD axis 0 = l.length := by rw [hds]; exact getD_middle _ _ _ _ _ hs1
    rw [hlen]
    apply List.ext_getElem
    · simp
    · intro j hj hj'
      simp only [List.length_map, List.length_range] at hj
      simp only [List.getElem_map, List.getElem_range]
      have hin : idx.insertIdx axis j = a1 ++ j :: a2 := by
        rw [hidx']; exact insertIdx_middle _ _ _ _ hla1
      rw [hin, hd.2 _ (by rw [hds]; exact inB_append i1 ⟨hj, i2⟩)]
      simp only [NDA.ortho]
      congr 1
      rw [selSrc_append (by rw [hs1, List.take_append_of_le_length (by omega), List.take_of_length_le (by omega)]; exact i1)]
      rw [hs1, List.take_append_of_le_length (by omega), List.take_of_length_le (by omega),
        List.drop_append_of_le_length (by omega), List.drop_of_length_le (by omega)]
      simp only [List.nil_append, selSrc]
      have hgd : l.getD j 0 = l[j] := by rw [List.getD_eq_getElem?_getD, List.getElem?_eq_getElem hj]; rfl
      rw [hgd]
      simp only [hsrc]
      rw [insertIdx_middle _ _ _ _ hsl]

/-- The answer of the handler does not depend on how a column of length `n` is cut by the keys. -/
def CutSafe (h : Handler V) (cuts : List Key) (n : Nat) : Prop :=
  h.Lawful ∨ cuts.length = 1 ∨ h.LawfulTwo ∧ ∃ k ks, cuts = k :: ks ∧ 2 ≤ (keyPos k n).length

/-- A column cut as the keys say. -/
def cutBy (cuts : List Key) (n : Nat) (col : List V) : List (List V) := cuts.map (fun k => (keyPos k n).filterMap (fun j => col[j]?))

/-- What an aggregation gives for the chunks of one output region. -/
theorem aggGroup_exact (h : Handler V) {A : NDA V} {axis : Nat} {cuts : List (List Key)} (hc : CutsOk cuts A.shape) (hax : axis < A.shape.length)
    (hemp : A.shape.getD axis 0 ≠ 0 ∨ h.emptyErr = none) {o : List Key}
    (hso : List.Forall₂ SliceOk o (A.shape.eraseIdx axis)) {cs1 : List (Chunk V)} (hin : ∀ c ∈ cs1, ∃ σ, resolve c.1 A.shape = .ok σ ∧ c.2 ≈ₐ A.ortho σ)
    (hk1 : cs1.map Prod.fst = (cuts.getD axis []).map (fun c => o.insertIdx axis c)) :
    ∃ shape, (∀ c ∈ cs1, c.2.shape.eraseIdx axis = shape ∧ (c.2.shape.getD axis 0 ≠ 0 ∨ h.emptyErr = none)) ∧
      (fun c : Chunk V => ∃ σ, resolve c.1 (A.shape.eraseIdx axis) = .ok σ ∧ c.2 ≈ₐ (A.reduce axis (fun col => h.run (A.shape.getD axis 0) (cutBy (cuts.getD axis []) (A.shape.getD axis 0) col))).ortho σ)
        (o, ⟨shape, fun idx => h.fin (A.shape.getD axis 0) ((cs1.map (fun c => c.2.column axis idx)).foldl h.step h.boot)⟩) := by
  set n := A.shape.getD axis 0 with hn
  have hcl := hc.length
  have helen : (A.shape.eraseIdx axis).length = A.shape.length - 1 := by rw [List.length_eraseIdx, if_pos hax]
  have hcut := forall₂_getD hc axis (by omega) [] 0
  rw [← hn] at hcut
  set cuts1 := cuts.getD axis [] with hcuts1
  set B := A.reduce axis (fun col => h.run n (cutBy cuts1 n col)) with hB
  have hBs : B.shape = A.shape.eraseIdx axis := rfl
  have hexo := sliceOk_exact hso
  have hol := hso.length_eq
  obtain ⟨σo, hσo, hpick⟩ := sliceOk_resolve hso
  have hcol : ∀ (cs1 : List (Chunk V)) (ks1 : List Key), (∀ k ∈ ks1, k ∈ cuts1) → (∀ c ∈ cs1, ∃ σ, resolve c.1 A.shape = .ok σ ∧ c.2 ≈ₐ A.ortho σ) →
      cs1.map Prod.fst = ks1.map (fun c => o.insertIdx axis c) →
      (∀ c ∈ cs1, c.2.shape.eraseIdx axis = selShape σo ∧ (c.2.shape.getD axis 0 ≠ 0 ∨ h.emptyErr = none)) ∧
      ∀ idx, InB (selShape σo) idx → cs1.map (fun c => c.2.column axis idx) =
        ks1.map (fun k => (keyPos k n).map (fun j => A.get ((selSrc σo idx).insertIdx axis j))) := by
    intro cs1
    induction cs1 with
    | nil =>
      intro ks1 _ _ hk
      simp only [List.map_nil] at hk
      have : ks1 = [] := by simpa using hk.symm
      subst this
      exact ⟨by simp, fun _ _ => rfl⟩
    | cons c cs1 ih =>
      intro ks1 hks hin hk
      match ks1, hk with
      | k :: ks1, hk =>
        simp only [List.map_cons, List.cons.injEq] at hk
        obtain ⟨j1, j2⟩ := ih ks1 (fun k hk => hks k (by simp [hk])) (fun c hc => hin c (by simp [hc])) hk.2
        obtain ⟨σ, hσ1, hσ2⟩ := hin c (by simp)
        rw [hk.1] at hσ1
        have hsl := hcut.slices k (hks k (by simp))
        obtain ⟨l, hl, hlne, _⟩ := hsl.2
        obtain ⟨q1, q2, q3⟩ := chunk_column hax hn.symm (by rw [hol, helen]; omega) hexo hσo hpick hsl.exact hl hσ1 hσ2
        refine ⟨?_, ?_⟩
        · intro c' hc'
          rcases List.mem_cons.mp hc' with rfl | hc'
          · refine ⟨q1, ?_⟩
            rcases hemp with hemp | hemp
            · left; rw [q2]; intro e; exact hlne hemp (List.length_eq_zero_iff.mp e)
            · right; exact hemp
          · exact j1 c' hc'
        · intro idx hidx
          simp only [List.map_cons]
          rw [q3 idx hidx, j2 idx hidx]
          simp [keyPos, hl]
  obtain ⟨c1, c2⟩ := hcol cs1 cuts1 (fun k hk => hk) hin hk1
  refine ⟨selShape σo, c1, σo, hσo, rfl, ?_⟩
  intro idx hidx
  have hidx' : InB (selShape σo) idx := hidx
  simp only [NDA.ortho, hB, NDA.reduce]
  rw [c2 idx hidx']
  show h.run n _ = h.run n (cutBy cuts1 n (A.column axis (selSrc σo idx)))
  congr 1
  apply List.map_congr_left
  intro k hk
  rw [← List.filterMap_eq_map']
  apply List.filterMap_congr
  intro j hj
  have hjn : j < n := by
    rw [← List.mem_range, ← hcut.tile]
    exact List.mem_flatMap.mpr ⟨k, hk, hj⟩
  unfold NDA.column
  rw [List.getElem?_map, List.getElem?_range (by rw [← hn]; exact hjn)]
  rfl

/-- What the stream of an aggregation carries: the aggregates of the columns, cut as the source is cut. -/
theorem aggStream_exact (h : Handler V) {A : NDA V} {axis : Nat} {cuts : List (List Key)} {order : List Nat}
    {cs : List (Chunk V)} (hc : CutsOk cuts A.shape) (hax : axis < A.shape.length)
    (hp : order.Perm (List.range (A.shape.length - 1))) (hS : StreamOk A cuts (aggOrder axis order) cs)
    (hemp : A.shape.getD axis 0 ≠ 0 ∨ h.emptyErr = none) :
    ∃ out, aggStream h axis (A.shape.getD axis 0) cs = .ok out ∧
      StreamOk (A.reduce axis (fun col => h.run (A.shape.getD axis 0) (cutBy (cuts.getD axis []) (A.shape.getD axis 0) col))) (cuts.eraseIdx axis) order out := by
  set n := A.shape.getD axis 0 with hn
  have hcl := hc.length
  have hkeys := hS.keys
  unfold aggOrder at hkeys
  rw [chunkKeysOf_agg cuts axis order (by omega) (by rw [hcl]; exact hp)] at hkeys
  have hce := hc.eraseIdx axis
  have helen : (A.shape.eraseIdx axis).length = A.shape.length - 1 := by rw [List.length_eraseIdx, if_pos hax]
  have hpe : order.Perm (List.range (A.shape.eraseIdx axis).length) := by rw [helen]; exact hp
  set outs := chunkKeysOf (cuts.eraseIdx axis) order with houts
  have hnd : outs.Nodup := (chunkKeysOf_perm_cart (n := (A.shape.eraseIdx axis).length) hpe _ hce.length hce.nodup).2
  have hcut := forall₂_getD hc axis (by omega) [] 0
  rw [← hn] at hcut
  set cuts1 := cuts.getD axis [] with hcuts1
  set B := A.reduce axis (fun col => h.run n (cutBy cuts1 n col)) with hB
  have hBs : B.shape = A.shape.eraseIdx axis := rfl
  -- what one group gives
  have hgroup : ∀ o ∈ outs, ∀ cs1 : List (Chunk V), (∀ c ∈ cs1, c ∈ cs) →
      cs1.map Prod.fst = cuts1.map (fun c => o.insertIdx axis c) →
      ∃ shape, (∀ c ∈ cs1, c.2.shape.eraseIdx axis = shape ∧ (c.2.shape.getD axis 0 ≠ 0 ∨ h.emptyErr = none)) ∧
        (fun c : Chunk V => ∃ σ, resolve c.1 B.shape = .ok σ ∧ c.2 ≈ₐ B.ortho σ)
          (o, ⟨shape, fun idx => h.fin n ((cs1.map (fun c => c.2.column axis idx)).foldl h.step h.boot)⟩) :=
    fun o ho cs1 hin hk1 => aggGroup_exact h hc hax hemp (chunkKeys_ok hce hpe ho) (fun c hcm => hS.data c (hin c hcm)) hk1
  -- the loop
  have hol : ∀ o ∈ outs, axis ≤ o.length := by
    intro o ho
    have := (chunkKeys_ok hce hpe ho).length_eq
    rw [this, helen]; omega
  unfold aggStream
  have houtne : outs ≠ [] := by
    intro e
    have hlen : (cart (cuts.eraseIdx axis)) = [] := by
      have := (chunkKeysOf_perm_cart (n := (A.shape.eraseIdx axis).length) hpe _ hce.length hce.nodup).1
      rw [← houts, e] at this
      exact List.nil_perm.mp this
    have hcne : ∀ cs : List (List Key), (∀ c ∈ cs, c ≠ []) → cart cs ≠ [] := by
      intro cs
      induction cs with
      | nil => intro _; simp [cart]
      | cons c cs ih =>
        intro hne e
        have h1 := hne c (by simp)
        have h2 := ih (fun c hc => hne c (by simp [hc]))
        obtain ⟨x, xs, rfl⟩ := List.exists_cons_of_ne_nil h1
        obtain ⟨y, ys, hy⟩ := List.exists_cons_of_ne_nil h2
        simp [cart, hy] at e
    apply hcne (cuts.eraseIdx axis) _ hlen
    intro c hcm
    obtain ⟨_, _, hh⟩ := forall₂_mem_left hce hcm
    exact hh.ne
  obtain ⟨o, outs', houts'⟩ := List.exists_cons_of_ne_nil houtne
  clear_value outs
  subst houts'
  · rw [List.flatMap_cons, List.map_eq_append_iff] at hkeys
    obtain ⟨cs1, cs2, hcs, hk1, hk2⟩ := hkeys
    obtain ⟨shape, hd, hP⟩ := hgroup o (by simp) cs1 (fun c hc => by simp [hcs, hc]) hk1
    rw [hcs, aggLoop_group h axis n o (hol o (by simp)) cs2 none (by intro _ _ e; cases e) cs1 cuts1 hcut.ne shape hk1 hd]
    obtain ⟨out, h1, h2, h3⟩ := aggLoop_groups h axis n cuts1 hcut.ne
      (fun c : Chunk V => ∃ σ, resolve c.1 B.shape = .ok σ ∧ c.2 ≈ₐ B.ortho σ) outs' cs2 o
      ⟨shape, fun idx => (cs1.map (fun c => c.2.column axis idx)).foldl h.step h.boot⟩ hnd
      (fun o ho => hol o (by simp [ho])) hk2
      (fun o' ho' cs1' hin => hgroup o' (by simp [ho']) cs1' (fun c hc => by simp [hcs, hin c hc]))
    rw [h1]
    refine ⟨_, rfl, ?_, ?_⟩
    · rw [← houts]; simp [h2, aggFinalise, aggPending]
    · intro c hc
      simp only [aggPending, List.nil_append] at hc
      rcases List.mem_cons.mp hc with rfl | hc
      · exact hP
      · exact h3 c hc

theorem filterMap_range {β : Type} (col : List β) : (List.range col.length).filterMap (fun j => col[j]?) = col := by
  induction col with
  | nil => rfl
  | cons x col ih =>
    rw [List.length_cons, List.range_succ_eq_map, List.filterMap_cons_some (by simp : (x :: col)[0]? = some x), List.filterMap_map]
    congr 1

theorem cutBy_flatten {cuts : List Key} {n : Nat} (hc : CutOk cuts n) (col : List V) (hl : col.length = n) : (cutBy cuts n col).flatten = col := by
  unfold cutBy
  rw [← List.flatMap_def]
  have : cuts.flatMap (fun k => (keyPos k n).filterMap (fun j => col[j]?)) = (cuts.flatMap (fun k => keyPos k n)).filterMap (fun j => col[j]?) := by
    rw [List.filterMap_flatMap]
  rw [this, hc.tile, ← hl]
  exact filterMap_range col

theorem cutBy_piece {cuts : List Key} {n : Nat} (hc : CutOk cuts n) (col : List V) (hl : col.length = n) {k : Key} (hk : k ∈ cuts) :
    ((keyPos k n).filterMap (fun j => col[j]?)).length = (keyPos k n).length := by
  have hlt : ∀ j ∈ keyPos k n, j < col.length := by
    intro j hj
    rw [hl, ← List.mem_range, ← hc.tile]
    exact List.mem_flatMap.mpr ⟨k, hk, hj⟩
  generalize keyPos k n = l at hlt
  induction l with
  | nil => rfl
  | cons j l ih =>
    rw [List.filterMap_cons_some (List.getElem?_eq_getElem (hlt j (by simp))), List.length_cons, List.length_cons, ih (fun j hj => hlt j (by simp [hj]))]

/-- Where the cutting does not matter. -/
theorem CutSafe.run {h : Handler V} {cuts : List Key} {n : Nat} (hlaw : CutSafe h cuts n) (hc : CutOk cuts n) (col : List V) (hl : col.length = n) :
    h.run n (cutBy cuts n col) = h.run n [col] := by
  have hflat := cutBy_flatten hc col hl
  by_cases hone : cuts.length = 1
  · obtain ⟨k, hk⟩ := List.length_eq_one_iff.mp hone
    rw [hk] at hflat ⊢
    simp only [cutBy, List.map_cons, List.map_nil, List.flatten_cons, List.flatten_nil, List.append_nil] at hflat ⊢
    rw [hflat]
  · have hpiece : ∀ k ∈ cuts, (keyPos k n).filterMap (fun j => col[j]?) ≠ [] := by
      intro k hk e
      obtain ⟨l, hl', hlne, _⟩ := (hc.slices k hk).2
      have h0 : n ≠ 0 := fun e => hone (hc.zero e)
      have h1 := cutBy_piece hc col hl hk
      rw [e] at h1
      simp only [keyPos, hl'] at h1
      exact hlne h0 (List.length_eq_zero_iff.mp h1.symm)
    rcases hlaw with hlaw | hlaw | ⟨hlaw, k, ks, hks, h2⟩
    · rw [hlaw n (cutBy cuts n col) (by simpa [cutBy] using hc.ne) ?_, hflat]
      intro c hc'
      obtain ⟨k, hk, rfl⟩ := List.mem_map.mp hc'
      exact hpiece k hk
    · exact absurd hlaw hone
    · have h3 : 2 ≤ ((keyPos k n).filterMap (fun j => col[j]?)).length := by
        rw [cutBy_piece hc col hl (by rw [hks]; simp)]; exact h2
      unfold cutBy at hflat ⊢
      rw [hks, List.map_cons] at hflat ⊢
      rw [hlaw n _ _ h3 ?_, hflat]
      intro c hc'
      obtain ⟨k', hk', rfl⟩ := List.mem_map.mp hc'
      exact hpiece k' (by rw [hks]; exact List.mem_cons_of_mem _ hk')

theorem reduce_cutSafe {h : Handler V} {A : NDA V} {axis : Nat} {cuts : List (List Key)} (hc : CutsOk cuts A.shape) (hax : axis < A.shape.length)
    (hlaw : CutSafe h (cuts.getD axis []) (A.shape.getD axis 0)) :
    A.reduce axis (fun col => h.run (A.shape.getD axis 0) (cutBy (cuts.getD axis []) (A.shape.getD axis 0) col)) =
      A.reduce axis (fun col => h.run (A.shape.getD axis 0) [col]) := by
  have hcut := forall₂_getD hc axis (by rw [hc.length]; exact hax) [] 0
  unfold NDA.reduce
  congr 1
  funext idx
  exact hlaw.run hcut _ (by simp [NDA.column])

/-- What an aggregation gives for the chunks of one output region, if the cutting does not matter. -/
theorem aggGroup_ok (h : Handler V) {A : NDA V} {axis : Nat} {cuts : List (List Key)} (hc : CutsOk cuts A.shape) (hax : axis < A.shape.length)
    (hlaw : CutSafe h (cuts.getD axis []) (A.shape.getD axis 0)) (hemp : A.shape.getD axis 0 ≠ 0 ∨ h.emptyErr = none) {o : List Key}
    (hso : List.Forall₂ SliceOk o (A.shape.eraseIdx axis)) {cs1 : List (Chunk V)} (hin : ∀ c ∈ cs1, ∃ σ, resolve c.1 A.shape = .ok σ ∧ c.2 ≈ₐ A.ortho σ)
    (hk1 : cs1.map Prod.fst = (cuts.getD axis []).map (fun c => o.insertIdx axis c)) :
    ∃ shape, (∀ c ∈ cs1, c.2.shape.eraseIdx axis = shape ∧ (c.2.shape.getD axis 0 ≠ 0 ∨ h.emptyErr = none)) ∧
      (fun c : Chunk V => ∃ σ, resolve c.1 (A.shape.eraseIdx axis) = .ok σ ∧ c.2 ≈ₐ (A.reduce axis (fun col => h.run (A.shape.getD axis 0) [col])).ortho σ)
        (o, ⟨shape, fun idx => h.fin (A.shape.getD axis 0) ((cs1.map (fun c => c.2.column axis idx)).foldl h.step h.boot)⟩) := by
  rw [← reduce_cutSafe hc hax hlaw]
  exact aggGroup_exact h hc hax hemp hso hin hk1

/-- C29 and C20-C23 at the level of arrays: the stream of an aggregation carries the aggregated array. -/
theorem aggStream_ok (h : Handler V) {A : NDA V} {axis : Nat} {cuts : List (List Key)} {order : List Nat}
    {cs : List (Chunk V)} (hc : CutsOk cuts A.shape) (hax : axis < A.shape.length)
    (hp : order.Perm (List.range (A.shape.length - 1))) (hS : StreamOk A cuts (aggOrder axis order) cs)
    (hlaw : CutSafe h (cuts.getD axis []) (A.shape.getD axis 0)) (hemp : A.shape.getD axis 0 ≠ 0 ∨ h.emptyErr = none) :
    ∃ out, aggStream h axis (A.shape.getD axis 0) cs = .ok out ∧
      StreamOk (A.reduce axis (fun col => h.run (A.shape.getD axis 0) [col])) (cuts.eraseIdx axis) order out := by
  rw [← reduce_cutSafe hc hax hlaw]
  exact aggStream_exact h hc hax hp hS hemp

/-! ### element-wise -/

theorem elem1Stream_ok {A : NDA V} {cuts : List (List Key)} {order : List Nat} {cs : List (Chunk V)} (f : V → V)
    (h : StreamOk A cuts order cs) : StreamOk (A.map f) cuts order (cs.map (fun c => (c.1, c.2.map f))) := by
  constructor
  · rw [List.map_map, ← h.keys]; rfl
  · intro c hc
    obtain ⟨c', hc', rfl⟩ := List.mem_map.mp hc
    obtain ⟨σ, h1, h2⟩ := h.data c' hc'
    exact ⟨σ, h1, h2.map f⟩

theorem elem2Stream_ok {A B : NDA V} (f : V → V → V) (hs : A.shape = B.shape) :
    ∀ (ks : List (List Key)) (ca cb : List (Chunk V)), ca.map Prod.fst = ks → cb.map Prod.fst = ks →
    (∀ c ∈ ca, ∃ σ, resolve c.1 A.shape = .ok σ ∧ c.2 ≈ₐ A.ortho σ) →
    (∀ c ∈ cb, ∃ σ, resolve c.1 B.shape = .ok σ ∧ c.2 ≈ₐ B.ortho σ) →
    ∃ out, elem2Stream f ca cb = .ok out ∧ out.map Prod.fst = ks ∧
      ∀ c ∈ out, ∃ σ, resolve c.1 (A.zip B f).shape = .ok σ ∧ c.2 ≈ₐ (A.zip B f).ortho σ := by
  intro ks
  induction ks with
  | nil =>
    intro ca cb h1 h2 _ _
    simp only [List.map_eq_nil_iff] at h1 h2
    subst h1 h2
    exact ⟨[], rfl, rfl, by simp⟩
  | cons k ks ih =>
    intro ca cb h1 h2 ha hb
    match ca, cb, h1, h2 with
    | c1 :: ca, c2 :: cb, h1, h2 =>
      simp only [List.map_cons, List.cons.injEq] at h1 h2
      obtain ⟨σ, ha1, ha2⟩ := ha c1 (by simp)
      obtain ⟨σ', hb1, hb2⟩ := hb c2 (by simp)
      have hσσ : σ = σ' := by
        rw [h1.1, hs] at ha1
        rw [h2.1, ha1] at hb1
        injection hb1
      subst hσσ
      obtain ⟨out, ho1, ho2, ho3⟩ := ih ca cb h1.2 h2.2 (fun c hc => ha c (by simp [hc])) (fun c hc => hb c (by simp [hc]))
      obtain ⟨d, hd1, hd2⟩ := npOp2_ok (f := f) ha2 hb2 rfl
      refine ⟨(c1.1, d) :: out, ?_, ?_, ?_⟩
      · simp only [elem2Stream, hd1, ho1, bind, Except.bind, pure, Except.pure]
      · simp [ho2, h1.1]
      · intro c hc
        rcases List.mem_cons.mp hc with rfl | hc
        · exact ⟨σ, ha1, hd2⟩
        · exact ho3 c hc

/-- The cuts used by producers are good. -/
theorem allSlices_ok (limit : Nat) (shape : List Nat) : CutsOk (allSlicesInner limit true shape) shape := by
  unfold CutsOk
  induction shape with
  | nil => exact List.Forall₂.nil
  | cons n ns ih =>
    rw [allSlices_cons]
    refine List.Forall₂.cons ?_ ih
    have hsorted : ∀ a b, (List.range' a b).Pairwise (· < ·) := fun a b => List.pairwise_lt_range'
    have hfull : SliceOk Key.full n := ⟨⟨PySlice.full, rfl, rfl⟩, List.range n, resolve1_full n, by
      intro h e; apply h; simpa using e, List.pairwise_lt_range⟩
    have hspan : ∀ a b, a < b → b ≤ n → SliceOk (Key.span a b) n := fun a b hab hb =>
      ⟨⟨_, rfl, rfl⟩, _, resolve1_span a b n (by omega) hb, by intro _ e; simp at e; omega, hsorted _ _⟩
    have hsl : ∀ k ∈ dimSlices limit true ns.prod n, SliceOk k n := by
      intro k hk
      rcases dimSlices_cases limit true ns.prod n with ⟨_, h⟩ | ⟨_, _, h⟩ | ⟨h1, h2, h3, h⟩
      · rw [h] at hk; simp at hk; subst hk; exact hfull
      · rw [h] at hk
        obtain ⟨i, hi, rfl⟩ := List.mem_map.mp hk
        simp only [if_true]
        simp at hi
        exact hspan i (i + 1) (by omega) (by omega)
      · rw [h] at hk
        obtain ⟨j, hj, rfl⟩ := List.mem_map.mp hk
        simp at hj
        have hstep : 0 < limit / ns.prod := Nat.div_pos h1 h3
        have := step_lt n (limit / ns.prod) j hstep hj
        exact hspan _ _ (by omega) (by omega)
    refine ⟨dimSlices_nodup _ _ _ _, ?_, ?_, dimSlices_tile _ _ _ _, hsl⟩
    · intro e
      have := dimSlices_tile limit true ns.prod n
      rw [e] at this
      have hn : n = 0 := by simpa using this.symm
      subst hn
      unfold dimSlices at e
      simp at e
    · rintro rfl
      unfold dimSlices
      simp

theorem mapM_forall {β γ : Type} (l : List β) (f : β → Res γ) (P : γ → Prop) (g : γ → β)
    (h : ∀ x ∈ l, ∃ y, f x = .ok y ∧ g y = x ∧ P y) : ∃ ys, l.mapM f = .ok ys ∧ ys.map g = l ∧ ∀ y ∈ ys, P y := by
  obtain ⟨ys, h1, h2⟩ := mapM_sim (R := fun x y => g y = x ∧ P y) l f h
  refine ⟨ys, h1, ?_, ?_⟩
  · clear h1 h
    induction h2 with
    | nil => rfl
    | cons hr _ ih => simp [hr.1, ih]
  · clear h1 h
    induction h2 with
    | nil => simp
    | cons hr _ ih =>
      intro y hy
      rcases List.mem_cons.mp hy with rfl | hy
      · exact hr.2
      · exact ih y hy

end Biggus

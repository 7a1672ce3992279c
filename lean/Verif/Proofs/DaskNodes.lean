import Verif.Proofs.DaskCuts
import Verif.Proofs.GroupRun
/-
The tasks of the sources of an array, grouped by the part of the array to which they contribute.
-/
namespace Biggus

variable {α V : Type}

/-- The values of the tasks of a graph: every task uses earlier ones only, and gives its value. -/
def DVals [Inhabited V] (m : Mode α V) (evalP : Arr α → Res (NDA V)) (tasks : List (DTask α)) (v : Nat → DVal V) : Prop :=
  ∀ (i : Nat) (t : DTask α), tasks[i]? = some t → (∀ d ∈ t.deps, d < i) ∧ t.run m evalP (t.deps.map v) = .ok (v i)

theorem DVals.extend [Inhabited V] {m : Mode α V} {evalP : Arr α → Res (NDA V)} {tasks : List (DTask α)} {v : Nat → DVal V} (h : DVals m evalP tasks v)
    {ts : List (DTask α)} {ws : List (DVal V)}
    (hts : List.Forall₂ (fun t w => (∀ d ∈ DTask.deps t, d < tasks.length) ∧ t.run m evalP (t.deps.map v) = .ok w) ts ws) :
    ∃ v', (∀ i, i < tasks.length → v' i = v i) ∧ DVals m evalP (tasks ++ ts) v' ∧ ∀ j w, ws[j]? = some w → v' (tasks.length + j) = w := by
  let v' : Nat → DVal V := fun i => if i < tasks.length then v i else (ws[i - tasks.length]?).getD (v i)
  have h1 : ∀ i, i < tasks.length → v' i = v i := fun i hi => by simp only [v']; rw [if_pos hi]
  have h2 : ∀ j w, ws[j]? = some w → v' (tasks.length + j) = w := by
    intro j w hw
    simp only [v']
    rw [if_neg (by omega), Nat.add_sub_cancel_left, hw]
    rfl
  refine ⟨v', h1, ?_, h2⟩
  intro i t ht
  have hdeps : (∀ d ∈ t.deps, d < tasks.length) → t.deps.map v' = t.deps.map v := fun hd => List.map_congr_left (fun d hdm => h1 d (hd d hdm))
  by_cases hi : i < tasks.length
  · rw [List.getElem?_append_left hi] at ht
    obtain ⟨k1, k2⟩ := h i t ht
    refine ⟨k1, ?_⟩
    rw [hdeps (fun d hd => by have := k1 d hd; omega), h1 i hi]
    exact k2
  · rw [List.getElem?_append_right (by omega)] at ht
    obtain ⟨hj, he⟩ := List.getElem?_eq_some_iff.mp ht
    have hj' : i - tasks.length < ws.length := by rw [← hts.length_eq]; exact hj
    obtain ⟨k1, k2⟩ := hts.get hj hj'
    simp only [List.get_eq_getElem] at k1 k2
    rw [he] at k1 k2
    refine ⟨fun d hd => by have := k1 d hd; omega, ?_⟩
    have h3 := h2 (i - tasks.length) _ (List.getElem?_eq_getElem hj')
    rw [show tasks.length + (i - tasks.length) = i by omega] at h3
    rw [hdeps k1, h3]
    exact k2

/-- The tasks `ids` give the chunks `cs` of the array `A`. -/
structure NodeOk (A : NDA V) (cuts : List (List Key)) (tasks : List (DTask α)) (v : Nat → DVal V) (ids order : List Nat) (cs : List (Chunk V))
    (D : List (List PySlice)) : Prop where
  perm : order.Perm (List.range A.shape.length)
  stream : StreamOk A cuts order cs
  dims : List.Forall₂ DimCut A.shape D
  same : normL A.shape D = normL A.shape (cuts.map (fun c => c.map keySlice))
  nodup : ids.Nodup
  chunks : List.Forall₂ (fun i c => v i = .chunk c ∧ ∃ t K, tasks[i]? = some t ∧ t.keys = K.map Key.slice ∧ K ∈ cart D ∧
    normalizeKeys K A.shape = normalizeKeys (c.1.map keySlice) A.shape) ids cs

theorem NodeOk.mono {A : NDA V} {cuts : List (List Key)} {tasks ts : List (DTask α)} {v v' : Nat → DVal V} {ids order : List Nat} {cs : List (Chunk V)}
    {D : List (List PySlice)} (h : NodeOk A cuts tasks v ids order cs D) (hv : ∀ i, i < tasks.length → v' i = v i) :
    NodeOk A cuts (tasks ++ ts) v' ids order cs D := by
  refine ⟨h.perm, h.stream, h.dims, h.same, h.nodup, ?_⟩
  refine h.chunks.imp ?_
  rintro i c ⟨h1, t, K, h2, h3⟩
  have hi : i < tasks.length := (List.getElem?_eq_some_iff.mp h2).1
  exact ⟨by rw [hv i hi]; exact h1, t, K, by rw [List.getElem?_append_left hi]; exact h2, h3⟩

theorem forall₂_filter {β γ : Type} {R : β → γ → Prop} {l : List β} {l' : List γ} (h : List.Forall₂ R l l') (P : β → Bool) (Q : γ → Bool)
    (hpq : ∀ a b, R a b → P a = Q b) : List.Forall₂ R (l.filter P) (l'.filter Q) := by
  induction h with
  | nil => exact .nil
  | @cons a b l l' hr _ ih =>
    rw [List.filter_cons, List.filter_cons, ← hpq a b hr]
    split
    · exact .cons hr ih
    · exact ih

theorem dropAx_cart_surj {β : Type} {N : List (List β)} {ax : Option Nat} (hax : ∀ a, ax = some a → a < N.length) (hne : ∀ c ∈ N, c ≠ []) {k' : List β}
    (hk : k' ∈ cart (dropAx ax N)) : ∃ k ∈ cart N, dropAx ax k = k' := by
  cases ax with
  | none => exact ⟨k', hk, rfl⟩
  | some a =>
    have ha := hax a rfl
    obtain ⟨x, r, hx⟩ := List.exists_cons_of_ne_nil (hne _ (List.getElem_mem ha))
    have hxm : x ∈ N.getD a [] := by rw [List.getD_eq_getElem _ _ ha, hx]; simp
    exact ⟨_, cart_insertIdx N a k' x ha hk hxm, List.eraseIdx_insertIdx_self _⟩

theorem sourceKey_ok {tasks : List (DTask α)} {i : Nat} {t : DTask α} {K : KeyTuple} (h2 : tasks[i]? = some t) (h3 : t.keys = K.map Key.slice) (ax : Option Nat) :
    sourceKey tasks ax i = .ok (dropAx ax K, i) := by
  have hm : ∀ l : KeyTuple, (l.map Key.slice).mapM sliceKey = .ok l := by
    intro l
    rw [mapM_ok_iff, List.forall₂_map_left_iff]
    exact List.forall₂_same.mpr (fun x _ => rfl)
  unfold sourceKey
  rw [h2]
  simp only [h3]
  cases ax with
  | none =>
    simp only
    rw [hm]
    rfl
  | some a =>
    simp only
    rw [List.eraseIdx_map, hm]
    rfl

/-- What the source tasks are for the groups. -/
theorem source_ok [Inhabited α] {A : NDA V} {cuts : List (List Key)} {tasks : List (DTask α)} {v : Nat → DVal V} {ids order : List Nat} {cs : List (Chunk V)}
    {D : List (List PySlice)} (h : NodeOk A cuts tasks v ids order cs D) (hc : CutsOk cuts A.shape) (ax : Option Nat) (hax : ∀ a, ax = some a → a < A.shape.length)
    {S : List Nat} {N : List (List PySlice)} (hS : S = dropAx ax A.shape) (hN : N = normL S (dropAx ax (cuts.map (fun c => c.map keySlice)))) :
    ∃ srcs, ids.mapM (sourceKey tasks ax) = .ok srcs ∧ ProdKeys S N (srcs.map Prod.fst) ∧ srcs.length = cs.length ∧
      ∀ (arr : Arr α) κ, κ ∈ cart N → ∃ deps, groupDeps arr S κ ((srcs.map Prod.fst).filter (fun k => decide (normalizeKeys k S = κ)), srcs) = .ok deps ∧
        List.Forall₂ (fun d c => d < tasks.length ∧ v d = .chunk c) deps
          (cs.filter (fun c => decide (normalizeKeys (dropAx ax (c.1.map keySlice)) S = κ))) := by
  obtain ⟨hperm, hstream, hdims, hsame, hnodup, hchunks⟩ := h
  set C := cuts.map (fun c => c.map keySlice) with hC
  have hDl := hdims.length_eq
  have hCl : A.shape.length = C.length := by rw [hC, List.length_map, hc.length]
  have hdims' : List.Forall₂ DimCut S (dropAx ax D) := by rw [hS]; exact dropAx_forall₂ hdims ax
  have hN' : N = normL S (dropAx ax D) := by
    rw [hN, hS, dropAx_normL hCl, dropAx_normL hDl, hsame]
  -- the sources
  obtain ⟨srcs, hs1, hs2, hs3⟩ : ∃ srcs : List (KeyTuple × Nat), ids.mapM (sourceKey tasks ax) = .ok srcs ∧ srcs.map Prod.snd = ids ∧
      List.Forall₂ (fun q c => q.2 < tasks.length ∧ v q.2 = .chunk c ∧ ∃ K ∈ cart D, q.1 = dropAx ax K ∧
        normalizeKeys K A.shape = normalizeKeys (c.1.map keySlice) A.shape) srcs cs := by
    clear hstream hnodup
    induction hchunks with
    | nil => exact ⟨[], rfl, rfl, .nil⟩
    | @cons i c ids cs hr _ ih =>
      obtain ⟨srcs, i1, i2, i3⟩ := ih
      obtain ⟨h1, t, K, h2, h3, h4, h5⟩ := hr
      have hk : sourceKey tasks ax i = .ok (dropAx ax K, i) := sourceKey_ok h2 h3 ax
      refine ⟨(dropAx ax K, i) :: srcs, ?_, by simp [i2], .cons ⟨(List.getElem?_eq_some_iff.mp h2).1, h1, K, h4, rfl, h5⟩ i3⟩
      rw [List.mapM_cons, hk, i1]
      rfl
  -- the keys of the chunks
  have hkey : ∀ c ∈ cs, ∃ k ∈ cart C, c.1 = k.map Key.slice := by
    intro c hcm
    have : c.1 ∈ chunkKeysOf cuts order := by rw [← hstream.keys]; exact List.mem_map_of_mem hcm
    exact (chunkKey_slices hc hperm).mp this
  have hnorm : ∀ q ∈ srcs, q.1 ∈ cart (dropAx ax D) := by
    intro q hq
    obtain ⟨c, _, _, _, K, hK, he, _⟩ := forall₂_mem_left hs3 hq
    rw [he]
    exact dropAx_cart hK ax
  have hqc : ∀ (q : KeyTuple × Nat) (c : Chunk V), c ∈ cs → (∃ K ∈ cart D, q.1 = dropAx ax K ∧ normalizeKeys K A.shape = normalizeKeys (c.1.map keySlice) A.shape) →
      normalizeKeys q.1 S = normalizeKeys (dropAx ax (c.1.map keySlice)) S := by
    rintro q c hcm ⟨K, hK, he, hn⟩
    obtain ⟨k, hk, hck⟩ := hkey c hcm
    rw [he, hS, dropAx_normalizeKeys (by rw [cart_length hK, hDl]), hn, dropAx_normalizeKeys]
    rw [hck, keySlice_slice, cart_length hk, hCl]
  have hs4 : List.Forall₂ (fun q c => (q.2 < tasks.length ∧ v q.2 = .chunk c) ∧ normalizeKeys q.1 S = normalizeKeys (dropAx ax (c.1.map keySlice)) S) srcs cs := by
    have : ∀ (l : List (KeyTuple × Nat)) (l' : List (Chunk V)), (∀ c ∈ l', c ∈ cs) → List.Forall₂ (fun q c => q.2 < tasks.length ∧ v q.2 = .chunk c ∧ ∃ K ∈ cart D,
        q.1 = dropAx ax K ∧ normalizeKeys K A.shape = normalizeKeys (c.1.map keySlice) A.shape) l l' →
        List.Forall₂ (fun q c => (q.2 < tasks.length ∧ v q.2 = .chunk c) ∧ normalizeKeys q.1 S = normalizeKeys (dropAx ax (c.1.map keySlice)) S) l l' := by
      intro l l' hl hf
      induction hf with
      | nil => exact .nil
      | @cons q c l l' hr _ ih =>
        exact .cons ⟨⟨hr.1, hr.2.1⟩, hqc q c (hl c (by simp)) hr.2.2⟩ (ih (fun c hc => hl c (by simp [hc])))
    exact this srcs cs (fun c hc => hc) hs3
  have hprod : ProdKeys S N (srcs.map Prod.fst) := by
    constructor
    · intro k hk
      obtain ⟨q, hq, rfl⟩ := List.mem_map.mp hk
      exact cart_fine hdims' (hnorm q hq)
    · intro k hk
      obtain ⟨q, hq, rfl⟩ := List.mem_map.mp hk
      rw [hN', cart_normL _ _ hdims'.length_eq]
      exact List.mem_map_of_mem (hnorm q hq)
    · intro κ hκ
      rw [hN, cart_normL _ _ (by rw [hS]; cases ax <;> simp [dropAx, List.length_eraseIdx, hCl])] at hκ
      obtain ⟨k', hk', rfl⟩ := List.mem_map.mp hκ
      have hCne : ∀ c ∈ C, c ≠ [] := by
        intro c hcm he
        obtain ⟨c', hc', rfl⟩ := List.mem_map.mp hcm
        obtain ⟨n, _, hn⟩ := forall₂_mem_left hc hc'
        exact hn.ne (by simpa using he)
      obtain ⟨k, hk, rfl⟩ := dropAx_cart_surj (fun a ha => by rw [← hCl]; exact hax a ha) hCne hk'
      have hm : k.map Key.slice ∈ cs.map Prod.fst := by
        rw [hstream.keys]
        exact (chunkKey_slices hc hperm).mpr ⟨k, hk, rfl⟩
      obtain ⟨c, hcm, hce⟩ := List.mem_map.mp hm
      obtain ⟨q, hq, hr⟩ := forall₂_mem_left hs4.flip hcm
      refine ⟨q.1, List.mem_map_of_mem hq, ?_⟩
      rw [hr.2, hce, keySlice_slice]
  refine ⟨srcs, hs1, hprod, hs3.length_eq, ?_⟩
  intro arr κ hκ
  refine ⟨(srcs.filter (fun q => decide (normalizeKeys q.1 S = κ))).map Prod.snd, ?_, ?_⟩
  · unfold groupDeps
    simp only
    rw [if_pos ?_]
    · congr 1
      obtain ⟨k1, hk1, hk1n⟩ := hprod.hit κ hκ
      have hmem1 : k1 ∈ (srcs.map Prod.fst).filter (fun k => decide (normalizeKeys k S = κ)) := by
        rw [List.mem_filter]
        exact ⟨hk1, decide_eq_true hk1n⟩
      have hsub : ∀ k ∈ (srcs.map Prod.fst).filter (fun k => decide (normalizeKeys k S = κ)), k = k1 := by
        intro k hk
        rw [List.mem_filter] at hk
        obtain ⟨q, hq, rfl⟩ := List.mem_map.mp hk.1
        obtain ⟨q1, hq1, rfl⟩ := List.mem_map.mp hk1
        exact norm_inj hdims' (hnorm q hq) (hnorm q1 hq1) ((of_decide_eq_true hk.2).trans hk1n.symm)
      have hfl : srcs.filter (fun q => decide (q.1 = k1)) = srcs.filter (fun q => decide (normalizeKeys q.1 S = κ)) := by
        apply List.filter_congr
        intro q hq
        rw [decide_eq_decide]
        constructor
        · intro he; rw [he]; exact hk1n
        · intro he
          exact hsub q.1 (by rw [List.mem_filter]; exact ⟨List.mem_map_of_mem hq, decide_eq_true he⟩)
      obtain ⟨k0, r, hkr⟩ := List.exists_cons_of_ne_nil (List.ne_nil_of_mem hmem1)
      rw [hkr] at hsub ⊢
      have hk0 := hsub k0 (by simp)
      rw [hk0, List.flatMap_cons, ← hfl]
      apply uniqueEverseen_nodup
      · have hsl : ((srcs.filter (fun q => decide (q.1 = k1))).map Prod.snd).Sublist (srcs.map Prod.snd) := List.Sublist.map _ List.filter_sublist
        rw [hs2] at hsl
        exact hsl.nodup hnodup
      · intro x _ hx
        cases hx
      · intro x hx
        left
        obtain ⟨k, hk, hxk⟩ := List.mem_flatMap.mp hx
        rw [hsub k (by simp [hk])] at hxk
        exact hxk
    · rw [List.all_eq_true]
      intro k hk
      rw [List.mem_filter] at hk
      exact decide_eq_true (of_decide_eq_true hk.2).symm
  · rw [List.forall₂_map_left_iff]
    have := forall₂_filter hs4 (fun q => decide (normalizeKeys q.1 S = κ)) (fun c => decide (normalizeKeys (dropAx ax (c.1.map keySlice)) S = κ)) (by
      intro q c hr
      rw [decide_eq_decide, hr.2])
    exact this.imp (fun q c hr => hr.1)

end Biggus

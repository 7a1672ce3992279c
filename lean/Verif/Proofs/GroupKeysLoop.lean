import Verif.Proofs.GroupKeys
/-
`group_keys`: the loop over the dimensions, and the specification.
-/
namespace Biggus

section
variable {shape : List Nat} {inputs : List (List KeyTuple)}

theorem Split.length {d : Nat} {st st' : KState} {x : List SliceTuple × GLists} (h : Split shape inputs d st x st') (hnd : (st.dict.map Prod.fst).Nodup)
    (hx : x ∈ st.dict) : st.dict.length + 1 ≤ st'.dict.length := by
  obtain ⟨new, h1, h2, _⟩ := h.dict
  rw [h1, List.length_append]
  have := (perm_pop hnd hx).length_eq
  rw [List.length_cons] at this
  omega

theorem EntryOk.own {store store' : List (List KeyTuple)} {d : Nat} {x : List SliceTuple × GLists} (h : EntryOk shape inputs store d x)
    (ho : ∃ l, x.2 = .own l) : EntryOk shape inputs store' d x := by
  obtain ⟨l, hl⟩ := ho
  obtain ⟨B, hB⟩ := h
  refine ⟨B, ?_⟩
  rw [hl] at hB ⊢
  exact hB

/-- All groups of one dimension, once the lists are no longer the caller's. -/
theorem fold_own {d : Nat} (hd : d < shape.length) (hn : 0 < shape.getD d 0) (hne : inputs ≠ []) (hG : ∀ keys ∈ inputs, Grid shape keys) :
    ∀ (S : GDict) (st : KState), (S.map Prod.fst).Nodup → (∀ x ∈ S, x ∈ st.dict ∧ EntryOk shape inputs st.store d x) →
    (∀ x ∈ st.dict, x ∉ S → EntryOk shape inputs st.store (d + 1) x) → (∀ x ∈ st.dict, ∃ l, x.2 = .own l) → Tile shape st.dict →
    (S.foldlM (processGroup d (shape.getD d 0)) st = .error .runtime ∧ 9999 < (inputs.map List.length).sum) ∨
    ∃ st', S.foldlM (processGroup d (shape.getD d 0)) st = .ok st' ∧
      (∀ x ∈ st'.dict, (∃ l, x.2 = .own l) ∧ EntryOk shape inputs st'.store (d + 1) x) ∧ Tile shape st'.dict ∧ st'.store = st.store ∧
      st.dict.length ≤ st'.dict.length
  | [], st, _, _, h2, h3, h4 => Or.inr ⟨st, rfl, fun x hx => ⟨h3 x hx, h2 x hx (by simp)⟩, h4, rfl, le_refl _⟩
  | x :: S, st, h0, h1, h2, h3, h4 => by
    rw [List.map_cons, List.nodup_cons] at h0
    obtain ⟨hx, hE⟩ := h1 x List.mem_cons_self
    have hp : ∀ x ∈ st.dict, HasPoint shape x := by
      intro z hz
      by_cases hzS : z ∈ x :: S
      · exact (h1 z hzS).2.point
      · exact (h2 z hz hzS).point
    have hnotin : ∀ z ∈ S, z.1 ≠ x.1 := by
      intro z hz he
      exact h0.1 (by rw [← he]; exact List.mem_map_of_mem hz)
    rw [List.foldlM_cons]
    rcases processGroup_ok hd hn hne hG hx hE h4 hp (Or.inl (h3 x hx)) with ⟨hr, hs⟩ | ⟨hr, hE'⟩ | ⟨st', hr, hsp⟩
    · left
      rw [hr]
      exact ⟨rfl, hs⟩
    · rw [hr]
      simp only [bind, Except.bind]
      refine fold_own hd hn hne hG S st h0.2 (fun z hz => h1 z (List.mem_cons_of_mem _ hz)) ?_ h3 h4
      intro z hz hzS
      by_cases hzx : z = x
      · rw [hzx]; exact hE'
      · exact h2 z hz (by simp [hzx, hzS])
    · rw [hr]
      simp only [bind, Except.bind]
      have hlen := hsp.length (h4.nodup hp) hx
      obtain ⟨new, hdict, hnl, hnew⟩ := hsp.dict
      have hst := hsp.own (h3 x hx)
      have := fold_own hd hn hne hG S st' h0.2 (by
          intro z hz
          obtain ⟨hz1, hz2⟩ := h1 z (List.mem_cons_of_mem _ hz)
          refine ⟨?_, by rw [hst]; exact hz2⟩
          rw [hdict]
          apply List.mem_append_left
          rw [List.mem_filter]
          exact ⟨hz1, by simpa using hnotin z hz⟩)
        (by
          intro z hz hzS
          rw [hdict] at hz
          rcases List.mem_append.mp hz with hz | hz
          · obtain ⟨hz1, hz2⟩ := List.mem_filter.mp hz
            rw [hst]
            refine h2 z hz1 ?_
            intro hmem
            rcases List.mem_cons.mp hmem with rfl | hmem
            · simp at hz2
            · exact hzS hmem
          · exact (hnew z hz).2 _)
        (by
          intro z hz
          rw [hdict] at hz
          rcases List.mem_append.mp hz with hz | hz
          · exact h3 z (List.mem_filter.mp hz).1
          · exact (hnew z hz).1)
        hsp.tile
      rcases this with hr' | ⟨st'', hr', ha, hb, hc, hdl⟩
      · exact Or.inl hr'
      · exact Or.inr ⟨st'', hr', ha, hb, by rw [hc, hst], by omega⟩

/-- The state between two dimensions. -/
structure DInv (shape : List Nat) (inputs : List (List KeyTuple)) (d : Nat) (st : KState) : Prop where
  tile : Tile shape st.dict
  entry : ∀ x ∈ st.dict, EntryOk shape inputs st.store d x
  lists : (st.store = inputs ∧ ∃ kt, st.dict = [(kt, .caller (List.range inputs.length))]) ∨
    (st.store = inputs.map (fun _ => []) ∧ 2 ≤ st.dict.length ∧ ∀ x ∈ st.dict, ∃ l, x.2 = .own l)

theorem dim_step {d : Nat} {st : KState} (hd : d < shape.length) (hn : 0 < shape.getD d 0) (hne : inputs ≠ []) (hG : ∀ keys ∈ inputs, Grid shape keys)
    (h : DInv shape inputs d st) :
    (st.dict.foldlM (processGroup d (shape.getD d 0)) st = .error .runtime ∧ 9999 < (inputs.map List.length).sum) ∨
    ∃ st', st.dict.foldlM (processGroup d (shape.getD d 0)) st = .ok st' ∧ DInv shape inputs (d + 1) st' := by
  obtain ⟨ht, he, hl⟩ := h
  have hp : ∀ x ∈ st.dict, HasPoint shape x := fun x hx => (he x hx).point
  rcases hl with ⟨hst, kt, hdict⟩ | ⟨hst, h2, hown⟩
  · have hx : (kt, GLists.caller (List.range inputs.length)) ∈ st.dict := by rw [hdict]; simp
    have hfold : st.dict.foldlM (processGroup d (shape.getD d 0)) st =
        processGroup d (shape.getD d 0) st (kt, GLists.caller (List.range inputs.length)) := by
      conv_lhs => rw [hdict]
      rw [List.foldlM_cons]
      simp only [List.foldlM_nil]
      exact bind_pure _
    rw [hfold]
    rcases processGroup_ok hd hn hne hG hx (he _ hx) ht hp (Or.inr ⟨rfl, hst⟩) with ⟨hr, hs⟩ | ⟨hr, hE'⟩ | ⟨st', hr, hsp⟩
    · exact Or.inl ⟨hr, hs⟩
    · right
      refine ⟨st, hr, ht, ?_, Or.inl ⟨hst, kt, hdict⟩⟩
      intro x hx'
      rw [hdict, List.mem_singleton] at hx'
      rw [hx']; exact hE'
    · right
      have hlen := hsp.length (ht.nodup hp) hx
      obtain ⟨new, hd', hnl, hnew⟩ := hsp.dict
      have hnone : st.dict.filter (fun z => decide (z.1 ≠ kt)) = [] := by rw [hdict]; simp
      have hd'' : st'.dict = new := by
        rw [hd']
        show st.dict.filter (fun z => decide (z.1 ≠ kt)) ++ new = new
        rw [hnone]; rfl
      refine ⟨st', hr, hsp.tile, ?_, Or.inr ⟨hsp.caller rfl hst, by rw [hd'']; exact hnl, ?_⟩⟩
      · intro x hx'
        rw [hd''] at hx'
        exact (hnew x hx').2 _
      · intro x hx'
        rw [hd''] at hx'
        exact (hnew x hx').1
  · rcases fold_own hd hn hne hG st.dict st (ht.nodup hp) (fun x hx => ⟨hx, he x hx⟩) (fun x hx hx' => absurd hx hx') hown ht with hr | ⟨st', hr, ha, hb, hc, hdl⟩
    · exact Or.inl hr
    · exact Or.inr ⟨st', hr, hb, fun x hx => (ha x hx).2, Or.inr ⟨by rw [hc, hst], by omega, fun x hx => (ha x hx).1⟩⟩

theorem dimLoop_ok (hpos : ∀ n ∈ shape, 0 < n) (hne : inputs ≠ []) (hG : ∀ keys ∈ inputs, Grid shape keys) : ∀ (rest pre : List Nat) (st : KState),
    shape = pre ++ rest → DInv shape inputs pre.length st →
    (dimLoop pre.length rest st = .error .runtime ∧ 9999 < (inputs.map List.length).sum) ∨
    ∃ st', dimLoop pre.length rest st = .ok st' ∧ DInv shape inputs shape.length st'
  | [], pre, st, hs, h => by
    right
    refine ⟨st, rfl, ?_⟩
    rw [hs, List.append_nil] at h ⊢
    exact h
  | n :: rest, pre, st, hs, h => by
    have hd : pre.length < shape.length := by rw [hs]; simp
    have hgn : shape.getD pre.length 0 = n := by rw [hs]; simp [List.getD_eq_getElem?_getD]
    have hn : 0 < n := hpos n (by rw [hs]; simp)
    unfold dimLoop
    have hstep := dim_step hd (by rw [hgn]; exact hn) hne hG h
    rw [hgn] at hstep
    rcases hstep with ⟨hr, hs'⟩ | ⟨st', hr, h'⟩
    · left
      rw [hr]
      exact ⟨rfl, hs'⟩
    · rw [hr]
      simp only [bind, Except.bind]
      have := dimLoop_ok hpos hne hG rest (pre ++ [n]) st' (by rw [hs]; simp) (by simpa using h')
      simpa using this

theorem within_iff {kt : List SliceTuple} {vals : List (List KeyTuple)} {B : Nat → Nat × Nat} {d : Nat} (h : KG shape inputs d kt vals B)
    {keys : List KeyTuple} (hG : Grid shape keys) {key : KeyTuple} (hk : key ∈ keys) :
    Within shape key (kt.map asSlice) ↔ inB shape B key = true := by
  unfold Within inB
  rw [decide_eq_true_eq]
  constructor
  · intro hw i hi
    have := hw i hi
    rw [h.dimOf hi] at this
    exact (sub_iff (hG.proper key hk i hi)).mp this
  · intro hw i hi
    rw [h.dimOf hi]
    exact (sub_iff (hG.proper key hk i hi)).mpr (hw i hi)

/-- The dictionary at the end meets the specification. -/
theorem final_spec {st : KState} (hG : ∀ keys ∈ inputs, Grid shape keys) (h : DInv shape inputs shape.length st) :
    KeyGrouping shape inputs (st.dict.map (fun x => (x.1, x.2.vals st.store))) := by
  obtain ⟨ht, he, _⟩ := h
  have hp : ∀ x ∈ st.dict, HasPoint shape x := fun x hx => (he x hx).point
  -- a key is within the region of the group iff its first point is
  have hkey : ∀ keys ∈ inputs, ∀ key ∈ keys, ∃ pt, InShape shape pt ∧ ∀ x ∈ st.dict,
      (Within shape key (x.1.map asSlice) ↔ InKey shape (x.1.map asSlice) pt) := by
    intro keys hk key hkey
    have hpt : ∀ i, i < shape.length → ((List.range shape.length).map (fun i => (kiv shape key i).1)).getD i 0 = (kiv shape key i).1 := by
      intro i hi
      simp [List.getD_eq_getElem?_getD, hi]
    refine ⟨(List.range shape.length).map (fun i => (kiv shape key i).1), ⟨by simp, ?_⟩, ?_⟩
    · intro i hi
      rw [hpt i hi]
      have := (hG keys hk).kiv hkey hi
      omega
    · intro x hx
      obtain ⟨B, hB⟩ := he x hx
      rw [within_iff hB (hG keys hk) hkey]
      unfold inB InKey
      rw [decide_eq_true_eq]
      constructor
      · intro hw i hi
        have := hw i hi
        have hl := (hG keys hk).kiv hkey hi
        rw [hpt i hi, hB.dimOf hi, mem_posl]
        omega
      · intro hw i hi
        have := hw i hi
        rw [hpt i hi, hB.dimOf hi, mem_posl] at this
        have hl := (hG keys hk).kiv hkey hi
        have hc := hB.cross i hi keys hk key hkey
        omega
  constructor
  · intro x hx
    obtain ⟨z, hz, rfl⟩ := List.mem_map.mp hx
    obtain ⟨B, hB⟩ := he z hz
    exact hB.len
  · rw [List.map_map]
    exact ht.nodup hp
  · intro pt hpt
    rw [List.countP_map]
    exact ht pt hpt
  · intro x hx
    obtain ⟨z, hz, rfl⟩ := List.mem_map.mp hx
    obtain ⟨B, hB⟩ := he z hz
    show z.2.vals st.store = _
    rw [hB.vals]
    apply List.map_congr_left
    intro keys hk
    apply List.filter_congr
    intro key hkey
    rw [Bool.eq_iff_iff, decide_eq_true_eq]
    exact (within_iff hB (hG keys hk) hkey).symm
  · intro x hx vkeys hv pt hpt hin
    obtain ⟨z, hz, rfl⟩ := List.mem_map.mp hx
    obtain ⟨B, hB⟩ := he z hz
    simp only at hv hin
    rw [hB.vals] at hv
    obtain ⟨keys, hk, rfl⟩ := List.mem_map.mp hv
    obtain ⟨key, hkey', hin'⟩ := (hG keys hk).cover pt hpt
    refine ⟨key, List.mem_filter.mpr ⟨hkey', ?_⟩, hin'⟩
    unfold inB
    rw [decide_eq_true_eq]
    intro i hi
    have a := hin i hi
    have b := hin' i hi
    have hl := (hG keys hk).kiv hkey' hi
    rw [hB.dimOf hi, mem_posl] at a
    rw [hl.2.2.1, mem_posl] at b
    have hc := hB.cross i hi keys hk key hkey'
    omega
  · intro keys hk key hkey'
    obtain ⟨pt, hpt, hiff⟩ := hkey keys hk key hkey'
    rw [List.countP_map]
    have : st.dict.countP ((fun x : List SliceTuple × List (List KeyTuple) => decide (Within shape key (x.1.map asSlice))) ∘
        fun x => (x.1, x.2.vals st.store)) = st.dict.countP (fun x => decide (InKey shape (x.1.map asSlice) pt)) := by
      apply List.countP_congr
      intro x hx
      simp only [Function.comp_apply, decide_eq_true_eq]
      exact hiff x hx
    rw [this]
    exact ht pt hpt
  · intro x hx i hi q hq hall
    obtain ⟨z, hz, rfl⟩ := List.mem_map.mp hx
    obtain ⟨B, hB⟩ := he z hz
    simp only at hq ⊢
    rw [hB.dimOf hi] at hq ⊢
    rw [mem_posl] at hq
    rw [posl_last (hB.lt i hi).1]
    by_contra hne
    have hlt : (q + 1).toNat < (B i).2 := by
      by_contra hcon
      apply hne
      congr 1
      omega
    refine hB.fin i hi hi (q + 1).toNat (by omega) hlt ?_
    intro keys hk
    obtain ⟨key, hkey', hlast⟩ := hall keys hk
    have hl := (hG keys hk).kiv hkey' hi
    rw [hl.2.2.1, posl_last hl.1] at hlast
    have : ((kiv shape key i).2 : Int) - 1 = q := by simpa using hlast
    exact ⟨key, hkey', by omega⟩

/-- `group_keys` for separate lists. -/
theorem groupKeys_ok (hpos : ∀ n ∈ shape, 0 < n) (hne : inputs ≠ []) (hG : ∀ keys ∈ inputs, Grid shape keys) :
    (groupKeys shape inputs (List.range inputs.length) = .error .runtime ∧ 9999 < (inputs.map List.length).sum) ∨
    ∃ g store', groupKeys shape inputs (List.range inputs.length) = .ok (g, store') ∧ KeyGrouping shape inputs g ∧
      (g.length = 1 ∧ store' = inputs ∨ 2 ≤ g.length ∧ store' = inputs.map (fun _ => [])) := by
  obtain ⟨keys0, inputs', rfl⟩ := List.exists_cons_of_ne_nil hne
  have hpt0 : InShape shape (shape.map (fun _ => 0)) := by
    refine ⟨by simp, ?_⟩
    intro i hi
    have h1 : (shape.map (fun _ => 0)).getD i 0 = 0 := by simp [List.getD_eq_getElem?_getD, hi]
    have h2 : shape.getD i 0 = shape[i] := List.getD_eq_getElem _ _ hi
    rw [h1, h2]
    exact hpos _ (List.getElem_mem hi)
  obtain ⟨k0, hk0, _⟩ := (hG keys0 List.mem_cons_self).cover _ hpt0
  obtain ⟨f, fs, rfl⟩ := List.exists_cons_of_ne_nil (List.ne_nil_of_mem hk0)
  have hf := (hG (f :: fs) List.mem_cons_self).rank f List.mem_cons_self
  have hvals : (List.range ((f :: fs) :: inputs').length).map (fun r => ((f :: fs) :: inputs').getD r []) = (f :: fs) :: inputs' := by
    apply List.ext_getElem (by simp)
    intro i h1 h2
    rw [List.getElem_map, List.getElem_range, List.getD_eq_getElem _ _ h2]
  generalize hin : (f :: fs) :: inputs' = inputs at *
  have hinB : ∀ keys ∈ inputs, ∀ key ∈ keys, inB shape (fun i => (0, shape.getD i 0)) key = true := by
    intro keys hk key hkey
    unfold inB
    rw [decide_eq_true_eq]
    intro i hi
    exact ⟨by simp, ((hG keys hk).kiv hkey hi).2.1⟩
  have hKG : KG shape inputs 0 (f.map (fun _ => (none, none, none))) inputs (fun i => (0, shape.getD i 0)) := by
    constructor
    · simpa using hf
    · intro i hi
      rw [List.getElem?_map, List.getElem?_eq_getElem (by rw [hf]; exact hi)]
      simp [groupTuple]
    · intro i hi
      have h2 : shape.getD i 0 = shape[i] := List.getD_eq_getElem _ _ hi
      exact ⟨by rw [h2]; exact hpos _ (List.getElem_mem hi), le_refl _⟩
    · intro i hi keys hk key hkey
      exact Or.inr (Or.inr ⟨by simp, ((hG keys hk).kiv hkey hi).2.1⟩)
    · intro i _ _
      rfl
    · intro i _ h0
      omega
    · conv_lhs => rw [← List.map_id inputs]
      apply List.map_congr_left
      intro keys hk
      symm
      rw [id, List.filter_eq_self]
      exact hinB keys hk
  have hinit : DInv shape inputs 0 ⟨inputs, [(f.map (fun _ => (none, none, none)), .caller (List.range inputs.length))]⟩ := by
    refine ⟨?_, ?_, Or.inl ⟨rfl, _, rfl⟩⟩
    · intro pt hpt
      have hik : InKey shape ((f.map (fun _ => ((none, none, none) : SliceTuple))).map asSlice) pt := by
        intro i hi
        rw [hKG.dimOf hi, mem_posl]
        have := hpt.2 i hi
        simp only
        omega
      rw [List.countP_cons, List.countP_nil, if_pos (by rw [decide_eq_true_eq]; exact hik)]
    · intro x hx
      rw [List.mem_singleton.mp hx]
      refine ⟨fun i => (0, shape.getD i 0), ?_⟩
      show KG _ _ _ _ (List.map _ _) _
      rw [hvals]
      exact hKG
  unfold groupKeys
  have hhead : (List.range inputs.length).head? = some 0 := by rw [← hin]; simp [List.range_succ_eq_map]
  have hfirst : inputs.getD 0 [] = f :: fs := by rw [← hin]; rfl
  rw [hhead]
  simp only [hfirst, List.head?_cons]
  simp only [bind, Except.bind]
  rcases dimLoop_ok hpos hne hG shape [] _ rfl hinit with ⟨hr, hs⟩ | ⟨st', hr, h'⟩
  · left
    rw [List.length_nil] at hr
    rw [hr]
    exact ⟨rfl, hs⟩
  · right
    rw [List.length_nil] at hr
    rw [hr]
    refine ⟨_, _, rfl, final_spec hG h', ?_⟩
    rcases h'.lists with ⟨h1, kt, h2⟩ | ⟨h1, h2, _⟩
    · exact Or.inl ⟨by rw [h2]; rfl, h1⟩
    · exact Or.inr ⟨by simpa using h2, h1⟩

end

end Biggus

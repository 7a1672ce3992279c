import Verif.Proofs.GroupProd
import Verif.Model.Dask
/-
`group_keys` when all inputs are cut in the same way: all dimensions.
-/
namespace Biggus

/-- The keys of an array cut into the parts `N` (in every dimension), in any order, possibly repeated. -/
structure ProdKeys (shape : List Nat) (N : List (List PySlice)) (keys : List KeyTuple) : Prop where
  fine : ∀ k ∈ keys, List.Forall₂ (fun s n => KeyFine n s) k shape
  mem : ∀ k ∈ keys, normalizeKeys k shape ∈ cart N
  hit : ∀ κ ∈ cart N, ∃ k ∈ keys, normalizeKeys k shape = κ

/-- The parts agree with the first `d` dimensions of the key. -/
def pre (shape : List Nat) (d : Nat) (κ : KeyTuple) (k : KeyTuple) : Bool := decide ((normalizeKeys k shape).take d = κ)

theorem cart_take {β : Type} : ∀ (N : List (List β)) (d : Nat) (κ : List β), κ ∈ cart N → κ.take d ∈ cart (N.take d)
  | [], d, κ, h => by
    simp only [cart, List.mem_singleton] at h
    subst h
    simp [cart]
  | c :: N, 0, κ, _ => by simp [cart]
  | c :: N, d + 1, κ, h => by
    simp only [cart, List.mem_flatMap, List.mem_map] at h
    obtain ⟨x, hx, κ', hκ', rfl⟩ := h
    simp only [List.take_succ_cons, cart, List.mem_flatMap, List.mem_map]
    exact ⟨x, hx, _, cart_take N d κ' hκ', rfl⟩

theorem cart_nonempty {β : Type} {N : List (List β)} (h : ∀ c ∈ N, c ≠ []) : ∃ κ, κ ∈ cart N := by
  induction N with
  | nil => exact ⟨[], by simp [cart]⟩
  | cons c N ih =>
    obtain ⟨κ, hκ⟩ := ih (fun c hc => h c (List.mem_cons_of_mem _ hc))
    obtain ⟨x, xs, rfl⟩ := List.exists_cons_of_ne_nil (h c List.mem_cons_self)
    exact ⟨x :: κ, by simp [cart, hκ]⟩

/-- A choice for the first dimensions can be completed. -/
theorem cart_extend {β : Type} : ∀ (N : List (List β)) (d : Nat) (κ : List β) (s : β), (∀ c ∈ N, c ≠ []) → d < N.length → κ ∈ cart (N.take d) →
    s ∈ N.getD d [] → ∃ κ', κ' ∈ cart N ∧ κ'.take d = κ ∧ κ'[d]? = some s
  | [], d, κ, s, _, hd, _, _ => by simp at hd
  | c :: N, 0, κ, s, hne, _, hκ, hs => by
    simp only [List.take_zero, cart, List.mem_singleton] at hκ
    subst hκ
    obtain ⟨κ', hκ'⟩ := cart_nonempty (fun c hc => hne c (List.mem_cons_of_mem _ hc))
    refine ⟨s :: κ', ?_, rfl, rfl⟩
    simp only [cart, List.mem_flatMap, List.mem_map]
    exact ⟨s, by simpa using hs, κ', hκ', rfl⟩
  | c :: N, d + 1, κ, s, hne, hd, hκ, hs => by
    simp only [List.take_succ_cons, cart, List.mem_flatMap, List.mem_map] at hκ
    obtain ⟨x, hx, κ1, hκ1, rfl⟩ := hκ
    obtain ⟨κ', h1, h2, h3⟩ := cart_extend N d κ1 s (fun c hc => hne c (List.mem_cons_of_mem _ hc)) (by simpa using hd) hκ1 (by simpa using hs)
    refine ⟨x :: κ', ?_, by simp [h2], by simpa using h3⟩
    simp only [cart, List.mem_flatMap, List.mem_map]
    exact ⟨x, hx, κ', h1, rfl⟩

theorem cart_length {β : Type} : ∀ {N : List (List β)} {κ : List β}, κ ∈ cart N → κ.length = N.length
  | [], κ, h => by
    simp only [cart, List.mem_singleton] at h
    subst h; rfl
  | c :: N, κ, h => by
    simp only [cart, List.mem_flatMap, List.mem_map] at h
    obtain ⟨x, hx, κ', hκ', rfl⟩ := h
    simp [cart_length hκ']

theorem cart_take_succ {β : Type} (N : List (List β)) (d : Nat) (hd : d < N.length) :
    cart (N.take (d + 1)) = (cart (N.take d)).flatMap (fun κ => (N.getD d []).map (fun s => κ ++ [s])) := by
  have : N.take (d + 1) = N.take d ++ [N.getD d []] := by
    rw [List.take_succ, List.getD_eq_getElem?_getD, List.getElem?_eq_getElem hd]; simp
  rw [this]
  generalize N.take d = M
  generalize N.getD d [] = c
  induction M with
  | nil =>
    simp only [List.nil_append, cart, List.map_cons, List.map_nil, List.flatMap_cons, List.flatMap_nil, List.append_nil]
    induction c with
    | nil => rfl
    | cons x c ih => simp only [List.flatMap_cons, ih, List.map_cons]; rfl
  | cons c' M ih =>
    simp only [List.cons_append, cart, ih, List.flatMap_assoc, List.map_flatMap, List.flatMap_map]
    simp [Function.comp_def]

/-- The tuple of a group after `d` dimensions. -/
def padT (len d : Nat) (κ : KeyTuple) : List SliceTuple := κ.map tup ++ List.replicate (len - d) (none, none, none)

theorem tup_inj {a b : PySlice} (h : tup a = tup b) : a = b := by
  have := congrArg asSlice h
  simpa using this

theorem padT_inj {len d : Nat} {κ κ' : KeyTuple} (h : padT len d κ = padT len d κ') : κ = κ' := by
  unfold padT at h
  have := List.append_cancel_right h
  exact List.map_injective_iff.mpr (fun _ _ => tup_inj) this

theorem padT_set {len d : Nat} {κ : KeyTuple} (hκ : κ.length = d) (hd : d < len) (s : PySlice) :
    (padT len d κ).set d (tup s) = padT len (d + 1) (κ ++ [s]) := by
  unfold padT
  rw [List.set_append_right _ _ (by simp [hκ])]
  have : len - d = (len - (d + 1)) + 1 := by omega
  rw [this, List.replicate_succ]
  simp [hκ]

theorem padT_full {len d : Nat} {κ : KeyTuple} (hd : d < len) :
    padT len d κ = padT len (d + 1) (κ ++ [PySlice.full]) := by
  unfold padT
  have : len - d = (len - (d + 1)) + 1 := by omega
  rw [this, List.replicate_succ]
  simp [tup, PySlice.full]

section
variable {shape : List Nat} {inputs : List (List KeyTuple)} {N : List (List PySlice)}

/-- What the loop is about. -/
structure ProdCase (shape : List Nat) (inputs : List (List KeyTuple)) (N : List (List PySlice)) : Prop where
  dims : List.Forall₂ DimSpec shape N
  ne : inputs ≠ []
  keys : ∀ l ∈ inputs, ProdKeys shape N l
  few : ∀ l ∈ N, l.length ≤ 9999

/-- The groups after `d` dimensions. -/
structure ProdState (shape : List Nat) (inputs : List (List KeyTuple)) (N : List (List PySlice)) (d : Nat) (st : KState) : Prop where
  groups : List.Forall₂ (fun x κ => x.1 = padT shape.length d κ ∧ x.2.vals st.store = inputs.map (fun l => l.filter (pre shape d κ)))
    st.dict (cart (N.take d))
  lists : (st.store = inputs ∧ ∃ kt, st.dict = [(kt, .caller (List.range inputs.length))]) ∨ ∀ x ∈ st.dict, ∃ l, x.2 = .own l

theorem DimSpec.nodup {n : Nat} {N : List PySlice} (h : DimSpec n N) : N.Nodup ∧ N ≠ [] := by
  rcases Nat.eq_zero_or_pos n with rfl | hn
  · rw [h.zero rfl]; simp
  · obtain ⟨I, hI, rfl⟩ := h.pos hn
    constructor
    · apply List.Nodup.map
      · intro x y hxy; exact nslice_inj hxy
      · have : ∀ (I : List (Nat × Nat)) (p : Nat), Contig n p I → I.Nodup := by
          intro I
          induction I with
          | nil => intro _ _; exact List.nodup_nil
          | cons x I ih =>
            rintro p ⟨i1, i2, i3, i4⟩
            rw [List.nodup_cons]
            refine ⟨?_, ih _ i4⟩
            intro hmem
            have := i4.mem x hmem
            omega
        exact this I 0 hI
    · intro he
      have : I = [] := by simpa using he
      subst this
      have : 0 = n := hI
      omega

theorem normalizeKeys_getElem {k : KeyTuple} {d : Nat} (hd : d < shape.length) (hk : k.length = shape.length) :
    (normalizeKeys k shape)[d]? = some (normalizeSlice (dimOf k d) (shape.getD d 0)) := by
  unfold normalizeKeys dimOf
  rw [List.getElem?_zipWith, List.getElem?_eq_getElem (by omega), List.getElem?_eq_getElem hd]
  simp [List.getD_eq_getElem?_getD, hd, hk]

theorem pre_succ {k : KeyTuple} {d : Nat} (hd : d < shape.length) (hk : k.length = shape.length) (κ : KeyTuple) (s : PySlice) (hκ : κ.length = d) :
    pre shape (d + 1) (κ ++ [s]) k = (pre shape d κ k && decide (normalizeSlice (dimOf k d) (shape.getD d 0) = s)) := by
  unfold pre
  rw [List.take_succ, normalizeKeys_getElem hd hk]
  rw [Bool.eq_iff_iff]
  simp only [Option.toList_some, Bool.and_eq_true]
  constructor
  · intro h
    have h := of_decide_eq_true h
    have hl : ((normalizeKeys k shape).take d).length = κ.length := by
      have := congrArg List.length h
      simpa using this
    have := List.append_inj h hl
    exact ⟨decide_eq_true this.1, decide_eq_true (by simpa using this.2)⟩
  · rintro ⟨h1, h2⟩
    have h1 := of_decide_eq_true h1
    have h2 := of_decide_eq_true h2
    exact decide_eq_true (by rw [h1, h2])

/-- What is grouped in dimension `d` of one group. -/
theorem ProdCase.dim (h : ProdCase shape inputs N) {d : Nat} (hd : d < shape.length) {κ : KeyTuple} (hκ : κ ∈ cart (N.take d)) :
    ∃ S : PySlice → List PySlice → List PySlice,
      keysForDim d (inputs.map (fun l => l.filter (pre shape d κ))) =
        .ok (inputs.map (fun l => (l.filter (pre shape d κ)).map (fun k => dimOf k d))) ∧
      dimensionGroup (shape.getD d 0) (inputs.map (fun l => (l.filter (pre shape d κ)).map (fun k => dimOf k d))) =
        .ok ((N.getD d []).map (fun s => (tup s, inputs.map (fun l => S s ((l.filter (pre shape d κ)).map (fun k => dimOf k d)))))) ∧
      ∀ s ∈ N.getD d [], ∀ l ∈ inputs, ∀ s', s' ∈ S s ((l.filter (pre shape d κ)).map (fun k => dimOf k d)) ↔ s' = s := by
  have hlen := h.dims.length_eq
  have hsp := forall₂_getD h.dims d (by omega) 0 []
  have hNne : ∀ c ∈ N, c ≠ [] := by
    intro c hc
    obtain ⟨i, hi, rfl⟩ := List.getElem_of_mem hc
    have := (forall₂_getD h.dims i (by omega) 0 []).nodup.2
    rwa [List.getD_eq_getElem _ _ hi] at this
  have hrank : ∀ l ∈ inputs, ∀ k ∈ l, k.length = shape.length := fun l hl k hk => ((h.keys l hl).fine k hk).length_eq
  have hk1 : keysForDim d (inputs.map (fun l => l.filter (pre shape d κ))) =
      .ok (inputs.map (fun l => (l.filter (pre shape d κ)).map (fun k => dimOf k d))) := by
    rw [keysForDim_ok, List.map_map]
    · rfl
    · intro l hl k hk
      obtain ⟨l', hl', rfl⟩ := List.mem_map.mp hl
      rw [hrank l' hl' k (List.mem_filter.mp hk).1]
      exact hd
  obtain ⟨S, hS1, hS2⟩ := dimensionGroup_prod (inputs := inputs.map (fun l => (l.filter (pre shape d κ)).map (fun k => dimOf k d))) hsp
    (by simpa using h.ne)
    (by
      intro l hl k hk
      obtain ⟨l', hl', rfl⟩ := List.mem_map.mp hl
      obtain ⟨k', hk', rfl⟩ := List.mem_map.mp hk
      have hk'' := (List.mem_filter.mp hk').1
      refine ⟨forall₂_getD ((h.keys l' hl').fine k' hk'') d (by rw [hrank l' hl' k' hk'']; exact hd) PySlice.full 0, ?_⟩
      have hm := (h.keys l' hl').mem k' hk''
      have := ((mem_cart PySlice.full N _).mp hm).2 d (by omega)
      have hg : (normalizeKeys k' shape).getD d PySlice.full = normalizeSlice (dimOf k' d) (shape.getD d 0) := by
        rw [List.getD_eq_getElem?_getD, normalizeKeys_getElem hd (hrank l' hl' k' hk'')]; rfl
      rwa [hg] at this)
    (by
      intro l hl s hs
      obtain ⟨l', hl', rfl⟩ := List.mem_map.mp hl
      obtain ⟨κ', h1, h2, h3⟩ := cart_extend N d κ s hNne (by omega) hκ hs
      obtain ⟨k, hk, rfl⟩ := (h.keys l' hl').hit κ' h1
      refine ⟨dimOf k d, List.mem_map_of_mem (List.mem_filter.mpr ⟨hk, by unfold pre; rw [h2]; simp⟩), ?_⟩
      rw [normalizeKeys_getElem hd (hrank l' hl' k hk)] at h3
      simpa using h3)
    (by
      rcases Nat.lt_or_ge d N.length with hd' | hd'
      · rw [List.getD_eq_getElem _ _ hd']; exact h.few _ (List.getElem_mem hd')
      · simp [List.getD_eq_getElem?_getD, List.getElem?_eq_none hd'])
  refine ⟨S, hk1, ?_, ?_⟩
  · rw [hS1]
    simp [List.map_map, Function.comp_def]
  · intro s hs l hl s'
    exact hS2 s hs _ (List.mem_map_of_mem hl) s'

/-- One group, nothing to split. -/
theorem process_one (h : ProdCase shape inputs N) {d : Nat} (hd : d < shape.length) (h1 : (N.getD d []).length = 1) {st : KState}
    {x : List SliceTuple × GLists} {κ : KeyTuple} (hκ : κ ∈ cart (N.take d)) (hv : x.2.vals st.store = inputs.map (fun l => l.filter (pre shape d κ))) :
    processGroup d (shape.getD d 0) st x = .ok st := by
  obtain ⟨S, e1, e2, _⟩ := h.dim hd hκ
  unfold processGroup
  rw [hv, e1]
  simp only [bind, Except.bind, e2]
  rw [if_pos (by rw [List.length_map]; exact h1)]
  rfl

/-- The groups that a group is split into. -/
def newGroups (shape : List Nat) (inputs : List (List KeyTuple)) (N : List (List PySlice)) (d : Nat) (κ : KeyTuple) : GDict :=
  (N.getD d []).map (fun s => (padT shape.length (d + 1) (κ ++ [s]), .own (inputs.map (fun l => l.filter (pre shape (d + 1) (κ ++ [s]))))))

/-- One group that is split. -/
theorem process_many (h : ProdCase shape inputs N) {d : Nat} (hd : d < shape.length) (h2 : 2 ≤ (N.getD d []).length) {st : KState}
    {x : List SliceTuple × GLists} {κ : KeyTuple} (hκ : κ ∈ cart (N.take d)) (hx : x.1 = padT shape.length d κ)
    (hv : x.2.vals st.store = inputs.map (fun l => l.filter (pre shape d κ)))
    (hl : (∃ l, x.2 = .own l) ∨ x.2 = .caller (List.range inputs.length) ∧ st.store = inputs)
    (hnd : ((st.dict.filter (fun z => decide (z.1 ≠ x.1))).map Prod.fst ++ (newGroups shape inputs N d κ).map Prod.fst).Nodup) :
    ∃ store', processGroup d (shape.getD d 0) st x =
      .ok ⟨store', st.dict.filter (fun z => decide (z.1 ≠ x.1)) ++ newGroups shape inputs N d κ⟩ ∧ ((∃ l, x.2 = .own l) → store' = st.store) := by
  obtain ⟨S, e1, e2, e3⟩ := h.dim hd hκ
  have hκl : κ.length = d := by
    rw [cart_length hκ, List.length_take]
    have := h.dims.length_eq
    omega
  have hrank : ∀ l ∈ inputs, ∀ k ∈ l, k.length = shape.length := fun l hl k hk => ((h.keys l hl).fine k hk).length_eq
  have hNnd := (forall₂_getD h.dims d (by have := h.dims.length_eq; omega) 0 []).nodup.1
  unfold processGroup
  rw [hv, e1]
  simp only [bind, Except.bind, e2]
  rw [if_neg (by simp only [List.length_map]; omega)]
  have hsplit := splitGroup_eq (dim := d) (n := shape.getD d 0) (key := x.1) (J := inputs) (F0 := fun l => l.filter (pre shape d κ))
    (fun y k => decide (normalizeSlice (dimOf k d) (shape.getD d 0) = asSlice y.1))
    ((N.getD d []).map (fun s => (tup s, inputs.map (fun l => S s ((l.filter (pre shape d κ)).map (fun k => dimOf k d))))))
    (fun _ => true) (st.dict.filter (fun z => decide (z.1 ≠ x.1)))
    (by
      intro y hy
      obtain ⟨s, hs, rfl⟩ := List.mem_map.mp hy
      refine ⟨fun l => S s ((l.filter (pre shape d κ)).map (fun k => dimOf k d)), rfl, ?_⟩
      intro l hl k hk
      unfold inSub
      rw [Bool.eq_iff_iff, decide_eq_true_eq, decide_eq_true_eq, e3 s hs l hl]
      simp)
    (by
      rw [List.pairwise_map]
      refine hNnd.imp ?_
      intro s s' hne l _ k _ ⟨q1, q2⟩
      exact hne ((of_decide_eq_true q1).symm.trans (of_decide_eq_true q2)))
    (fun _ _ _ _ _ _ _ => rfl)
  simp only [List.filter_true, Bool.true_and] at hsplit
  have hnew : (N.getD d []).map (fun s => (x.1.set d (tup s), GLists.own (inputs.map (fun l => (l.filter (pre shape d κ)).filter
      (fun k => decide (normalizeSlice (dimOf k d) (shape.getD d 0) = s)))))) = newGroups shape inputs N d κ := by
    unfold newGroups
    apply List.map_congr_left
    intro s hs
    rw [hx, padT_set hκl hd]
    congr 2
    apply List.map_congr_left
    intro l hl
    rw [List.filter_filter]
    apply List.filter_congr
    intro k hk
    rw [pre_succ hd (hrank l hl k hk) κ s hκl, Bool.and_comm]
  rw [List.foldl_map, dictSet_fold (fun s => x.1.set d (tup s)) (fun s => GLists.own (inputs.map (fun l => (l.filter (pre shape d κ)).filter
      (fun k => decide (normalizeSlice (dimOf k d) (shape.getD d 0) = asSlice (tup s))))))
      (N.getD d []) _ (by
        have : (newGroups shape inputs N d κ).map Prod.fst = (N.getD d []).map (fun s => x.1.set d (tup s)) := by
          rw [← hnew, List.map_map]
          rfl
        rw [this] at hnd
        exact hnd)] at hsplit
  have hsnd := congrArg Prod.snd hsplit
  have hfin : ∀ (r : List (List KeyTuple) × GDict) (d' : GDict), r.2 = d' ++ (N.getD d []).map (fun s => (x.1.set d (tup s), GLists.own (inputs.map (fun l => (l.filter (pre shape d κ)).filter
      (fun k => decide (normalizeSlice (dimOf k d) (shape.getD d 0) = asSlice (tup s))))))) → r.2 = d' ++ newGroups shape inputs N d κ := by
    intro r d' hr
    rw [hr, ← hnew]
    congr 1
  have hsnd := hfin _ _ hsnd
  clear hsplit hfin
  rcases hl with ⟨l, hl⟩ | ⟨hcal, hst⟩
  · refine ⟨st.store, ?_, fun _ => rfl⟩
    rw [hl] at hv
    have hv' : l = inputs.map (fun l => l.filter (pre shape d κ)) := hv
    have hll : l.length = inputs.length := by rw [hv']; simp
    rw [hl]
    simp only [hll]
    rw [hv', hsnd]
    rfl
  · rw [hcal, hst] at hv
    have hv' : inputs = inputs.map (fun l => l.filter (pre shape d κ)) := by
      unfold GLists.vals at hv
      simp only at hv
      rw [← hv]
      apply List.ext_getElem (by simp)
      intro i h1 h2
      simp [List.getD_eq_getElem?_getD, h1]
    rw [hcal, hst]
    simp only
    rw [← hv'] at hsnd
    rw [hsnd]
    refine ⟨_, rfl, ?_⟩
    rintro ⟨l, hl⟩
    cases hl


/-- A part of a dimension with several parts is not the whole dimension. -/
theorem DimSpec.ne_full {n : Nat} {N : List PySlice} (h : DimSpec n N) (h2 : 2 ≤ N.length) : ∀ s ∈ N, s ≠ PySlice.full := by
  rcases Nat.eq_zero_or_pos n with rfl | hn
  · rw [h.zero rfl] at h2; simp at h2
  · obtain ⟨I, hI, rfl⟩ := h.pos hn
    intro s hs
    obtain ⟨x, hx, rfl⟩ := List.mem_map.mp hs
    intro he
    have hf : PySlice.full = nslice n (0, n) := by simp [nslice, PySlice.full]
    rw [hf] at he
    have := nslice_inj he
    subst this
    match I, hI, h2 with
    | [], _, h2 => simp at h2
    | [_], _, h2 => simp at h2
    | y :: z :: I, ⟨a1, a2, a3, b1, b2, b3, b4⟩, _ =>
      rcases List.mem_cons.mp hx with rfl | hx
      · simp at *; omega
      · rcases List.mem_cons.mp hx with rfl | hx
        · simp at *; omega
        · have := b4.mem _ hx
          simp at *; omega

/-- Splitting all groups. -/
theorem fold_many (h : ProdCase shape inputs N) {d : Nat} (hd : d < shape.length) (h2 : 2 ≤ (N.getD d []).length) :
    ∀ (items : GDict) (C : List KeyTuple) (store : List (List KeyTuple)) (new : GDict),
    List.Forall₂ (fun x κ => κ ∈ cart (N.take d) ∧ x.1 = padT shape.length d κ ∧ x.2 = .own (inputs.map (fun l => l.filter (pre shape d κ)))) items C →
    (items.map Prod.fst ++ (new.map Prod.fst ++ (C.flatMap (newGroups shape inputs N d)).map Prod.fst)).Nodup →
    items.foldlM (processGroup d (shape.getD d 0)) ⟨store, items ++ new⟩ = .ok ⟨store, new ++ C.flatMap (newGroups shape inputs N d)⟩
  | [], [], store, new, _, _ => by simp [pure, Except.pure]
  | x :: items, κ :: C, store, new, .cons ⟨a1, a2, a3⟩ hr, hnd => by
    have hf : (x :: items ++ new).filter (fun z => decide (z.1 ≠ x.1)) = items ++ new := by
      rw [List.cons_append, List.filter_cons, if_neg (by simp)]
      apply List.filter_eq_self.mpr
      intro z hz
      apply decide_eq_true
      intro he
      rw [List.map_cons, List.cons_append, List.nodup_cons] at hnd
      apply hnd.1
      rw [← he]
      rcases List.mem_append.mp hz with hz | hz
      · exact List.mem_append_left _ (List.mem_map_of_mem hz)
      · exact List.mem_append_right _ (List.mem_append_left _ (List.mem_map_of_mem hz))
    rw [List.flatMap_cons, List.map_append, List.map_cons, List.cons_append, List.nodup_cons] at hnd
    obtain ⟨st', e1, e2⟩ := process_many h hd h2 (st := ⟨store, x :: items ++ new⟩) (x := x) a1 a2 (by rw [a3]; rfl) (.inl ⟨_, a3⟩) (by
      simp only [hf]
      have := hnd.2
      rw [← List.append_assoc, ← List.append_assoc] at this
      rw [List.map_append]
      exact (List.nodup_append.mp this).1)
    have e2 := e2 ⟨_, a3⟩
    simp only [hf] at e1
    rw [List.foldlM_cons, e1, e2]
    simp only [bind, Except.bind]
    rw [List.append_assoc]
    rw [fold_many h hd h2 items C store (new ++ newGroups shape inputs N d κ) hr (by
      have := hnd.2
      simpa [List.append_assoc, List.map_append] using this)]
    simp [List.append_assoc]

/-- One dimension. -/
theorem fold_dim (h : ProdCase shape inputs N) {d : Nat} (hd : d < shape.length) {st : KState} (hst : ProdState shape inputs N d st) :
    ∃ st', st.dict.foldlM (processGroup d (shape.getD d 0)) st = .ok st' ∧ ProdState shape inputs N (d + 1) st' := by
  have hlen := h.dims.length_eq
  have hsp := forall₂_getD h.dims d (by omega) 0 []
  have hrank : ∀ l ∈ inputs, ∀ k ∈ l, k.length = shape.length := fun l hl k hk => ((h.keys l hl).fine k hk).length_eq
  have hκl : ∀ κ ∈ cart (N.take d), κ.length = d := by
    intro κ hκ
    rw [cart_length hκ, List.length_take]
    omega
  have hnnd : ∀ c ∈ N, c.Nodup := by
    intro c hc
    obtain ⟨i, hi, rfl⟩ := List.getElem_of_mem hc
    have := (forall₂_getD h.dims i (by omega) 0 []).nodup.1
    rwa [List.getD_eq_getElem _ _ hi] at this
  rcases Nat.lt_or_ge (N.getD d []).length 2 with h1 | h2
  · have h1 : (N.getD d []).length = 1 := by
      have := hsp.nodup.2
      have := List.length_pos_iff.mpr this
      omega
    have hfull : N.getD d [] = [PySlice.full] := by
      rcases Nat.eq_zero_or_pos (shape.getD d 0) with h0 | h0
      · exact hsp.zero h0
      · obtain ⟨I, hI, he⟩ := hsp.pos h0
        rw [he] at h1 ⊢
        match I, hI, h1 with
        | [], _, h1 => simp at h1
        | [y], ⟨a1, a2, a3, a4⟩, _ =>
          have a4 : y.2 = _ := a4
          simp [nslice, PySlice.full, a1, a4]
        | _ :: _ :: _, _, h1 => simp at h1
    refine ⟨st, ?_, ?_⟩
    · have : ∀ (l : GDict) (C : List KeyTuple), List.Forall₂ (fun x κ => x.1 = padT shape.length d κ ∧ x.2.vals st.store =
          inputs.map (fun l => l.filter (pre shape d κ))) l C → (∀ κ ∈ C, κ ∈ cart (N.take d)) →
          l.foldlM (processGroup d (shape.getD d 0)) st = .ok st := by
        intro l C hl
        induction hl with
        | nil => intro _; rfl
        | cons hx _ ih =>
          intro hC
          rw [List.foldlM_cons, process_one h hd h1 (hC _ List.mem_cons_self) hx.2]
          exact ih (fun κ hκ => hC κ (List.mem_cons_of_mem _ hκ))
      exact this _ _ hst.groups (fun _ h => h)
    · refine ⟨?_, hst.lists⟩
      rw [cart_take_succ N d (by omega), hfull]
      have : (cart (N.take d)).flatMap (fun κ => [PySlice.full].map (fun s => κ ++ [s])) = (cart (N.take d)).map (fun κ => κ ++ [PySlice.full]) := by
        generalize cart (N.take d) = C
        induction C with
        | nil => rfl
        | cons x C ih => rw [List.flatMap_cons, ih]; rfl
      rw [this, List.forall₂_map_right_iff]
      have hg : ∀ (l : GDict) (C : List KeyTuple), List.Forall₂ (fun x κ => x.1 = padT shape.length d κ ∧ x.2.vals st.store =
          inputs.map (fun l => l.filter (pre shape d κ))) l C → (∀ κ ∈ C, κ ∈ cart (N.take d)) →
          List.Forall₂ (fun x κ => x.1 = padT shape.length (d + 1) (κ ++ [PySlice.full]) ∧ x.2.vals st.store =
          inputs.map (fun l => l.filter (pre shape (d + 1) (κ ++ [PySlice.full])))) l C := by
        intro l C hl
        induction hl with
        | nil => intro _; exact .nil
        | @cons x κ _ _ hx _ ih =>
          intro hC
          refine .cons ⟨?_, ?_⟩ (ih (fun κ hκ => hC κ (List.mem_cons_of_mem _ hκ)))
          · rw [hx.1, padT_full hd]
          · rw [hx.2]
            apply List.map_congr_left
            intro l hl
            apply List.filter_congr
            intro k hk
            rw [pre_succ hd (hrank l hl k hk) κ _ (hκl _ (hC _ List.mem_cons_self))]
            have hm := (h.keys l hl).mem k hk
            have hm := ((mem_cart PySlice.full N _).mp hm).2 d (by omega)
            have hg : (normalizeKeys k shape).getD d PySlice.full = normalizeSlice (dimOf k d) (shape.getD d 0) := by
              rw [List.getD_eq_getElem?_getD, normalizeKeys_getElem hd (hrank l hl k hk)]; rfl
            rw [hg, hfull, List.mem_singleton] at hm
            rw [decide_eq_true hm, Bool.and_true]
      exact hg _ _ hst.groups (fun _ h => h)
  · have hnew : ∀ (C : List KeyTuple), (C.flatMap (newGroups shape inputs N d)).map Prod.fst =
        (C.flatMap (fun κ => (N.getD d []).map (fun s => κ ++ [s]))).map (padT shape.length (d + 1)) := by
      intro C
      rw [List.map_flatMap, List.map_flatMap]
      unfold newGroups
      simp [List.map_map, Function.comp_def]
    have hnewnd : (((cart (N.take d)).flatMap (newGroups shape inputs N d)).map Prod.fst).Nodup := by
      rw [hnew, ← cart_take_succ N d (by omega)]
      apply List.Nodup.map
      · intro a b hab; exact padT_inj hab
      · exact nodup_cart _ (fun c hc => hnnd c (List.mem_of_mem_take hc))
    have hsub : ∀ (store' : List (List KeyTuple)), List.Forall₂ (fun x κ => x.1 = padT shape.length (d + 1) κ ∧ x.2.vals store' =
        inputs.map (fun l => l.filter (pre shape (d + 1) κ))) ((cart (N.take d)).flatMap (newGroups shape inputs N d)) (cart (N.take (d + 1))) := by
      intro store'
      rw [cart_take_succ N d (by omega)]
      generalize cart (N.take d) = C
      induction C with
      | nil => exact .nil
      | cons κ C ih =>
        rw [List.flatMap_cons, List.flatMap_cons]
        refine List.rel_append ?_ ih
        unfold newGroups
        rw [List.forall₂_map_left_iff, List.forall₂_map_right_iff]
        exact List.forall₂_same.mpr (fun s _ => ⟨rfl, rfl⟩)
    have hown : ∀ x ∈ (cart (N.take d)).flatMap (newGroups shape inputs N d), ∃ l, x.2 = .own l := by
      intro x hx
      obtain ⟨κ, _, hx⟩ := List.mem_flatMap.mp hx
      obtain ⟨s, _, rfl⟩ := List.mem_map.mp hx
      exact ⟨_, rfl⟩
    rcases hst.lists with ⟨hs, kt, hdict⟩ | hl
    · have hg := hst.groups
      rw [hdict] at hg
      generalize hC : cart (N.take d) = C at hg
      cases hg with
      | cons hx ht =>
        rename_i κ C'
        cases ht
        have hκ : κ ∈ cart (N.take d) := by rw [hC]; simp
        have hf : st.dict.filter (fun z => decide (z.1 ≠ kt)) = [] := by rw [hdict]; simp
        obtain ⟨st', e1, _⟩ := process_many h hd h2 (st := st) hκ hx.1 hx.2 (.inr ⟨rfl, hs⟩) (by
          simp only [hf]
          have := hnewnd
          rw [hC] at this
          simpa using this)
        simp only [hf, List.nil_append] at e1
        refine ⟨⟨st', newGroups shape inputs N d κ⟩, ?_, ?_, .inr ?_⟩
        · rw [hdict, List.foldlM_cons, e1]
          rfl
        · have := hsub st'
          rw [hC] at this
          simpa using this
        · rw [hC] at hown
          simpa using hown
    · have hitems : ∀ (l : GDict) (C : List KeyTuple), List.Forall₂ (fun x κ => x.1 = padT shape.length d κ ∧ x.2.vals st.store =
          inputs.map (fun l => l.filter (pre shape d κ))) l C → (∀ κ ∈ C, κ ∈ cart (N.take d)) → (∀ x ∈ l, ∃ l', x.2 = .own l') →
          List.Forall₂ (fun x κ => κ ∈ cart (N.take d) ∧ x.1 = padT shape.length d κ ∧ x.2 = .own (inputs.map (fun l => l.filter (pre shape d κ)))) l C := by
        intro l C hl
        induction hl with
        | nil => intro _ _; exact .nil
        | @cons x κ _ _ hx _ ih =>
          intro hC ho
          refine .cons ⟨hC _ List.mem_cons_self, hx.1, ?_⟩ (ih (fun κ hκ => hC κ (List.mem_cons_of_mem _ hκ)) (fun x hx => ho x (List.mem_cons_of_mem _ hx)))
          obtain ⟨l', hl'⟩ := ho x List.mem_cons_self
          have hx2 := hx.2
          rw [hl'] at hx2 ⊢
          have hx2 : l' = _ := hx2
          rw [hx2]
      have hit := hitems _ _ hst.groups (fun _ h => h) hl
      have hkeys : st.dict.map Prod.fst = (cart (N.take d)).map (padT shape.length d) := by
        have : ∀ (l : GDict) (C : List KeyTuple), List.Forall₂ (fun x κ => κ ∈ cart (N.take d) ∧ x.1 = padT shape.length d κ ∧
            x.2 = .own (inputs.map (fun l => l.filter (pre shape d κ)))) l C → l.map Prod.fst = C.map (padT shape.length d) := by
          intro l C hl
          induction hl with
          | nil => rfl
          | cons hx _ ih => rw [List.map_cons, List.map_cons, ih, hx.2.1]
        exact this _ _ hit
      have hfold := fold_many h hd h2 st.dict (cart (N.take d)) st.store [] hit (by
        rw [List.map_nil, List.nil_append, List.nodup_append]
        refine ⟨?_, hnewnd, ?_⟩
        · rw [hkeys]
          apply List.Nodup.map
          · intro a b hab; exact padT_inj hab
          · exact nodup_cart _ (fun c hc => hnnd c (List.mem_of_mem_take hc))
        · intro a ha b hb hab
          subst hab
          rw [hkeys] at ha
          rw [hnew] at hb
          obtain ⟨κ, hκ, rfl⟩ := List.mem_map.mp ha
          obtain ⟨κ', hκ', he⟩ := List.mem_map.mp hb
          obtain ⟨κ'', hκ'', hκ'⟩ := List.mem_flatMap.mp hκ'
          obtain ⟨s, hs, rfl⟩ := List.mem_map.mp hκ'
          rw [padT_full hd] at he
          have he := padT_inj he
          have := (List.append_inj' he rfl).2
          exact hsp.ne_full h2 s hs (by simpa using this))
      rw [List.append_nil, List.nil_append] at hfold
      exact ⟨_, hfold, hsub _, .inr hown⟩

/-- All dimensions. -/
theorem dimLoop_prod (h : ProdCase shape inputs N) : ∀ (rest : List Nat) (d : Nat) (st : KState), shape.drop d = rest →
    ProdState shape inputs N d st → ∃ st', dimLoop d rest st = .ok st' ∧ ProdState shape inputs N shape.length st'
  | [], d, st, hr, hst => by
    refine ⟨st, rfl, ?_⟩
    have hd : shape.length ≤ d := List.drop_eq_nil_iff.mp hr
    have hlen := h.dims.length_eq
    have e1 : N.take d = N.take shape.length := by rw [List.take_of_length_le (by omega), List.take_of_length_le (by omega)]
    have hp : ∀ κ, padT shape.length d κ = padT shape.length shape.length κ := by
      intro κ; unfold padT; rw [Nat.sub_eq_zero_of_le hd, Nat.sub_self]
    have hpre : ∀ κ, pre shape d κ = pre shape shape.length κ := by
      intro κ; funext k; unfold pre
      have : (normalizeKeys k shape).length ≤ shape.length := by unfold normalizeKeys; rw [List.length_zipWith]; omega
      rw [List.take_of_length_le (by omega), List.take_of_length_le this]
    have := hst.groups
    rw [e1] at this
    simp only [hp, hpre] at this
    exact ⟨this, hst.lists⟩
  | n :: rest, d, st, hr, hst => by
    have hd : d < shape.length := by
      rcases Nat.lt_or_ge d shape.length with h | h
      · exact h
      · rw [List.drop_eq_nil_of_le h] at hr; cases hr
    have hn : n = shape.getD d 0 := by
      rw [List.drop_eq_getElem_cons hd] at hr
      rw [List.getD_eq_getElem _ _ hd]
      exact (List.cons.inj hr).1.symm
    have hr' : shape.drop (d + 1) = rest := by
      rw [List.drop_eq_getElem_cons hd] at hr
      exact (List.cons.inj hr).2
    obtain ⟨st1, e1, h1⟩ := fold_dim h hd hst
    obtain ⟨st2, e2, h2⟩ := dimLoop_prod h rest (d + 1) st1 hr' h1
    refine ⟨st2, ?_, h2⟩
    unfold dimLoop
    rw [hn, e1]
    exact e2

/-- `group_keys` for inputs that are all cut into the parts `N`: one group for every part, in lexicographic order. -/
theorem groupKeys_prod (h : ProdCase shape inputs N) :
    ∃ g, groupKeys shape inputs (List.range inputs.length) = .ok g ∧
      g.1 = (cart N).map (fun κ => (κ.map tup, inputs.map (fun l => l.filter (fun k => decide (normalizeKeys k shape = κ))))) := by
  have hlen := h.dims.length_eq
  obtain ⟨l0, ls, hin⟩ := List.exists_cons_of_ne_nil h.ne
  have hNne : ∀ c ∈ N, c ≠ [] := by
    intro c hc
    obtain ⟨i, hi, rfl⟩ := List.getElem_of_mem hc
    have := (forall₂_getD h.dims i (by omega) 0 []).nodup.2
    rwa [List.getD_eq_getElem _ _ hi] at this
  obtain ⟨κ0, hκ0⟩ := cart_nonempty hNne
  obtain ⟨k0, hk0, _⟩ := (h.keys l0 (by rw [hin]; simp)).hit κ0 hκ0
  obtain ⟨k1, l0', hl0⟩ := List.exists_cons_of_ne_nil (List.ne_nil_of_mem hk0)
  have hk1 : k1.length = shape.length := ((h.keys l0 (by rw [hin]; simp)).fine k1 (by rw [hl0]; simp)).length_eq
  have hvals : (GLists.caller (List.range inputs.length)).vals inputs = inputs := by
    unfold GLists.vals
    simp only
    apply List.ext_getElem (by simp)
    intro i h1 h2
    simp [List.getD_eq_getElem?_getD, h2]
  have hinit : ProdState shape inputs N 0 ⟨inputs, [(k1.map (fun _ => (none, none, none)), .caller (List.range inputs.length))]⟩ := by
    refine ⟨?_, .inl ⟨rfl, _, rfl⟩⟩
    refine .cons ⟨?_, ?_⟩ .nil
    · unfold padT
      rw [List.map_const', hk1]
      simp
    · rw [hvals]
      conv_lhs => rw [← List.map_id inputs]
      apply List.map_congr_left
      intro l _
      exact (List.filter_eq_self.mpr (fun k _ => decide_eq_true (List.take_zero))).symm
  obtain ⟨st', e1, h1⟩ := dimLoop_prod h shape 0 _ rfl hinit
  refine ⟨(st'.dict.map (fun x => (x.1, x.2.vals st'.store)), st'.store), ?_, ?_⟩
  · unfold groupKeys
    have hh : (List.range inputs.length).head? = some 0 := by rw [hin]; simp [List.range_succ_eq_map]
    rw [hh]
    have hh2 : (inputs.getD 0 []).head? = some k1 := by rw [hin, hl0]; rfl
    simp only [hh2, bind, Except.bind, e1]
    rfl
  · simp only
    have hg := h1.groups
    have : ∀ (l : GDict) (C : List KeyTuple), List.Forall₂ (fun x κ => x.1 = padT shape.length shape.length κ ∧ x.2.vals st'.store =
        inputs.map (fun l => l.filter (pre shape shape.length κ))) l C →
        l.map (fun x => (x.1, x.2.vals st'.store)) = C.map (fun κ => (κ.map tup, inputs.map (fun l => l.filter (fun k => decide (normalizeKeys k shape = κ))))) := by
      intro l C hl
      induction hl with
      | nil => rfl
      | @cons x κ _ _ hx _ ih =>
        rw [List.map_cons, List.map_cons, ih, hx.1, hx.2]
        congr 2
        · unfold padT; simp
        · apply List.map_congr_left
          intro l _
          apply List.filter_congr
          intro k _
          unfold pre
          have : (normalizeKeys k shape).length ≤ shape.length := by unfold normalizeKeys; rw [List.length_zipWith]; omega
          rw [List.take_of_length_le this]
    have hg' := this _ _ hg
    rwa [hlen, List.take_length] at hg'

end

end Biggus

import Verif.Model.Grouper
import Verif.Proofs.Shape
import Mathlib.Data.List.GetD
import Mathlib.Data.List.Sort
/-
Key grouping: the main loop of `dimension_group_to_lowest_common`.
-/
namespace Biggus

/-- The `i`-th interval. -/
abbrev kat (K : List (Nat × Nat)) (i : Nat) : Nat × Nat := K.getD i (0, 0)

/-- The normalised slice of an interval. -/
def nslice (n : Nat) (x : Nat × Nat) : PySlice :=
  ⟨if x.1 = 0 then none else some x.1, if x.2 = n then none else some x.2, none⟩

theorem nslice_start {n : Nat} (x : Nat × Nat) : pyOr (nslice n x).start 0 = x.1 := by
  unfold nslice pyOr
  by_cases h : x.1 = 0
  · simp [h]
  · simp only [h, if_false]
    rw [if_neg (by omega)]

theorem nslice_stop {n : Nat} {x : Nat × Nat} (h : 0 < x.2 ∨ n = 0) (h' : x.2 ≤ n) : pyOr (nslice n x).stop n = x.2 := by
  unfold nslice pyOr
  by_cases hx : x.2 = n
  · simp [hx]
  · simp only [hx, if_false]
    rw [if_neg (by omega)]

/-- A sorted input: intervals that follow each other (or repeat) and tile `[0, n)`. -/
structure GoodK (n : Nat) (K : List (Nat × Nat)) : Prop where
  pos : 0 < K.length
  lt : ∀ i, i < K.length → (kat K i).1 < (kat K i).2
  chain : ∀ i, i + 1 < K.length → kat K (i + 1) = kat K i ∨ (kat K (i + 1)).1 = (kat K i).2
  first : (kat K 0).1 = 0
  last : (kat K (K.length - 1)).2 = n

theorem GoodK.mono {n : Nat} {K : List (Nat × Nat)} (h : GoodK n K) : ∀ {i j}, i ≤ j → j < K.length →
    (kat K i).1 ≤ (kat K j).1 ∧ (kat K i).2 ≤ (kat K j).2 := by
  intro i j hij
  induction j, hij using Nat.le_induction with
  | base => intro _; exact ⟨le_refl _, le_refl _⟩
  | succ j hij ih =>
    intro hj
    obtain ⟨h1, h2⟩ := ih (by omega)
    have hlt := h.lt j (by omega)
    have hlt' := h.lt (j + 1) hj
    rcases h.chain j hj with he | he
    · rw [he]; exact ⟨h1, h2⟩
    · omega

theorem GoodK.le {n : Nat} {K : List (Nat × Nat)} (h : GoodK n K) {i : Nat} (hi : i < K.length) : (kat K i).2 ≤ n := by
  rw [← h.last]; exact (h.mono (by omega) (by omega)).2

/-- Different stops: the next interval starts where this one stops. -/
theorem GoodK.next {n : Nat} {K : List (Nat × Nat)} (h : GoodK n K) {i : Nat} (hi : i + 1 < K.length) (hne : (kat K (i + 1)).2 ≠ (kat K i).2) :
    (kat K (i + 1)).1 = (kat K i).2 := by
  rcases h.chain i hi with he | he
  · rw [he] at hne; exact absurd rfl hne
  · exact he

/-- The places where the intervals of an input stop. -/
def Stops (K : List (Nat × Nat)) (q : Nat) : Prop := ∃ x ∈ K, x.2 = q

theorem stops_iff {K : List (Nat × Nat)} {q : Nat} : Stops K q ↔ ∃ i, i < K.length ∧ (kat K i).2 = q := by
  constructor
  · rintro ⟨x, hx, rfl⟩
    obtain ⟨i, hi, rfl⟩ := List.mem_iff_getElem.mp hx
    exact ⟨i, hi, by rw [kat, List.getD_eq_getElem _ _ hi]⟩
  · rintro ⟨i, hi, rfl⟩
    refine ⟨kat K i, ?_, rfl⟩
    rw [kat, List.getD_eq_getElem _ _ hi]
    exact List.getElem_mem hi

/-- What the groups from position `p` on must be: they follow each other up to `n`; each holds, for every input, exactly the intervals inside it;
each ends where every input has a stop, and before that there is no such place. -/
def GroupsFrom (n : Nat) (Ks : List (List (Nat × Nat))) : Nat → List (SliceTuple × List (List PySlice)) → Prop
  | p, [] => p = n
  | p, g :: gs => ∃ e, p < e ∧ e ≤ n ∧ g.1 = groupTuple n p e ∧
      g.2 = Ks.map (fun K => (K.filter (fun x => decide (p ≤ x.1 ∧ x.2 ≤ e))).map (nslice n)) ∧
      (∀ K ∈ Ks, Stops K e) ∧ (∀ q, p < q → q < e → ¬ ∀ K ∈ Ks, Stops K q) ∧ GroupsFrom n Ks e gs

theorem skipRepeats_spec {n : Nat} {K : List (Nat × Nat)} (h : GoodK n K) (stop : Nat) : ∀ (d c : Nat), K.length - (c + 1) = d → c < K.length →
    (kat K c).2 = stop →
    let i := skipRepeats n stop c ((K.map (nslice n)).drop (c + 1))
    c ≤ i ∧ i < K.length ∧ (kat K i).2 = stop ∧ (i + 1 = K.length ∨ (kat K (i + 1)).2 ≠ stop)
  | 0, c, hd, hc, hs => by
    have : (K.map (nslice n)).drop (c + 1) = [] := by
      apply List.drop_eq_nil_of_le; simp; omega
    rw [this]
    exact ⟨le_refl _, hc, hs, Or.inl (by show c + 1 = K.length; omega)⟩
  | d + 1, c, hd, hc, hs => by
    intro i
    have hlt : c + 1 < K.length := by omega
    have hdrop : (K.map (nslice n)).drop (c + 1) = nslice n (kat K (c + 1)) :: (K.map (nslice n)).drop (c + 1 + 1) := by
      rw [List.drop_eq_getElem_cons (by simpa using hlt)]
      rw [List.getElem_map, kat, List.getD_eq_getElem _ _ hlt]
    have hi : i = skipRepeats n stop c (nslice n (kat K (c + 1)) :: (K.map (nslice n)).drop (c + 1 + 1)) := by
      show skipRepeats _ _ _ _ = _
      rw [hdrop]
    clear_value i
    subst hi
    have hst : pyOr (nslice n (kat K (c + 1))).stop n = ((kat K (c + 1)).2 : Int) :=
      nslice_stop (Or.inl (by have := h.lt _ hlt; omega)) (h.le hlt)
    unfold skipRepeats
    rw [hst]
    by_cases he : (kat K (c + 1)).2 = stop
    · rw [if_neg (by rw [he]; simp)]
      obtain ⟨h1, h2, h3, h4⟩ := skipRepeats_spec h stop d (c + 1) (by omega) hlt he
      exact ⟨by omega, h2, h3, h4⟩
    · rw [if_pos (by omega)]
      exact ⟨le_refl _, hc, hs, Or.inr he⟩

theorem foldl_min (l : List Int) : ∀ (a : Int), l.foldl min a ≤ a ∧ (∀ x ∈ l, l.foldl min a ≤ x) ∧ (l.foldl min a = a ∨ l.foldl min a ∈ l) := by
  induction l with
  | nil => intro a; simp
  | cons y l ih =>
    intro a
    obtain ⟨h1, h2, h3⟩ := ih (min a y)
    rw [List.foldl_cons]
    refine ⟨by omega, ?_, ?_⟩
    · intro x hx
      rcases List.mem_cons.mp hx with rfl | hx
      · omega
      · exact h2 x hx
    · rcases h3 with h3 | h3
      · rcases min_choice a y with h | h
        · left; rw [h3, h]
        · right; rw [h3, h]; exact List.mem_cons_self
      · right; exact List.mem_cons_of_mem _ h3

theorem dictSet_append {κ β : Type} [DecidableEq κ] : ∀ (d : List (κ × β)) (k : κ) (v : β), (∀ p ∈ d, p.1 ≠ k) → dictSet d k v = d ++ [(k, v)]
  | [], _, _, _ => rfl
  | (k', v') :: d, k, v, h => by
    unfold dictSet
    rw [if_neg (h _ List.mem_cons_self), dictSet_append d k v (fun p hp => h p (List.mem_cons_of_mem _ hp))]
    rfl

theorem allEqual_iff {l : List Int} (hne : l ≠ []) : allEqual l = true ↔ ∀ x ∈ l, ∀ y ∈ l, x = y := by
  obtain ⟨a, l, rfl⟩ := List.exists_cons_of_ne_nil hne
  unfold allEqual
  simp only [List.headD_cons, List.all_eq_true, beq_iff_eq]
  constructor
  · intro h x hx y hy
    rw [← h x hx, ← h y hy]
  · intro h x hx
    exact h a List.mem_cons_self x hx

/-- One input with `start_index` and `current_index`. -/
structure GIn where
  K : List (Nat × Nat)
  s : Nat
  c : Nat

/-- The invariant of one input: the group starts at `p`. -/
structure GInv (n p : Nat) (t : GIn) : Prop where
  good : GoodK n t.K
  sc : t.s ≤ t.c
  cl : t.c < t.K.length
  start : (kat t.K t.s).1 = p
  before : ∀ i, i < t.s → (kat t.K i).2 ≤ p

def gKeys (n : Nat) (T : List GIn) : List (List PySlice) := T.map (fun t => t.K.map (nslice n))

theorem keysAt_map {n : Nat} {T : List GIn} (f : GIn → Nat) (h : ∀ t ∈ T, f t < t.K.length) :
    keysAt (gKeys n T) (T.map f) = .ok (T.map (fun t => nslice n (kat t.K (f t)))) := by
  unfold keysAt gKeys
  rw [List.zip_map']
  rw [mapM_ok _ _ (fun p => p.1.getD p.2 ⟨none, none, none⟩)]
  · rw [List.map_map]
    congr 1
    apply List.map_congr_left
    intro t ht
    have := h t ht
    simp [kat, List.getD_eq_getElem?_getD, this]
  · intro p hp
    obtain ⟨t, ht, rfl⟩ := List.mem_map.mp hp
    have := h t ht
    simp [List.getD_eq_getElem?_getD, this]

theorem sum_lt {T : List GIn} {f g : GIn → Nat} (hle : ∀ t ∈ T, f t ≤ g t) (hlt : ∃ t ∈ T, f t < g t) : (T.map f).sum < (T.map g).sum := by
  induction T with
  | nil => obtain ⟨t, ht, _⟩ := hlt; cases ht
  | cons a T ih =>
    simp only [List.map_cons, List.sum_cons]
    have ha := hle a List.mem_cons_self
    have hT : (T.map f).sum ≤ (T.map g).sum := by
      clear ih hlt
      induction T with
      | nil => simp
      | cons b T ih =>
        simp only [List.map_cons, List.sum_cons]
        have := hle b (by simp)
        have := ih (by intro t ht; exact hle t (by rcases List.mem_cons.mp ht with rfl | h <;> simp [*]))
        omega
    obtain ⟨t, ht, hlt⟩ := hlt
    rcases List.mem_cons.mp ht with rfl | ht
    · omega
    · have := ih (fun t ht => hle t (List.mem_cons_of_mem _ ht)) ⟨t, ht, hlt⟩
      omega

/-- The keys of a group are the intervals inside it. -/
theorem group_filter {n p e : Nat} {K : List (Nat × Nat)} {s i : Nat} (h : GoodK n K) (hsi : s ≤ i) (hi : i < K.length)
    (hs : (kat K s).1 = p) (hb : ∀ j, j < s → (kat K j).2 ≤ p) (he : (kat K i).2 = e)
    (ha : ∀ j, i < j → j < K.length → e ≤ (kat K j).1) :
    (K.take (i + 1)).drop s = K.filter (fun x => decide (p ≤ x.1 ∧ x.2 ≤ e)) := by
  have hsplit : K = K.take s ++ ((K.take (i + 1)).drop s ++ K.drop (i + 1)) := by
    conv_lhs => rw [← List.take_append_drop (i + 1) K, ← List.take_append_drop s (K.take (i + 1)), List.take_take,
      Nat.min_eq_left (by omega : s ≤ i + 1)]
    rw [List.append_assoc]
  conv_rhs => rw [hsplit]
  rw [List.filter_append, List.filter_append]
  have h1 : (K.take s).filter (fun x => decide (p ≤ x.1 ∧ x.2 ≤ e)) = [] := by
    rw [List.filter_eq_nil_iff]
    intro x hx
    obtain ⟨j, hj, rfl⟩ := List.mem_iff_getElem.mp hx
    rw [List.length_take] at hj
    have hjs : j < s := by omega
    have hjl : j < K.length := by omega
    have := hb j hjs
    have hlt := h.lt j hjl
    rw [kat, List.getD_eq_getElem _ _ hjl] at this hlt
    rw [List.getElem_take]
    simp only [decide_eq_true_eq]
    omega
  have h2 : ((K.take (i + 1)).drop s).filter (fun x => decide (p ≤ x.1 ∧ x.2 ≤ e)) = (K.take (i + 1)).drop s := by
    rw [List.filter_eq_self]
    intro x hx
    obtain ⟨j, hj, rfl⟩ := List.mem_iff_getElem.mp hx
    rw [List.length_drop, List.length_take] at hj
    have hjl : s + j < K.length := by omega
    rw [List.getElem_drop, List.getElem_take]
    have m1 := (h.mono (i := s) (j := s + j) (by omega) hjl).1
    have m2 := (h.mono (i := s + j) (j := i) (by omega) hi).2
    rw [hs] at m1
    rw [he] at m2
    rw [kat, List.getD_eq_getElem _ _ hjl] at m1 m2
    simp only [decide_eq_true_eq]
    exact ⟨m1, m2⟩
  have h3 : (K.drop (i + 1)).filter (fun x => decide (p ≤ x.1 ∧ x.2 ≤ e)) = [] := by
    rw [List.filter_eq_nil_iff]
    intro x hx
    obtain ⟨j, hj, rfl⟩ := List.mem_iff_getElem.mp hx
    rw [List.length_drop] at hj
    have hjl : i + 1 + j < K.length := by omega
    rw [List.getElem_drop]
    have := ha (i + 1 + j) (by omega) hjl
    have hlt := h.lt _ hjl
    rw [kat, List.getD_eq_getElem _ _ hjl] at this hlt
    simp only [decide_eq_true_eq]
    omega
  rw [h1, h2, h3]
  simp

theorem not_done {n p : Nat} {T : List GIn} {α : List Nat} {groups : List (SliceTuple × List (List PySlice))} (hT : T ≠ []) (hinv : ∀ t ∈ T, GInv n p t) :
    ¬ (GrpState.mk α (T.map (·.c)) groups).current = (gKeys n T).map List.length := by
  obtain ⟨t0, T0, rfl⟩ := List.exists_cons_of_ne_nil hT
  intro h
  simp [gKeys] at h
  have := (hinv t0 List.mem_cons_self).cl
  omega

theorem done_eq {n : Nat} {T : List GIn} {α : List Nat} {groups : List (SliceTuple × List (List PySlice))} (h : ∀ t ∈ T, t.c = t.K.length) :
    (GrpState.mk α (T.map (·.c)) groups).current = (gKeys n T).map List.length := by
  show T.map (·.c) = _
  unfold gKeys
  rw [List.map_map]
  apply List.map_congr_left
  intro t ht
  simp [h t ht]

theorem grpBody_spec {n : Nat} {T : List GIn} {p : Nat} {groups : List (SliceTuple × List (List PySlice))} (hT : T ≠ []) (hp : p < n)
    (hinv : ∀ t ∈ T, GInv n p t) (hfin : ∀ q, p < q → (∀ t ∈ T, Stops t.K q) → ∀ t ∈ T, (kat t.K t.c).2 ≤ q)
    (hg : ∀ g ∈ groups, ∃ p' e, p' < p ∧ g.1 = groupTuple n p' e) :
    ∃ (T' : List GIn) (p' : Nat) (new : List (SliceTuple × List (List PySlice))), grpBody n (gKeys n T) ⟨T.map (·.s), T.map (·.c), groups⟩ = .ok ⟨T'.map (·.s), T'.map (·.c), groups ++ new⟩ ∧
      T'.map (·.K) = T.map (·.K) ∧ p' ≤ n ∧
      (p' < n → (∀ t ∈ T', GInv n p' t) ∧ ∀ q, p' < q → (∀ t ∈ T', Stops t.K q) → ∀ t ∈ T', (kat t.K t.c).2 ≤ q) ∧
      (p' = n → ∀ t ∈ T', t.c = t.K.length) ∧
      (T'.map (fun t => t.K.length - t.c)).sum < (T.map (fun t => t.K.length - t.c)).sum ∧
      (new = [] ∧ p' = p ∧ (∃ t ∈ T, ∃ u ∈ T, (kat t.K t.c).2 ≠ (kat u.K u.c).2) ∨ p < p' ∧ new = [(groupTuple n p p',
          T.map (fun t => (t.K.filter (fun x => decide (p ≤ x.1 ∧ x.2 ≤ p'))).map (nslice n)))] ∧
        (∀ t ∈ T, Stops t.K p') ∧ ∀ q, p < q → q < p' → ¬ ∀ t ∈ T, Stops t.K q) := by
  obtain ⟨t0, T0, hT0⟩ := List.exists_cons_of_ne_nil hT
  have ht0 : t0 ∈ T := by rw [hT0]; exact List.mem_cons_self
  unfold grpBody
  rw [keysAt_map (n := n) (·.s) (fun t ht => lt_of_le_of_lt (hinv t ht).sc (hinv t ht).cl)]
  simp only [bind, Except.bind]
  have hstarts : (T.map (fun t => nslice n (kat t.K t.s))).map (fun k => pyOr k.start 0) = T.map (fun _ => (p : Int)) := by
    rw [List.map_map]
    apply List.map_congr_left
    intro t ht
    show pyOr (nslice n _).start 0 = _
    rw [nslice_start, (hinv t ht).start]
  rw [hstarts, if_neg (by
    rw [not_not, allEqual_iff (by simpa using hT)]
    intro x hx y hy
    obtain ⟨_, _, rfl⟩ := List.mem_map.mp hx
    obtain ⟨_, _, rfl⟩ := List.mem_map.mp hy
    rfl)]
  rw [keysAt_map (n := n) (·.c) (fun t ht => (hinv t ht).cl)]
  simp only [bind, Except.bind]
  have hstops : (T.map (fun t => nslice n (kat t.K t.c))).map (fun k => pyOr k.stop n) = T.map (fun t => ((kat t.K t.c).2 : Int)) := by
    rw [List.map_map]
    apply List.map_congr_left
    intro t ht
    have hI := hinv t ht
    have := hI.good.lt _ hI.cl
    exact nslice_stop (Or.inl (by omega)) (hI.good.le hI.cl)
  rw [hstops]
  have hc0 : p < (kat t0.K t0.c).2 := by
    have hI := hinv t0 ht0
    have h1 := (hI.good.mono hI.sc hI.cl).1
    have h2 := hI.good.lt _ hI.cl
    rw [hI.start] at h1
    omega
  by_cases hall : ∀ t ∈ T, (kat t.K t.c).2 = (kat t0.K t0.c).2
  · -- all stops are equal: a group
    rw [if_pos (by
      rw [allEqual_iff (by simpa using hT)]
      intro x hx y hy
      obtain ⟨t, ht, rfl⟩ := List.mem_map.mp hx
      obtain ⟨u, hu, rfl⟩ := List.mem_map.mp hy
      rw [hall t ht, hall u hu])]
    generalize he : (kat t0.K t0.c).2 = e at *
    have hhead : (T.map (fun t => ((kat t.K t.c).2 : Int))).headD 0 = e := by
      rw [hT0]; show ((kat t0.K t0.c).2 : Int) = e; rw [he]
    have hhead' : (T.map (fun _ => (p : Int))).headD 0 = p := by rw [hT0]; rfl
    rw [hhead, hhead']
    -- the adjusted index of every input
    let adj : GIn → Nat := fun t => skipRepeats n e t.c ((t.K.map (nslice n)).drop (t.c + 1))
    have hadj : ∀ t ∈ T, t.c ≤ adj t ∧ adj t < t.K.length ∧ (kat t.K (adj t)).2 = e ∧
        (adj t + 1 = t.K.length ∨ (kat t.K (adj t + 1)).2 ≠ e) := by
      intro t ht
      exact skipRepeats_spec (hinv t ht).good e _ t.c rfl (hinv t ht).cl (hall t ht)
    have hnext : ∀ t ∈ T, adj t + 1 < t.K.length → (kat t.K (adj t + 1)).1 = e := by
      intro t ht hlt
      obtain ⟨h1, h2, h3, h4⟩ := hadj t ht
      rcases h4 with h4 | h4
      · omega
      · rw [(hinv t ht).good.next hlt (by rw [h3]; exact h4), h3]
    have hen : e ≤ n := by
      obtain ⟨_, h2, h3, _⟩ := hadj t0 ht0
      rw [← h3]; exact (hinv t0 ht0).good.le h2
    have hafter : ∀ t ∈ T, ∀ j, adj t < j → j < t.K.length → e ≤ (kat t.K j).1 := by
      intro t ht j hj hjl
      have h1 := hnext t ht (by omega)
      have h2 := ((hinv t ht).good.mono (i := adj t + 1) (j := j) (by omega) hjl).1
      omega
    have hclose : closeGroup n (gKeys n T) ⟨T.map (·.s), T.map (·.c), groups⟩ p e =
        ⟨T.map (fun t => adj t + 1), T.map (fun t => adj t + 1), groups ++ [(groupTuple n p e,
          T.map (fun t => (t.K.filter (fun x => decide (p ≤ x.1 ∧ x.2 ≤ e))).map (nslice n)))]⟩ := by
      unfold closeGroup gKeys
      have h1 : ((T.map (·.c)).zip (T.map (fun t => t.K.map (nslice n)))).map (fun p => skipRepeats n e p.1 (p.2.drop (p.1 + 1))) = T.map adj := by
        rw [List.zip_map', List.map_map]; rfl
      simp only [h1]
      have h2 : ((T.map (fun t => t.K.map (nslice n))).zip ((T.map (·.s)).zip (T.map adj))).map (fun p => (p.1.take (p.2.2 + 1)).drop p.2.1) =
          T.map (fun t => (t.K.filter (fun x => decide (p ≤ x.1 ∧ x.2 ≤ e))).map (nslice n)) := by
        rw [List.zip_map', List.zip_map', List.map_map]
        apply List.map_congr_left
        intro t ht
        have hI := hinv t ht
        obtain ⟨a1, a2, a3, a4⟩ := hadj t ht
        show ((t.K.map (nslice n)).take (adj t + 1)).drop t.s = _
        rw [← List.map_take, ← List.map_drop]
        rw [group_filter hI.good (le_trans hI.sc a1) a2 hI.start hI.before a3 (hafter t ht)]
      rw [h2, List.map_map, dictSet_append]
      · rfl
      · intro g hgm heq
        obtain ⟨p', e', hp', hge⟩ := hg g hgm
        rw [hge] at heq
        have := congrArg Prod.fst heq
        unfold groupTuple at this
        simp only at this
        by_cases h0 : p' = 0
        · subst h0
          rw [if_pos (by simp), if_neg (by omega)] at this
          cases this
        · rw [if_neg (by omega), if_neg (by omega)] at this
          simp only [Option.some.injEq] at this
          omega
    have hstopsE : ∀ t ∈ T, Stops t.K e := by
      intro t ht
      obtain ⟨a1, a2, a3, a4⟩ := hadj t ht
      exact stops_iff.mpr ⟨adj t, a2, a3⟩
    refine ⟨T.map (fun t => ⟨t.K, adj t + 1, adj t + 1⟩), e, [(groupTuple n p e,
          T.map (fun t => (t.K.filter (fun x => decide (p ≤ x.1 ∧ x.2 ≤ e))).map (nslice n)))], ?_, ?_, hen, ?_, ?_, ?_, ?_⟩
    · rw [hclose, List.map_map, List.map_map]; rfl
    · rw [List.map_map]; rfl
    · intro hlt
      have hl : ∀ t ∈ T, adj t + 1 < t.K.length := by
        intro t ht
        obtain ⟨a1, a2, a3, a4⟩ := hadj t ht
        by_contra hcon
        have : adj t = t.K.length - 1 := by omega
        rw [this, (hinv t ht).good.last] at a3
        omega
      constructor
      · intro t' ht'
        obtain ⟨t, ht, rfl⟩ := List.mem_map.mp ht'
        obtain ⟨a1, a2, a3, a4⟩ := hadj t ht
        refine ⟨(hinv t ht).good, le_refl _, hl t ht, hnext t ht (hl t ht), ?_⟩
        intro i hi
        have := ((hinv t ht).good.mono (i := i) (j := adj t) (by have : i < adj t + 1 := hi; omega) a2).2
        rw [a3] at this; exact this
      · intro q hq hall' t' ht'
        obtain ⟨t, ht, rfl⟩ := List.mem_map.mp ht'
        obtain ⟨a1, a2, a3, a4⟩ := hadj t ht
        obtain ⟨i, hi, hiq⟩ := stops_iff.mp (hall' _ (List.mem_map_of_mem ht))
        have hgt : adj t < i := by
          by_contra hcon
          have := ((hinv t ht).good.mono (i := i) (j := adj t) (by omega) a2).2
          simp only at hiq
          omega
        have := ((hinv t ht).good.mono (i := adj t + 1) (j := i) (by omega) hi).2
        simp only at hiq ⊢
        omega
    · intro hEn t' ht'
      obtain ⟨t, ht, rfl⟩ := List.mem_map.mp ht'
      obtain ⟨a1, a2, a3, a4⟩ := hadj t ht
      show adj t + 1 = t.K.length
      by_contra hcon
      have h1 := hnext t ht (by omega)
      have h2 := (hinv t ht).good.lt (adj t + 1) (by omega)
      have h3 := (hinv t ht).good.le (i := adj t + 1) (by omega)
      omega
    · rw [List.map_map]
      apply sum_lt
      · intro t ht
        obtain ⟨a1, a2, a3, a4⟩ := hadj t ht
        show t.K.length - (adj t + 1) ≤ t.K.length - t.c
        omega
      · refine ⟨t0, ht0, ?_⟩
        obtain ⟨a1, a2, a3, a4⟩ := hadj t0 ht0
        show t0.K.length - (adj t0 + 1) < t0.K.length - t0.c
        omega
    · refine Or.inr ⟨hc0, rfl, hstopsE, ?_⟩
      intro q hq hqe hcom
      have := hfin q hq hcom t0 ht0
      rw [he] at this
      omega
  · -- different stops: the lowest are moved
    rw [if_neg (by
      rw [allEqual_iff (by simpa using hT)]
      intro h
      apply hall
      intro t ht
      have := h _ (List.mem_map_of_mem ht) _ (List.mem_map_of_mem ht0)
      omega)]
    obtain ⟨t1, ht1, hne1⟩ : ∃ t ∈ T, (kat t.K t.c).2 ≠ (kat t0.K t0.c).2 := by
      by_contra h
      apply hall
      intro t ht
      by_contra h'
      exact h ⟨t, ht, h'⟩
    obtain ⟨m, hm, hmle, hmem⟩ : ∃ m : Nat, (T.map (fun t => ((kat t.K t.c).2 : Int))).foldl min ((T.map (fun t => ((kat t.K t.c).2 : Int))).headD 0) = m ∧
        (∀ t ∈ T, m ≤ (kat t.K t.c).2) ∧ ∃ t ∈ T, (kat t.K t.c).2 = m := by
      have hmemhd : (T.map (fun t => ((kat t.K t.c).2 : Int))).headD 0 ∈ T.map (fun t => ((kat t.K t.c).2 : Int)) := by
        rw [hT0]; simp
      obtain ⟨_, h2, h3⟩ := foldl_min (T.map (fun t => ((kat t.K t.c).2 : Int))) ((T.map (fun t => ((kat t.K t.c).2 : Int))).headD 0)
      have h4 : (T.map (fun t => ((kat t.K t.c).2 : Int))).foldl min ((T.map (fun t => ((kat t.K t.c).2 : Int))).headD 0) ∈ T.map (fun t => ((kat t.K t.c).2 : Int)) := by
        rcases h3 with h3 | h3
        · rw [h3]; exact hmemhd
        · exact h3
      obtain ⟨t, ht, heq⟩ := List.mem_map.mp h4
      refine ⟨(kat t.K t.c).2, heq.symm, ?_, t, ht, rfl⟩
      intro u hu
      have := h2 _ (List.mem_map_of_mem hu)
      rw [← heq] at this
      omega
    obtain ⟨M, hM, tM, htM, hMe⟩ : ∃ M, m < M ∧ ∃ t ∈ T, (kat t.K t.c).2 = M := by
      have h0 := hmle t0 ht0
      have h1 := hmle t1 ht1
      by_cases h : (kat t0.K t0.c).2 = m
      · exact ⟨_, by omega, t1, ht1, rfl⟩
      · exact ⟨_, by omega, t0, ht0, rfl⟩
    have hMn : M ≤ n := by rw [← hMe]; exact (hinv tM htM).good.le (hinv tM htM).cl
    have hmove : moveLowest ⟨T.map (·.s), T.map (·.c), groups⟩ (T.map (fun t => ((kat t.K t.c).2 : Int))) =
        ⟨T.map (·.s), T.map (fun t => if (kat t.K t.c).2 = m then t.c + 1 else t.c), groups⟩ := by
      unfold moveLowest
      simp only [hm]
      rw [List.zip_map', List.map_map]
      congr 1
      apply List.map_congr_left
      intro t ht
      simp only [Function.comp_apply]
      by_cases h : (kat t.K t.c).2 = m
      · rw [if_pos (by omega), if_pos h]
      · rw [if_neg (by omega), if_neg h]
    have hl : ∀ t ∈ T, (kat t.K t.c).2 = m → t.c + 1 < t.K.length := by
      intro t ht hte
      have hI := hinv t ht
      have := hI.cl
      by_contra hcon
      have : t.c = t.K.length - 1 := by omega
      rw [this, hI.good.last] at hte
      omega
    refine ⟨T.map (fun t => ⟨t.K, t.s, if (kat t.K t.c).2 = m then t.c + 1 else t.c⟩), p, [], ?_, ?_, le_of_lt hp, ?_, ?_, ?_,
      Or.inl ⟨rfl, rfl, by
        by_contra hcon
        push Not at hcon
        exact hall (fun t ht => hcon t ht t0 ht0)⟩⟩
    · rw [hmove, List.map_map, List.map_map, List.append_nil]; rfl
    · rw [List.map_map]; rfl
    · intro _
      constructor
      · intro t' ht'
        obtain ⟨t, ht, rfl⟩ := List.mem_map.mp ht'
        have hI := hinv t ht
        refine ⟨hI.good, ?_, ?_, hI.start, hI.before⟩
        · show t.s ≤ (if (kat t.K t.c).2 = m then t.c + 1 else t.c)
          have := hI.sc
          split_ifs <;> omega
        · show (if (kat t.K t.c).2 = m then t.c + 1 else t.c) < t.K.length
          split_ifs with h
          · exact hl t ht h
          · exact hI.cl
      · intro q hq hcom t' ht'
        obtain ⟨t, ht, rfl⟩ := List.mem_map.mp ht'
        have hI := hinv t ht
        have hcom' : ∀ t ∈ T, Stops t.K q := fun t ht => hcom ⟨t.K, t.s, if (kat t.K t.c).2 = m then t.c + 1 else t.c⟩ (List.mem_map.mpr ⟨t, ht, rfl⟩)
        have hqM := hfin q hq hcom' tM htM
        rw [hMe] at hqM
        obtain ⟨i, hi, hiq⟩ := stops_iff.mp (hcom' t ht)
        by_cases h : (kat t.K t.c).2 = m
        · simp only [h, if_true]
          have hgt : t.c < i := by
            by_contra hcon
            have := (hI.good.mono (i := i) (j := t.c) (by omega) hI.cl).2
            omega
          have := (hI.good.mono (i := t.c + 1) (j := i) (by omega) hi).2
          omega
        · simp only [h, if_false]
          exact hfin q hq hcom' t ht
    · intro h; omega
    · rw [List.map_map]
      apply sum_lt
      · intro t ht
        show t.K.length - (if (kat t.K t.c).2 = m then t.c + 1 else t.c) ≤ _
        split_ifs <;> omega
      · obtain ⟨t, ht, hte⟩ := hmem
        refine ⟨t, ht, ?_⟩
        have := hl t ht hte
        show t.K.length - (if (kat t.K t.c).2 = m then t.c + 1 else t.c) < _
        rw [if_pos hte]
        omega

/-- The main loop. -/
theorem grpLoop_spec {n : Nat} : ∀ (fuel : Nat) (T : List GIn) (p : Nat) (groups : List (SliceTuple × List (List PySlice))), T ≠ [] →
    p ≤ n → (p < n → (∀ t ∈ T, GInv n p t) ∧ ∀ q, p < q → (∀ t ∈ T, Stops t.K q) → ∀ t ∈ T, (kat t.K t.c).2 ≤ q) →
    (p = n → ∀ t ∈ T, t.c = t.K.length) →
    (∀ g ∈ groups, ∃ p' e, p' < p ∧ g.1 = groupTuple n p' e) →
    (∃ new, grpLoop n (gKeys n T) fuel ⟨T.map (·.s), T.map (·.c), groups⟩ = .ok (groups ++ new) ∧ GroupsFrom n (T.map (·.K)) p new ∧
      new.length ≤ fuel) ∨
    (grpLoop n (gKeys n T) fuel ⟨T.map (·.s), T.map (·.c), groups⟩ = .error .runtime ∧ fuel < (T.map (fun t => t.K.length - t.c)).sum ∧
      ∀ D : List Nat, (∀ K ∈ T.map (·.K), ∀ K' ∈ T.map (·.K), ∀ q, Stops K q → Stops K' q) → (∀ K ∈ T.map (·.K), ∀ q, Stops K q → q ∈ D) →
        fuel < (D.filter (fun q => decide (p < q))).length) := by
  intro fuel
  induction fuel with
  | zero =>
    intro T p groups hT hp hinv hend hg
    unfold grpLoop
    rcases Nat.lt_or_eq_of_le hp with hlt | rfl
    · obtain ⟨h1, h2⟩ := hinv hlt
      obtain ⟨T', p', new, hb, _, _, _, _, hm, _⟩ := grpBody_spec hT hlt h1 h2 hg
      rw [if_neg (not_done hT h1), hb]
      refine Or.inr ⟨rfl, by omega, fun D _ hD => ?_⟩
      obtain ⟨t, ht⟩ := List.exists_mem_of_ne_nil T hT
      have hI := h1 t ht
      refine List.length_pos_of_mem (List.mem_filter.mpr ⟨hD t.K (List.mem_map_of_mem ht) n (stops_iff.mpr ⟨t.K.length - 1, by have := hI.cl; omega, hI.good.last⟩), ?_⟩)
      simpa using hlt
    · rw [if_pos (done_eq (hend rfl))]
      exact Or.inl ⟨[], by simp, rfl, le_refl _⟩
  | succ fuel ih =>
    intro T p groups hT hp hinv hend hg
    unfold grpLoop
    rcases Nat.lt_or_eq_of_le hp with hlt | rfl
    · obtain ⟨h1, h2⟩ := hinv hlt
      obtain ⟨T', p', new, hb, hK, hp', hinv', hend', hm, hnew⟩ := grpBody_spec hT hlt h1 h2 hg
      rw [if_neg (not_done hT h1), hb]
      simp only [bind, Except.bind]
      have hkeys : gKeys n T' = gKeys n T := by
        have : ∀ T : List GIn, gKeys n T = (T.map (·.K)).map (fun K => K.map (nslice n)) := by
          intro T; unfold gKeys; rw [List.map_map]; rfl
        rw [this, this, hK]
      have hT' : T' ≠ [] := by
        rintro rfl
        simp at hK
        exact hT hK
      have hg' : ∀ g ∈ groups ++ new, ∃ p'' e, p'' < p' ∧ g.1 = groupTuple n p'' e := by
        intro g hg'
        rcases List.mem_append.mp hg' with hg' | hg'
        · obtain ⟨q, e, hq, hge⟩ := hg g hg'
          refine ⟨q, e, ?_, hge⟩
          rcases hnew with ⟨_, rfl, _⟩ | ⟨h, _⟩ <;> omega
        · rcases hnew with ⟨rfl, _, _⟩ | ⟨h, rfl, _⟩
          · cases hg'
          · rw [List.mem_singleton] at hg'
            subst hg'
            exact ⟨p, p', h, rfl⟩
      have := ih T' p' (groups ++ new) hT' hp' hinv' hend' hg'
      rw [hkeys] at this
      rcases this with ⟨new', h1', h2', h3'⟩ | ⟨h1', h2', h3'⟩
      · left
        rw [h1', hK] at *
        rcases hnew with ⟨rfl, rfl, _⟩ | ⟨hpp, rfl, hs, hq⟩
        · exact ⟨new', by simp, h2', by omega⟩
        · refine ⟨_ :: new', by rw [List.append_assoc]; rfl, ⟨p', hpp, hp', rfl, ?_, ?_, ?_, h2'⟩, by simp; omega⟩
          · show List.map _ T = _
            rw [List.map_map]; rfl
          · intro K hK
            obtain ⟨t, ht, rfl⟩ := List.mem_map.mp hK
            exact hs t ht
          · intro q hq1 hq2 hall
            exact hq q hq1 hq2 (fun t ht => hall _ (List.mem_map_of_mem ht))
      · right
        refine ⟨h1', by omega, fun D hA hD => ?_⟩
        have hlt' := h3' D (by rw [hK]; exact hA) (by rw [hK]; exact hD)
        rcases hnew with ⟨_, _, t, ht, u, hu, hne⟩ | ⟨hpp, _, hs, _⟩
        · exfalso
          have key : ∀ t ∈ T, ∀ u ∈ T, (kat u.K u.c).2 ≤ (kat t.K t.c).2 := by
            intro t ht u hu
            have hI := h1 t ht
            refine h2 _ ?_ (fun v hv => hA t.K (List.mem_map_of_mem ht) v.K (List.mem_map_of_mem hv) _ (stops_iff.mpr ⟨t.c, hI.cl, rfl⟩)) u hu
            have k1 := (hI.good.mono hI.sc hI.cl).1
            have k2 := hI.good.lt _ hI.cl
            rw [hI.start] at k1
            omega
          exact hne (le_antisymm (key u hu t ht) (key t ht u hu))
        · obtain ⟨t, ht⟩ := List.exists_mem_of_ne_nil T hT
          have hpD := hD t.K (List.mem_map_of_mem ht) p' (hs t ht)
          refine lt_of_lt_of_le (Nat.succ_lt_succ hlt') ?_
          have hsub : D.filter (fun q => decide (p' < q)) = (D.filter (fun q => decide (p < q))).filter (fun q => decide (p' < q)) := by
            rw [List.filter_filter]
            apply List.filter_congr
            intro q _
            by_cases h : p' < q <;> simp [h]
            omega
          rw [hsub]
          have hlen : ∀ (L : List Nat) (P : Nat → Bool), p' ∈ L → P p' = false → (L.filter P).length + 1 ≤ L.length := by
            intro L P hm hP
            have := List.length_filter_lt_length_iff_exists (l := L) (p := P) |>.mpr ⟨p', hm, by simp [hP]⟩
            omega
          exact hlen _ _ (List.mem_filter.mpr ⟨hpD, by simpa using hpp⟩) (by simp)
    · rw [if_pos (done_eq (hend rfl))]
      exact Or.inl ⟨[], by simp, rfl, by simp⟩

end Biggus

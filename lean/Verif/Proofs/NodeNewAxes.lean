import Verif.Proofs.NodeBcast
/-
Indexing an array with new axes, and indexing with `newaxis` keys.
-/
namespace Biggus

variable {α V : Type}

/-- One more new axis before the first dimension. -/
def bump (na : List Nat) : List Nat := na.modify 0 (· + 1)

/-- Uncombined `new_axes` of the result. -/
def naRaw : Nat → List Nat → List Key → List Nat
  | _, _, [] => [0]
  | c, ns, .newaxis :: ks => bump (naRaw c ns ks)
  | c + 1, ns, k :: ks => if k.isScalar then naRaw c ns ks else bump (naRaw c ns ks)
  | 0, n :: ns, _ :: ks => 0 :: naRaw n ns ks
  | 0, [], _ :: _ => [0]

/-- `axes_to_combine`. -/
def naComb : Nat → List Nat → List Key → List Nat
  | _, _, [] => []
  | c, ns, .newaxis :: ks => naComb c ns ks
  | c + 1, ns, _ :: ks => naComb c ns ks
  | 0, n :: ns, k :: ks => (if k.isScalar then [0] else []) ++ (naComb n ns ks).map (· + 1)
  | 0, [], _ :: _ => []

/-- `broadcast_dict` entry made by a key on a new axis. -/
def naDict1 (p : Nat) (k : Key) : List (Nat × Nat) :=
  match k with
  | .slice s => match s.range 1 with
    | .ok r => if r.length ≠ 1 then [(p, r.length)] else []
    | .error _ => []
  | .tuple l => [(p, l.length)]
  | _ => []

/-- `broadcast_dict`. -/
def naDict : Nat → Nat → List Nat → List Key → List (Nat × Nat)
  | _, _, _, [] => []
  | p, c, ns, .newaxis :: ks => naDict (p + 1) c ns ks
  | p, c + 1, ns, k :: ks =>
    naDict1 p k ++ naDict (p + 1) c ns ks
  | p, 0, n :: ns, _ :: ks => naDict (p + 1) n ns ks
  | _, 0, [], _ :: _ => []

/-- `new_axes` of the result. -/
def naOut : Nat → List Nat → List Key → List Nat
  | _, _, [] => [0]
  | c, ns, .newaxis :: ks => bump (naOut c ns ks)
  | c + 1, ns, k :: ks => if k.isScalar then naOut c ns ks else bump (naOut c ns ks)
  | 0, n :: ns, k :: ks => if k.isScalar then naOut n ns ks else 0 :: naOut n ns ks
  | 0, [], _ :: _ => [0]

theorem combineAxes_shift (C : List Nat) (g : Nat) (na : List Nat) :
    combineAxes (C.map (· + 1)) (g :: na) = g :: combineAxes C na := by
  unfold combineAxes
  rw [← List.map_reverse]
  generalize C.reverse = R
  induction R generalizing na with
  | nil => rfl
  | cons x R ih =>
    simp only [List.map_cons, List.foldl_cons]
    rw [← ih]
    congr 1

theorem combineAxes_zero (C : List Nat) (na : List Nat) (h : combineAxes C na ≠ []) :
    combineAxes (0 :: C.map (· + 1)) (0 :: na) = combineAxes C na := by
  have h1 : combineAxes (0 :: C.map (· + 1)) (0 :: na) =
      ((combineAxes (C.map (· + 1)) (0 :: na)).modify 0
        (· + (combineAxes (C.map (· + 1)) (0 :: na)).getD 1 0)).eraseIdx 1 := by
    unfold combineAxes
    rw [List.reverse_cons, List.foldl_append]
    rfl
  rw [h1, combineAxes_shift]
  cases hc : combineAxes C na with
  | nil => exact absurd hc h
  | cons x r => simp

theorem bump_ne_nil {na : List Nat} (h : na ≠ []) : bump na ≠ [] := by
  cases na with
  | nil => exact absurd rfl h
  | cons x na => simp [bump]

theorem naOut_ne_nil (c : Nat) (ns : List Nat) (fk : List Key) : naOut c ns fk ≠ [] := by
  fun_induction naOut c ns fk <;> first | (simp; done) | (apply bump_ne_nil; assumption) | simp_all

theorem combineStep_bump (ax : Nat) (na : List Nat) :
    ((bump na).modify ax (· + (bump na).getD (ax + 1) 0)).eraseIdx (ax + 1) =
      bump ((na.modify ax (· + na.getD (ax + 1) 0)).eraseIdx (ax + 1)) := by
  cases na with
  | nil => simp [bump]
  | cons x na =>
    cases ax with
    | zero => simp [bump]; omega
    | succ ax => simp [bump]

theorem combineAxes_bump (C na : List Nat) : combineAxes C (bump na) = bump (combineAxes C na) := by
  unfold combineAxes
  generalize C.reverse = R
  induction R generalizing na with
  | nil => rfl
  | cons x R ih => simp only [List.foldl_cons]; rw [combineStep_bump, ih]

theorem combine_naRaw (c : Nat) (ns : List Nat) (fk : List Key) :
    combineAxes (naComb c ns fk) (naRaw c ns fk) = naOut c ns fk := by
  fun_induction naOut c ns fk with
  | case1 => rfl
  | case2 c ns ks ih => simp only [naComb, naRaw, combineAxes_bump, ih]
  | case3 ns ks c k hk hs ih =>
    rw [naComb, naRaw, if_pos hs]
    · exact ih
    · exact hk
    · exact hk
  | case4 ns ks c k hk hs ih =>
    rw [naComb, naRaw, if_neg hs, combineAxes_bump, ih]
    · exact hk
    · exact hk
  | case5 ks n ns k hk hs ih =>
    rw [naComb, naRaw, if_pos hs, List.singleton_append, combineAxes_zero, ih]
    · rw [ih]; exact naOut_ne_nil _ _ _
    · exact hk
    · exact hk
  | case6 ks n ns k hk hs ih =>
    rw [naComb, naRaw, if_neg hs, List.nil_append, combineAxes_shift, ih]
    · exact hk
    · exact hk
  | case7 => rw [naComb, naRaw] <;> first | rfl | assumption

/-- `_is_newaxis` of the remaining dimensions. -/
def isNewOf : Nat → List Nat → List Bool
  | c, [] => List.replicate c true
  | c, n :: ns => List.replicate c true ++ false :: isNewOf n ns

theorem naInsert_true (c : Nat) (ns : List Nat) :
    naInsert true (c :: ns) (List.replicate ns.length false) = isNewOf c ns := by
  induction ns generalizing c with
  | nil => exact naInsert_last true c
  | cons n ns ih => simp only [List.length_cons, List.replicate_succ, naInsert_cons, ih, isNewOf]

theorem isNewOf_succ (c : Nat) (ns : List Nat) : isNewOf (c + 1) ns = true :: isNewOf c ns := by
  cases ns <;> simp [isNewOf, List.replicate_succ]

def addHead (o : Nat) (l : List Nat) : List Nat := l.modify 0 (o + ·)

theorem addHead_bump (o : Nat) (l : List Nat) : addHead o (bump l) = addHead (o + 1) l := by
  cases l with
  | nil => rfl
  | cons x l => simp [addHead, bump]; omega

theorem addHead_zero (l : List Nat) : addHead 0 l = l := by
  cases l <;> simp [addHead]

theorem naShape_succ (c : Nat) (ns s : List Nat) : naShape ((c + 1) :: ns) s = 1 :: naShape (c :: ns) s := by
  cases s <;> simp [naShape, List.replicate_succ]

theorem naShape_zero (n : Nat) (ns s : List Nat) (x : Nat) :
    naShape (0 :: n :: ns) (x :: s) = x :: naShape (n :: ns) s := by
  simp [naShape]

theorem naStrip_succ (c : Nat) (ns : List Nat) (i : Nat) (idx : List Nat) :
    naStrip ((c + 1) :: ns) (i :: idx) = naStrip (c :: ns) idx := by
  cases ns with
  | nil => rfl
  | cons n ns => simp [naStrip]

theorem naStrip_zero (n : Nat) (ns : List Nat) (i : Nat) (idx : List Nat) :
    naStrip (0 :: n :: ns) (i :: idx) = i :: naStrip (n :: ns) idx := by
  simp [naStrip]

theorem range_one {i : Int} (h : inRange i 1 = true) : -1 ≤ i ∧ i < 1 := by
  simpa [inRange] using h

theorem modify_append_head (P : List Nat) (x : Nat) (l : List Nat) (f : Nat → Nat) :
    (P ++ x :: l).modify P.length f = P ++ f x :: l := by
  induction P with
  | nil => rfl
  | cons y P ih => simpa using ih

/-- The keys on new axes are ints, slices or tuples. -/
def naTypes : Nat → List Nat → List Key → Prop
  | _, _, [] => True
  | c, ns, .newaxis :: ks => naTypes c ns ks
  | c + 1, ns, k :: ks => ((∃ i, k = .int i) ∨ (∃ s, k = .slice s) ∨ (∃ l, k = .tuple l)) ∧ naTypes c ns ks
  | 0, n :: ns, _ :: ks => naTypes n ns ks
  | 0, [], _ :: _ => True

theorem naTypes_of_ok {fk : List Key} : ∀ {seen : Bool} {c : Nat} {ns : List Nat}, naKeysOk seen c ns fk → naTypes c ns fk := by
  induction fk with
  | nil => intro seen c ns _; cases c <;> cases ns <;> simp [naTypes]
  | cons k fk ih =>
    intro seen c ns h
    by_cases hk : k = .newaxis
    · subst hk
      cases c <;> cases ns <;> (simp only [naTypes, naKeysOk] at h ⊢; exact ih h)
    · cases c with
      | succ c =>
        rw [naTypes]
        rw [naKeysOk] at h
        · exact ⟨h.1, ih h.2.2⟩
        · exact hk
        · exact hk
      | zero =>
        cases ns with
        | nil => rw [naTypes]; · trivial
                 · exact hk
        | cons n ns =>
          rw [naTypes]
          rw [naKeysOk] at h
          · exact ih h
          · exact hk
          · exact hk

theorem naFoldT {fk : List Key} : ∀ {p c : Nat} {ns s : List Nat} {τ : List Sel} {o : Nat}
    {P C0 : List Nat} {K0 : List Key} {D0 : List (Nat × Nat)},
    ns.length = s.length → naTypes c ns fk → resolve fk (naShape (c :: ns) s) = .ok τ →
    ∃ st', (fk.zipIdx p).foldlM naStep
      { newAxes := P ++ (o + c) :: ns, combine := C0, isNew := isNewOf c ns, keys := K0, axis := P.length,
        dict := D0 } = .ok st' ∧
      st'.newAxes = P ++ addHead o (naRaw c ns fk) ∧ st'.keys = K0 ++ containedKeys c ns fk ∧
      st'.combine = C0 ++ (naComb c ns fk).map (· + P.length) ∧ st'.dict = D0 ++ naDict p c ns fk := by
  induction fk with
  | nil =>
    intro p c ns s τ o P C0 K0 D0 hl hg hτ
    obtain ⟨h, _⟩ := resolve_nil_iff.mp hτ
    have : c = 0 ∧ ns = [] := by
      cases s with
      | nil =>
        cases ns with
        | nil => simpa [naShape] using h
        | cons => simp at hl
      | cons => simp [naShape] at h
    obtain ⟨rfl, rfl⟩ := this
    exact ⟨_, rfl, by simp [naRaw, addHead], by simp [containedKeys], by simp [naComb], by simp [naDict]⟩
  | cons k fk ih =>
    intro p c ns s τ o P C0 K0 D0 hl hg hτ
    rw [List.zipIdx_cons, List.foldlM_cons]
    by_cases hk : k = .newaxis
    · subst hk
      obtain ⟨τ', rfl, hτ'⟩ := resolve_newaxis_iff.mp hτ
      obtain ⟨st', h1, h2, h3, h4, h5⟩ := ih (p := p + 1) (o := o + 1) (P := P) (C0 := C0) (K0 := K0) (D0 := D0) hl
        (by simpa only [naTypes] using hg) hτ'
      refine ⟨st', ?_, ?_, ?_, ?_, ?_⟩
      · rw [← h1]
        simp only [naStep, modify_append_head]
        rw [show o + c + 1 = o + 1 + c by omega]; rfl
      · rw [h2]; simp only [naRaw, addHead_bump]
      · rw [h3]; simp only [containedKeys]
      · rw [h4]; simp only [naComb]
      · rw [h5]; simp only [naDict]
    · have hk' : k.isNewaxis = false := by cases k <;> simp_all [Key.isNewaxis]
      have hk'' : ∀ x : Unit, k = .newaxis → False := fun _ => hk
      obtain ⟨n, sh, t, τ', hsh, rfl, ht, hτ'⟩ := (resolve_cons_iff hk').mp hτ
      cases c with
      | succ c =>
        rw [naShape_succ, List.cons.injEq] at hsh
        obtain ⟨rfl, rfl⟩ := hsh
        rw [naTypes] at hg
        swap; exact hk
        obtain ⟨hg1, hg3⟩ := hg
        rw [naRaw, naComb, naDict, containedKeys]
        rotate_left
        all_goals first | exact hk | skip
        rcases hg1 with ⟨i, rfl⟩ | ⟨sl, rfl⟩ | ⟨l, rfl⟩
        · obtain ⟨st', h1, h2, h3, h4, h5⟩ := ih (p := p + 1) (o := o) (P := P) (C0 := C0) (K0 := K0) (D0 := D0) hl hg3 hτ'
          refine ⟨st', ?_, h2, h3, h4, h5⟩
          rw [← h1]
          have hi : -1 ≤ i ∧ i < 1 := by
            simp only [resolve1] at ht
            split at ht
            · rename_i h; exact range_one h
            · cases ht
          simp only [naStep, isNewOf_succ, modify_append_head]
          rw [if_pos hi, show o + (c + 1) - 1 = o + c by omega]; rfl
        · obtain ⟨r, hr, _⟩ := resolve1_slice ht
          obtain ⟨st', h1, h2, h3, h4, h5⟩ := ih (p := p + 1) (o := o + 1) (P := P) (C0 := C0) (K0 := K0)
            (D0 := D0 ++ (if r.length ≠ 1 then [(p, r.length)] else [])) hl hg3 hτ'
          refine ⟨st', ?_, ?_, h3, h4, ?_⟩
          · rw [← h1]
            simp only [naStep, isNewOf_succ, hr, bind, Except.bind]
            rw [show o + (c + 1) = o + 1 + c by omega]
            by_cases hrl : r.length = 1 <;> simp [hrl, pure, Except.pure]
          · rw [h2, if_neg (by simp [Key.isScalar]), addHead_bump]
          · rw [h5]; simp [naDict1, hr]
        · obtain ⟨st', h1, h2, h3, h4, h5⟩ := ih (p := p + 1) (o := o + 1) (P := P) (C0 := C0) (K0 := K0)
            (D0 := D0 ++ [(p, l.length)]) hl hg3 hτ'
          refine ⟨st', ?_, ?_, h3, h4, ?_⟩
          · rw [← h1]
            have hl' : l.all (fun i => decide (-1 ≤ i ∧ i < 1)) = true := by
              simp only [resolve1] at ht
              split at ht
              · rename_i h
                rw [List.all_eq_true] at h ⊢
                intro i hi; simpa using range_one (h i hi)
              · cases ht
            simp only [naStep, isNewOf_succ]
            rw [if_pos hl', show o + (c + 1) = o + 1 + c by omega]; rfl
          · rw [h2, if_neg (by simp [Key.isScalar]), addHead_bump]
          · rw [h5]; simp [naDict1]
      | zero =>
        cases ns with
        | nil =>
          have : s = [] := List.length_eq_zero_iff.mp (by simpa using hl.symm)
          subst this
          simp [naShape] at hsh
        | cons c' ns =>
          cases s with
          | nil => simp at hl
          | cons x s =>
          rw [naShape_zero, List.cons.injEq] at hsh
          obtain ⟨rfl, rfl⟩ := hsh
          rw [naTypes] at hg
          swap; exact hk
          rw [naRaw, naComb, naDict, containedKeys]
          rotate_left
          all_goals first | exact hk | skip
          obtain ⟨st', h1, h2, h3, h4, h5⟩ := ih (p := p + 1) (o := 0) (P := P ++ [o])
            (C0 := if k.isScalar then C0 ++ [P.length] else C0) (K0 := K0 ++ [k]) (D0 := D0) (by simpa using hl) hg hτ'
          refine ⟨st', ?_, ?_, ?_, ?_, h5⟩
          · rw [← h1]
            have hstep : naStep { newAxes := P ++ (o + 0) :: c' :: ns, combine := C0, isNew := isNewOf 0 (c' :: ns), keys := K0, axis := P.length, dict := D0 } (k, p) =
              .ok { newAxes := P ++ (o + 0) :: c' :: ns, isNew := isNewOf c' ns, combine := if k.isScalar then C0 ++ [P.length] else C0, keys := K0 ++ [k], axis := P.length + 1, dict := D0 } := by
              cases k <;> first | exact absurd rfl hk | rfl
            rw [hstep]
            simp [bind, Except.bind]
          · rw [h2, addHead_zero]; simp [addHead]
          · rw [h3]; simp
          · rw [h4]; cases k.isScalar <;> simp [Function.comp_def, Nat.add_comm, Nat.add_left_comm]

theorem naFold {fk : List Key} {seen : Bool} {p c : Nat} {ns s : List Nat} {τ : List Sel} {o : Nat}
    {P C0 : List Nat} {K0 : List Key} {D0 : List (Nat × Nat)} (hl : ns.length = s.length) (hg : naKeysOk seen c ns fk)
    (hτ : resolve fk (naShape (c :: ns) s) = .ok τ) :
    ∃ st', (fk.zipIdx p).foldlM naStep
      { newAxes := P ++ (o + c) :: ns, combine := C0, isNew := isNewOf c ns, keys := K0, axis := P.length,
        dict := D0 } = .ok st' ∧
      st'.newAxes = P ++ addHead o (naRaw c ns fk) ∧ st'.keys = K0 ++ containedKeys c ns fk ∧
      st'.combine = C0 ++ (naComb c ns fk).map (· + P.length) ∧ st'.dict = D0 ++ naDict p c ns fk :=
  naFoldT hl (naTypes_of_ok hg) hτ

/-- Keys contained in a list of keys without ellipses are exact. -/
theorem containedKeys_exact {fk : List Key} (he : ∀ k ∈ fk, k.isEllipsis = false) (c : Nat) (ns : List Nat) :
    Exact (containedKeys c ns fk) := by
  fun_induction containedKeys c ns fk with
  | case1 => intro k hk; cases hk
  | case2 c ns ks ih => exact ih (fun k hk => he k (List.mem_cons_of_mem _ hk))
  | case3 c ns k ks hk ih => exact ih (fun k hk => he k (List.mem_cons_of_mem _ hk))
  | case4 n ns k ks hk ih =>
    intro x hx
    rcases List.mem_cons.mp hx with rfl | hx
    · exact ⟨by cases x <;> simp_all [Key.isNewaxis], he _ List.mem_cons_self⟩
    · exact ih (fun k hk => he k (List.mem_cons_of_mem _ hk)) x hx
  | case5 => intro k hk; cases hk

theorem naOut_cons_bump {na sh : List Nat} (h : na.length = sh.length + 1) :
    naShape (bump na) sh = 1 :: naShape na sh ∧ (bump na).length = sh.length + 1 ∧
      ∀ i idx, naStrip (bump na) (i :: idx) = naStrip na idx := by
  cases na with
  | nil => simp at h
  | cons n na => exact ⟨naShape_succ n na sh, by simpa [bump] using h, fun i idx => naStrip_succ n na i idx⟩

theorem naSem {fk : List Key} : ∀ {seen : Bool} {p c : Nat} {ns s : List Nat} {τ : List Sel},
    ns.length = s.length → naKeysOk seen c ns fk → resolve fk (naShape (c :: ns) s) = .ok τ →
    ∃ σ, resolve (containedKeys c ns fk) s = .ok σ ∧ (naOut c ns fk).length = (selShape σ).length + 1 ∧
      ((naDict p c ns fk).map Prod.fst).Nodup ∧
      (∀ q ∈ naDict p c ns fk, p ≤ q.1 ∧ (naShape (naOut c ns fk) (selShape σ))[q.1 - p]? = some 1) ∧
      bcShape (naDict p c ns fk) p (naShape (naOut c ns fk) (selShape σ)) = selShape τ ∧
      (∀ idx, InB (selShape τ) idx →
        selSrc σ (naStrip (naOut c ns fk) (bcIdx (naDict p c ns fk) p idx)) = naStrip (c :: ns) (selSrc τ idx)) ∧
      (seen = true → naDict p c ns fk = []) := by
  induction fk with
  | nil =>
    intro seen p c ns s τ hl hg hτ
    obtain ⟨h, rfl⟩ := resolve_nil_iff.mp hτ
    have : c = 0 ∧ ns = [] := by
      cases s with
      | nil =>
        cases ns with
        | nil => simpa [naShape] using h
        | cons => simp at hl
      | cons => simp [naShape] at h
    obtain ⟨rfl, rfl⟩ := this
    have : s = [] := List.length_eq_zero_iff.mp (by simpa using hl.symm)
    subst this
    exact ⟨[], rfl, rfl, List.nodup_nil, fun q hq => (by cases hq), rfl, fun idx hi => rfl, fun _ => rfl⟩
  | cons k fk ih =>
    intro seen p c ns s τ hl hg hτ
    -- a dimension of the result that is stretched or not by the head of the dictionary
    have hnone : ∀ {d : List (Nat × Nat)}, (∀ q ∈ d, p + 1 ≤ q.1) → d.lookup p = none := by
      intro d hd
      apply lookup_none_of_not_mem
      intro hm
      obtain ⟨q, hq, hqe⟩ := List.mem_map.mp hm
      have := hd q hq
      omega
    by_cases hk : k = .newaxis
    · subst hk
      obtain ⟨τ', rfl, hτ'⟩ := resolve_newaxis_iff.mp hτ
      obtain ⟨σ, h1, h2, h3, h4, h5, h6, h7⟩ := ih (p := p + 1) (seen := seen) hl
        (by simpa only [naKeysOk] using hg) hτ'
      obtain ⟨hb1, hb2, hb3⟩ := naOut_cons_bump h2
      have hn := hnone (fun q hq => (h4 q hq).1)
      refine ⟨σ, ?_, ?_, ?_, ?_, ?_, ?_, ?_⟩
      · simpa only [containedKeys] using h1
      · simpa only [naOut] using hb2
      · simpa only [naDict] using h3
      · simp only [naDict, naOut]
        intro q hq
        have := h4 q hq
        refine ⟨by omega, ?_⟩
        rw [hb1, show q.1 - p = (q.1 - (p + 1)) + 1 by omega]
        simpa using this.2
      · simp only [naDict, naOut, hb1, bcShape, hn, Option.getD_none, selShape]
        rw [h5]
      · intro idx hi
        cases idx with
        | nil => exact hi.elim
        | cons j idx =>
          simp only [naDict, naOut, bcIdx, hn, hb3, selSrc]
          exact h6 idx hi.2
      · simpa only [naDict] using h7
    · have hk' : k.isNewaxis = false := by cases k <;> simp_all [Key.isNewaxis]
      obtain ⟨n, sh, t, τ', hsh, rfl, ht, hτ'⟩ := (resolve_cons_iff hk').mp hτ
      cases c with
      | succ c =>
        rw [naShape_succ, List.cons.injEq] at hsh
        obtain ⟨rfl, rfl⟩ := hsh
        rw [naKeysOk] at hg
        swap; exact hk
        obtain ⟨hg1, hg2, hg3⟩ := hg
        rw [naOut, naDict, containedKeys]
        rotate_left
        all_goals first | exact hk | skip
        obtain ⟨σ, h1, h2, h3, h4, h5, h6, h7⟩ := ih (p := p + 1) hl hg3 hτ'
        have hn := hnone (fun q hq => (h4 q hq).1)
        -- a key that keeps the dimension, giving it length `r`
        have hkeep : ∀ (l : List Nat) (d : List (Nat × Nat)), t = .pick l → (d = [] ∧ l.length = 1 ∨ d = [(p, l.length)]) →
            (d ≠ [] → seen = false) → k.isScalar = false →
            ∃ σ, resolve (containedKeys c ns fk) s = .ok σ ∧
              (if k.isScalar then naOut c ns fk else bump (naOut c ns fk)).length = (selShape σ).length + 1 ∧
              ((d ++ naDict (p + 1) c ns fk).map Prod.fst).Nodup ∧
              (∀ q ∈ d ++ naDict (p + 1) c ns fk, p ≤ q.1 ∧
                (naShape (if k.isScalar then naOut c ns fk else bump (naOut c ns fk)) (selShape σ))[q.1 - p]? = some 1) ∧
              bcShape (d ++ naDict (p + 1) c ns fk) p
                (naShape (if k.isScalar then naOut c ns fk else bump (naOut c ns fk)) (selShape σ)) = selShape (t :: τ') ∧
              (∀ idx, InB (selShape (t :: τ')) idx →
                selSrc σ (naStrip (if k.isScalar then naOut c ns fk else bump (naOut c ns fk))
                  (bcIdx (d ++ naDict (p + 1) c ns fk) p idx)) = naStrip ((c + 1) :: ns) (selSrc (t :: τ') idx)) ∧
              (seen = true → d ++ naDict (p + 1) c ns fk = []) := by
          intro l d htl hd hseen hsc
          subst htl
          obtain ⟨hb1, hb2, hb3⟩ := naOut_cons_bump h2
          rw [if_neg (by simp [hsc])]
          have hlk : ∀ i, (d ++ naDict (p + 1) c ns fk).lookup (p + 1 + i) = (naDict (p + 1) c ns fk).lookup (p + 1 + i) := by
            intro i
            rw [lookup_append]
            rcases hd with ⟨rfl, _⟩ | rfl
            · simp
            · rw [List.lookup_cons, show (p + 1 + i == p) = false by simp; omega]; simp
          have hd1 : ∀ q ∈ d, q.1 = p := by
            rcases hd with ⟨rfl, _⟩ | rfl
            · intro q hq; cases hq
            · intro q hq; rw [List.mem_singleton.mp hq]
          refine ⟨σ, h1, hb2, ?_, ?_, ?_, ?_, ?_⟩
          · rw [List.map_append]
            rcases hd with ⟨rfl, _⟩ | rfl
            · simpa using h3
            · simp only [List.map_cons, List.map_nil, List.singleton_append, List.nodup_cons]
              refine ⟨fun hm => ?_, h3⟩
              obtain ⟨q, hq, hqe⟩ := List.mem_map.mp hm
              have := (h4 q hq).1
              omega
          · intro q hq
            rw [hb1]
            rcases List.mem_append.mp hq with hq | hq
            · rw [hd1 q hq]; simp
            · have := h4 q hq
              refine ⟨by omega, ?_⟩
              rw [show q.1 - p = (q.1 - (p + 1)) + 1 by omega]
              simpa using this.2
          · rw [hb1]
            simp only [bcShape, selShape]
            rw [bcShape_congr (d' := naDict (p + 1) c ns fk) (p' := p + 1) (fun i _ => hlk i), h5]
            congr 1
            rcases hd with ⟨rfl, hl1⟩ | rfl
            · rw [List.nil_append, hn, hl1]; rfl
            · simp
          · intro idx hi
            cases idx with
            | nil => exact hi.elim
            | cons j idx =>
              simp only [bcIdx, hb3, selSrc, naStrip_succ]
              rw [bcIdx_congr (d' := naDict (p + 1) c ns fk) (p' := p + 1) (fun i _ => hlk i)]
              exact h6 idx hi.2
          · intro hs
            have hd0 : d = [] := by
              by_contra hne
              rw [hseen hne] at hs; cases hs
            rw [hd0, List.nil_append]
            exact h7 (by simp [hs])
        rcases hg1 with ⟨i, rfl⟩ | ⟨sl, rfl⟩ | ⟨l, rfl⟩
        · -- dimension dropped
          simp only [resolve1] at ht
          split at ht
          · cases ht
            have hd0 := h7 (by simp [Key.isScalar])
            simp only [Key.isScalar, if_true, naDict1, List.nil_append]
            rw [hd0] at h5 h6 ⊢
            refine ⟨σ, h1, h2, List.nodup_nil, fun q hq => (by cases hq), ?_, ?_, fun _ => rfl⟩
            · rw [bcShape_nil] at h5 ⊢; simpa [selShape] using h5
            · intro idx hi
              have := h6 idx hi
              rw [bcIdx_nil] at this ⊢
              rw [selSrc, naStrip_succ]; exact this
          · cases ht
        · obtain ⟨r, hr, htr⟩ := resolve1_slice ht
          have := hkeep (r.map Int.toNat) (if r.length ≠ 1 then [(p, r.length)] else []) htr (by
            rw [List.length_map]
            by_cases h : r.length = 1 <;> simp [h]) (by
            intro hne
            apply hg2
            by_cases h : r.length = 1
            · simp [h] at hne
            · simp [stretchesNew, hr, h]) rfl
          have hd1 : naDict1 p (.slice sl) = if r.length ≠ 1 then [(p, r.length)] else [] := by simp only [naDict1, hr]
          rw [hd1]; exact this
        · simp only [resolve1] at ht
          split at ht
          · cases ht
            exact hkeep _ [(p, l.length)] rfl (Or.inr (by simp)) (fun _ => hg2 rfl) rfl
          · cases ht
      | zero =>
        cases ns with
        | nil =>
          have : s = [] := List.length_eq_zero_iff.mp (by simpa using hl.symm)
          subst this
          simp [naShape] at hsh
        | cons c' ns =>
          cases s with
          | nil => simp at hl
          | cons x s =>
          rw [naShape_zero, List.cons.injEq] at hsh
          obtain ⟨rfl, rfl⟩ := hsh
          rw [naKeysOk] at hg
          swap; exact hk
          rw [naOut, naDict, containedKeys]
          rotate_left
          all_goals first | exact hk | skip
          obtain ⟨σ, h1, h2, h3, h4, h5, h6, h7⟩ := ih (p := p + 1) (by simpa using hl) hg hτ'
          have hn := hnone (fun q hq => (h4 q hq).1)
          have hsc : (k.isScalar = true ∧ ∃ i, t = .at i) ∨ (k.isScalar = false ∧ ∃ l, t = .pick l) := by
            cases k with
            | int i =>
              left; refine ⟨rfl, ?_⟩
              simp only [resolve1] at ht
              split at ht
              · cases ht; exact ⟨_, rfl⟩
              · cases ht
            | slice sl => right; obtain ⟨r, _, rfl⟩ := resolve1_slice ht; exact ⟨rfl, _, rfl⟩
            | tuple l | list l | iarr l | barr l =>
              right; refine ⟨rfl, ?_⟩
              simp only [resolve1] at ht
              split at ht
              · cases ht; exact ⟨_, rfl⟩
              · cases ht
            | newaxis => exact absurd rfl hk
            | ellipsis => simp [resolve1] at ht
            | bad => simp [resolve1] at ht
          rcases hsc with ⟨hs, i, rfl⟩ | ⟨hs, l, rfl⟩
          · have hd0 := h7 (by simp [hs])
            rw [if_pos hs]
            rw [hd0] at h5 h6 ⊢
            refine ⟨.at i :: σ, (resolve_cons_iff hk').mpr ⟨_, _, _, _, rfl, rfl, ht, h1⟩, h2, List.nodup_nil,
              fun q hq => (by cases hq), ?_, ?_, fun _ => rfl⟩
            · rw [bcShape_nil] at h5 ⊢; simpa [selShape] using h5
            · intro idx hi
              have := h6 idx hi
              rw [bcIdx_nil] at this ⊢
              simp only [selSrc, naStrip_zero]; rw [this]
          · rw [if_neg (by simp [hs])]
            obtain ⟨y, ys, hy⟩ := List.exists_cons_of_ne_nil (naOut_ne_nil c' ns fk)
            have hz : naShape (0 :: naOut c' ns fk) (selShape (.pick l :: σ)) =
                l.length :: naShape (naOut c' ns fk) (selShape σ) := by
              rw [hy]; simp only [selShape]; exact naShape_zero _ _ _ _
            refine ⟨.pick l :: σ, (resolve_cons_iff hk').mpr ⟨_, _, _, _, rfl, rfl, ht, h1⟩, by simp [selShape, h2], h3,
              ?_, ?_, ?_, ?_⟩
            · intro q hq
              have := h4 q hq
              rw [hz]
              refine ⟨by omega, ?_⟩
              rw [show q.1 - p = (q.1 - (p + 1)) + 1 by omega]
              simpa using this.2
            · rw [hz]
              simp only [bcShape, hn, Option.getD_none, selShape, h5]
            · intro idx hi
              cases idx with
              | nil => exact hi.elim
              | cons j idx =>
                simp only [bcIdx, hn, selSrc]
                rw [hy, naStrip_zero, ← hy, naStrip_zero]
                simp only [selSrc]
                rw [h6 idx hi.2]; simp
            · intro hs'
              exact h7 (by simp [hs'])

end Biggus

import Verif.Proofs.Iter
import Verif.Props.Index
import Verif.Proofs.MultiStack
/-
C75: integers out of range are rejected by all classes (with two exceptions).
C76: iteration.
-/
namespace Biggus
open Spec

variable {α V : Type} [Inhabited α] [Inhabited V] {m : Mode α V} {limit : Nat}

/-- C75: an integer outside `[-n, n)` for a dimension of length `n` raises `IndexError` when the array is indexed, whatever the array is
made of, if the dimension is checked (`Arr.checks`). -/
theorem C75_out_of_range_rejected (a : Arr α) (hwf : a.WF) {s : List Nat} (hs : a.shape = .ok s) {p n : Nat} (hp : s[p]? = some n) (hc : a.checks p)
    (i : Int) (hi : i < -n ∨ n ≤ i) : a.getitem (oneInt p i (s.length - p - 1)) = .error .index ∧ (p = 0 → a.getitem [.int i] = .error .index) := by
  have hlt := (List.getElem?_eq_some_iff.mp hp).1
  have hi' : ¬ inRange i n = true := by simp only [inRange, Bool.and_eq_true, decide_eq_true_eq]; omega
  refine ⟨getitem_rejects a hwf hs hc hp hi' (by omega) (expand_oneInt (by omega)), ?_⟩
  rintro rfl
  refine getitem_rejects (q := s.length - 1) a hwf hs hc hp hi' (by omega) ?_
  exact expand_trimmed hlt

/-- C75, for everything a user builds with the constructors. -/
theorem C75_built (fwd : Bool) (a : Arr α) (hb : a.Built m limit fwd false .whole) {s : List Nat} (hs : a.shape = .ok s) {n : Nat} (hp : s[0]? = some n)
    (hc : a.checks 0) (i : Int) (hi : i < -n ∨ n ≤ i) : a.getitem [.int i] = .error .index :=
  (C75_out_of_range_rejected a hb.fine.1 hs hp hc i hi).2 rfl

theorem expand_first {n : Nat} (i : Int) : expandKeys [.int i] (n + 1) = .ok (oneInt 0 i n) := expand_trimmed (p := 0) (by omega)

theorem simpleKeys_first {fwd : Bool} {i n : Nat} {s : List Nat} (h : i < n) : SimpleKeys fwd [.int i] (n :: s) := by
  refine ⟨_, expand_first i, ?_⟩
  have hd : dropNew (oneInt 0 (i : Int) s.length) = oneInt 0 (i : Int) s.length :=
    List.filter_eq_self.mpr (fun k hk => by simp [(oneInt_exact _ _ _ k hk).1])
  rw [hd, oneInt_zero]
  refine .cons (Or.inl ⟨i, rfl, by simp [inRange]; omega, fun _ => by omega⟩) ?_
  clear hd
  induction s with
  | nil => exact .nil
  | cons x s ih =>
    obtain ⟨r, hr, hl⟩ := range_full x
    rw [List.length_cons, List.replicate_succ]
    exact .cons (Or.inr (Or.inl ⟨PySlice.full, r, rfl, fun _ => rfl, hr, fun h0 => by rintro rfl; exact h0 hl.symm⟩)) ih

theorem row_eqv {x r : NDA V} {i n : Nat} {s : List Nat} (hx : x.shape = n :: s) (hi : i < n) (h : npIndex x [.int i] = .ok r) :
    r ≈ₐ ⟨s, fun idx => x.get (i :: idx)⟩ := by
  obtain ⟨fk, σ, h1, h2, rfl⟩ := npIndex_ok_iff.mp h
  rw [hx, List.length_cons, expand_first] at h1
  cases h1
  rw [hx, oneInt_zero] at h2
  obtain ⟨n', ns, s1, σ', e1, rfl, h3, h4⟩ := (resolve_cons_iff rfl).mp h2
  cases e1
  have hr : inRange (i : Int) n = true := by simp [inRange]; omega
  simp only [resolve1, hr, if_true, Except.ok.injEq] at h3
  subst h3
  obtain ⟨g1, g2⟩ := resolve_full h4
  refine ⟨by simpa [NDA.ortho, selShape] using g1, fun idx hidx => ?_⟩
  simp only [NDA.ortho, selShape, selSrc] at hidx ⊢
  rw [g1] at hidx
  rw [g2 _ hidx]
  congr 2

theorem iterFrom_of {β : Type} {get : Nat → Res β} {f : Nat → β} {n : Nat} (h1 : ∀ i, i < n → get i = .ok (f i)) (h2 : get n = .error .index) :
    ∀ k, k ≤ n → IterFrom get (n - k) ((List.range k).map (fun j => f (n - k + j)))
  | 0, _ => .stop (by simpa using h2)
  | k + 1, hk => by
    rw [List.range_succ_eq_map, List.map_cons, List.map_map]
    refine .next (by simpa using h1 _ (by omega)) ?_
    have := iterFrom_of h1 h2 k (by omega)
    rw [show n - (k + 1) + 1 = n - k by omega]
    have e : ((fun j => f (n - (k + 1) + j)) ∘ Nat.succ) = (fun j => f (n - k + j)) := by
      funext j; simp only [Function.comp]; congr 1; omega
    rw [e]
    exact this

/-- Iteration is deterministic. -/
theorem iterFrom_unique {β : Type} {get : Nat → Res β} : ∀ {i : Nat} {xs ys : List β}, IterFrom get i xs → IterFrom get i ys → xs = ys
  | _, _, _, .stop _, .stop _ => rfl
  | _, _, _, .stop h, .next h' _ => by rw [h] at h'; cases h'
  | _, _, _, .next h _, .stop h' => by rw [h] at h'; cases h'
  | _, _, _, .next h t, .next h' t' => by
    rw [h] at h'; cases h'
    rw [iterFrom_unique t t']

/-- C76: iterating over an array (`for x in a`, `list(a)`, `x, y = a`, ...) ends, and gives its rows in order: as many arrays as the first
dimension is long, the `i`-th of which yields `x[i]` if `a` yields `x`.  Stacking them again gives back the array. -/
theorem C76_iteration (fwd : Bool) (a : Arr α) (hb : a.Built m limit fwd false .whole) {n : Nat} {s : List Nat} (hs : a.shape = .ok (n :: s)) (hc : a.checks 0) :
    ∃ (x : NDA V) (xs : List (Arr α)), a.Yields m limit x ∧ a.Iterates xs ∧ xs.length = n ∧
      (∀ i (h : i < xs.length), xs[i].Yields m limit ⟨s, fun idx => x.get (i :: idx)⟩) ∧
      (n ≠ 0 → ∃ b, stackList xs = .ok b ∧ b.Yields m limit x) := by
  obtain ⟨h1, h2, _, h4⟩ := hb.fine
  obtain ⟨x, hx⟩ : ∃ x : NDA V, a.Yields m limit x := ⟨a.den m, .of_den h1 h2⟩
  have hxs : x.shape = n :: s := Except.ok.inj (hx.1.symm.trans hs)
  have row : ∀ i, ∃ b, i < n → a.getitem [.int i] = .ok b ∧ b.Yields m limit ⟨s, fun idx => x.get (i :: idx)⟩ := by
    intro i
    by_cases hi : i < n
    · obtain ⟨b, r, k1, k2, k3, _⟩ := C06_simple_keys fwd [[.int (i : Int)]] a x h1 h2 h4 hx ⟨by rw [hxs]; exact simpleKeys_first hi, fun _ _ _ _ => trivial⟩
      refine ⟨b, fun _ => ?_⟩
      simp only [List.foldlM_cons, List.foldlM_nil] at k1
      obtain ⟨b', g1, g2⟩ := bind_ok.mp k1
      cases g2
      unfold indexAll at k2
      simp only [List.foldlM_cons, List.foldlM_nil] at k2
      obtain ⟨r', g3, g4⟩ := bind_ok.mp k2
      cases g4
      exact ⟨g1, k3.congr (row_eqv hxs hi g3)⟩
    · exact ⟨default, fun h => absurd h hi⟩
  choose f hf using row
  have hstop : a.getitem [.int n] = .error .index := C75_built fwd a hb hs rfl hc n (Or.inr (le_refl _))
  have hit := iterFrom_of (get := fun i => a.getitem [.int i]) (f := f) (n := n) (fun i hi => (hf i hi).1) hstop n (le_refl _)
  rw [Nat.sub_self] at hit
  simp only [Nat.zero_add] at hit
  refine ⟨x, (List.range n).map f, hx, hit, by simp, fun i hi => ?_, fun hn => ?_⟩
  · have hi' : i < n := by simpa using hi
    simpa using (hf i hi').2
  · obtain ⟨b, k1, k2⟩ := yields_stackList (m := m) (limit := limit) (l := (List.range n).map f) (y := fun i => ⟨s, fun idx => x.get (i :: idx)⟩) (s := s)
      (by simpa using hn) (fun i hi => by
        have hi' : i < n := by simpa using hi
        refine ⟨?_, rfl⟩
        rw [List.getD_eq_getElem?_getD, List.getElem?_eq_getElem hi]
        simpa using (hf i hi').2)
    refine ⟨b, k1, k2.congr ?_⟩
    refine ⟨by simp [NDA.stacked, hxs], fun idx hidx => ?_⟩
    simp only [NDA.stacked, List.length_map, List.length_range, List.length_singleton] at hidx ⊢
    cases idx with
    | nil => simp [InB] at hidx
    | cons j idx => rfl

/-- Iteration does not end if no index is refused. -/
theorem iterFrom_endless {β : Type} {get : Nat → Res β} (h : ∀ i, ∃ x, get i = .ok x) {i : Nat} {xs : List β} : ¬ IterFrom get i xs := by
  intro hx
  induction hx with
  | stop h' => obtain ⟨x, hx⟩ := h _; rw [hx] at h'; cases h'
  | next _ _ ih => exact ih

/-- C76 fails in the code for constants: a `ConstantArray` (`biggus.zeros`, `biggus.ones`, ...) accepts every index, iterating over it never
ends. -/
theorem C76_constant_never_ends (n : Nat) (s : List Nat) (v : α) (dt : Nat) (xs : List (Arr α)) : ¬ (Arr.const (n :: s) v dt).Iterates xs := by
  refine iterFrom_endless (fun i => ?_)
  rw [Arr.getitem]
  unfold slicedShape
  rw [List.length_cons, bind_assoc, bind_val (fullKeys_of_expandKeys _ _ _ (expand_first (i : Int))), bind_val (slicedShapeLoop_oneInt (by simp))]
  exact ⟨_, rfl⟩

/-- C76 fails in the code for broadcasts with a leading dimension (`x + column`, when `x` has fewer dimensions, ...): every index is accepted
on the leading dimension. -/
theorem C76_leading_never_ends (fwd : Bool) (c : Arr α) (d : List (Nat × Nat)) (n : Nat) (lead : List Nat)
    (hb : (Arr.bcast c d (n :: lead)).Built m limit fwd false .whole) (xs : List (Arr α)) : ¬ (Arr.bcast c d (n :: lead)).Iterates xs := by
  obtain ⟨h1, h2, _, h4⟩ := hb.fine
  have hx : (Arr.bcast c d (n :: lead)).Yields m limit ((Arr.bcast c d (n :: lead)).den m) := .of_den h1 h2
  obtain ⟨_, _, _, _, hpos, sa, hsa, hd⟩ := id h1
  obtain ⟨s', hs'⟩ : ∃ s', (Arr.bcast c d (n :: lead)).shape = .ok (n :: s') := by
    have := hx.1
    have h0 := this
    rw [Arr.shape, bind_val hsa] at h0
    obtain ⟨t, _, h0⟩ := bind_ok.mp h0
    exact ⟨lead ++ t, by rw [this, ← h0]; rfl⟩
  have hn : 0 < n := hpos n List.mem_cons_self
  have hxs : ((Arr.bcast c d (n :: lead)).den m).shape = n :: s' := Except.ok.inj (hx.1.symm.trans hs')
  obtain ⟨b, r, k1, _⟩ := C06_simple_keys fwd [[.int ((0 : Nat) : Int)]] _ _ h1 h2 h4 hx ⟨by rw [hxs]; exact simpleKeys_first hn, fun _ _ _ _ => trivial⟩
  simp only [List.foldlM_cons, List.foldlM_nil] at k1
  obtain ⟨b', g1, _⟩ := bind_ok.mp k1
  have hind : ∀ i : Int, (Arr.bcast c d (n :: lead)).getitem [.int i] = (Arr.bcast c d (n :: lead)).getitem [.int ((0 : Nat) : Int)] := by
    intro i
    rw [Arr.getitem, arrayGetitem_exact hs' (expand_first i) (oneInt_exact _ _ _), Arr.getitem, arrayGetitem_exact hs' (expand_first _) (oneInt_exact _ _ _)]
    have hl : lead.length ≤ s'.length := by
      have := hs'
      rw [Arr.shape, bind_val hsa] at this
      obtain ⟨t, _, h0⟩ := bind_ok.mp this
      cases h0; simp
    unfold bcastFull
    rw [take_oneInt (by simp) (by simpa using hl), take_oneInt (by simp) (by simpa using hl), drop_oneInt_after (by simp), drop_oneInt_after (by simp),
      slicedShape_oneInt (by simp), slicedShape_oneInt (by simp)]
  exact iterFrom_endless (fun i => ⟨b', (hind i).trans g1⟩)

/-- Iterating over a 0-dimensional array gives nothing (NumPy raises `TypeError`). -/
theorem C76_zero_dim_empty (a : Arr α) (hwf : a.WF) (hs : a.shape = .ok []) : a.Iterates [] := by
  have key : ∀ a : Arr α, a.WF → a.shape = .ok [] → a.getitem [.int ((0 : Nat) : Int)] = .error .index := by
    intro a
    have he : fullKeys [.int ((0 : Nat) : Int)] 0 = .error .index := rfl
    have hag : ∀ full : List Key → Res (Arr α), arrayGetitem full (.ok []) [.int ((0 : Nat) : Int)] = .error .index := fun full => rfl
    induction a with
    | asType a dt ih => intro h1 h2; rw [Arr.getitem]; exact bind_err (ih h1 h2)
    | maskVal a v ih => intro h1 h2; rw [Arr.getitem]; exact bind_err (ih h1 h2)
    | const s v dt => intro h1 h2; cases h2; rw [Arr.getitem]; rfl
    | newAxes a na ih =>
      intro h1 h2
      obtain ⟨hwa, sa, hsa, hna⟩ := h1
      rw [Arr.shape, bind_val hsa, naInsert_one na sa hna] at h2
      have h3 : naShape na sa = [] := Except.ok.inj h2
      have := naShape_length hna
      rw [h3] at this
      rw [Arr.getitem, bind_val hsa]
      unfold newAxesGetitem
      rw [← this]
      rfl
    | elem1 a op ih => intro h1 h2; rw [Arr.shape] at h2; rw [Arr.getitem, h2, hag]
    | elem2 a b op ih => intro h1 h2; rw [Arr.shape] at h2; rw [Arr.getitem, h2, hag]
    | adapter o c ks => intro h1 h2; rw [Arr.shape] at h2; rw [Arr.getitem, h2, hag]
    | _ => intro h1 h2; rw [Arr.getitem, h2, hag]
  exact .stop (key a hwf hs)

/-- The hypotheses of C75 and C76 hold for `((x + c).mean(axis=1)).T`, of shape (4, 2): the last of its four rows evaluates to the
expected numbers, and `a[4]` is refused. -/
example : exExpr.Built exMode 5 true false .whole ∧ exExpr.shape = .ok [4, 2] ∧ exExpr.checks 0 ∧
    Res.view (exExpr.getitem [.int 3] >>= fun b => b.eval exMode 5 3) = .ok ([2], [17, 29]) ∧
    (exExpr.getitem [.int 4]).map (fun _ => ()) = .error .index :=
  ⟨exExpr_built, by decide +kernel, ⟨1, rfl, Or.inl (by simp [Arr.checks])⟩, by decide +kernel, by decide +kernel⟩

/-- They hold for a mosaic of a stack and a new axis on a source, along the first axis. -/
example : (Arr.mosaic 2 (fun _ => .stack [3] (fun _ => .newAxes (.adapter true exSource []) [1, 0, 0, 0])) 0 : Arr ℚ).checks 0 :=
  ⟨le_refl _, fun _ _ => Or.inl (by decide)⟩

/-- `C76_leading_never_ends` applies to a row repeated 3 times. -/
example : (Arr.bcast (.adapter false exSource []) [] [3] : Arr ℚ).Built exMode 5 true false .whole :=
  .bcast (a := .adapter false exSource []) (d := []) (lead := [3]) (by decide) (.source _ _ _ _ (fun _ _ => rfl) (by simp)) trivial (by decide)
    (by rw [mkBcast_notBcast rfl, mkBcastFlat_iff (s := [2, 3, 4]) (by decide +kernel) (by decide)]; exact ⟨by decide, by decide, rfl⟩)

/-- C76 fails in the code after indexing a source with a boolean array: the first step of the iteration raises `TypeError`. -/
theorem C76_mask_then_iterate_raises : (Arr.getitem (.adapter true exSource [] : Arr ℚ) [.barr [true, true]] >>= fun a => (a.getitem [.int 0]).map (fun _ => ())) = .error .type := by
  decide +kernel

end Biggus

import Verif.Proofs.Firm
import Verif.Props.Iter
import Verif.Props.Elementwise
/-
C76: nested loops over an array.
-/
namespace Biggus
open Spec

variable {α V : Type} [Inhabited α] [Inhabited V] {m : Mode α V} {limit : Nat}

/-- The rows of an array, with what is needed to go on. -/
theorem deep_rows (fwd : Bool) (a : Arr α) (h1 : a.WF) (h2 : a.Ok m limit .whole) (h4 : a.Plain m fwd false .whole) (hsol : a.deep) {x : NDA V}
    (hx : a.Yields m limit x) {n : Nat} {s : List Nat} (hxs : x.shape = n :: s) :
    ∃ f : Nat → Arr α, a.Iterates ((List.range n).map f) ∧
      ∀ i, i < n → (f i).WF ∧ (f i).Ok m limit .whole ∧ (f i).Plain m fwd false .whole ∧ (f i).deep ∧ (f i).Yields m limit ⟨s, fun idx => x.get (i :: idx)⟩ := by
  have hs : a.shape = .ok (n :: s) := by rw [← hxs]; exact hx.1
  have hds : (a.den m).shape = n :: s := by
    have := h1.shape_eq m
    rw [hs] at this
    exact (Except.ok.inj this).symm
  have hc : a.checks 0 := deep_checks a false .whole h1 h4 hsol _ hs (by simp)
  have row : ∀ i, ∃ b, i < n → a.getitem [.int i] = .ok b ∧ b.WF ∧ b.Ok m limit .whole ∧ b.Plain m fwd false .whole ∧ b.deep ∧
      b.Yields m limit ⟨s, fun idx => x.get (i :: idx)⟩ := by
    intro i
    by_cases hi : i < n
    · obtain ⟨b, r, k1, k2, k3, k4, k5, k6⟩ := C06_simple_keys fwd [[.int (i : Int)]] a x h1 h2 h4 hx ⟨by rw [hxs]; exact simpleKeys_first hi, fun _ _ _ _ => trivial⟩
      refine ⟨b, fun _ => ?_⟩
      simp only [List.foldlM_cons, List.foldlM_nil] at k1
      obtain ⟨b', g1, g2⟩ := bind_ok.mp k1
      cases g2
      unfold indexAll at k2
      simp only [List.foldlM_cons, List.foldlM_nil] at k2
      obtain ⟨r', g3, g4⟩ := bind_ok.mp k2
      cases g4
      refine ⟨g1, k4, k5, k6, ?_, k3.congr (row_eqv hxs hi g3)⟩
      exact getitem_deep a false .whole h1 h4 hsol n s hs _ i (by omega) (expand_first _) b g1
    · exact ⟨default, fun h => absurd h hi⟩
  choose f hf using row
  have hstop : a.getitem [.int n] = .error .index :=
    (C75_out_of_range_rejected a h1 hs (p := 0) (n := n) rfl hc n (Or.inr (le_refl _))).2 rfl
  have hit := iterFrom_of (get := fun i => a.getitem [.int i]) (f := f) (n := n) (fun i hi => (hf i hi).1) hstop n (le_refl _)
  rw [Nat.sub_self] at hit
  simp only [Nat.zero_add] at hit
  exact ⟨f, hit, fun i hi => (hf i hi).2⟩

theorem deep_loops (fwd : Bool) : ∀ (d : Nat) (a : Arr α), a.WF → a.Ok m limit .whole → a.Plain m fwd false .whole → a.deep → ∀ (x : NDA V),
    a.Yields m limit x → d ≤ x.shape.length → ∃ ls, a.Loops d ls ∧
      List.Forall₂ (fun (l : Arr α) idx => l.Yields m limit ⟨x.shape.drop d, fun j => x.get (idx ++ j)⟩) ls (ndindex (x.shape.take d))
  | 0, a, _, _, _, _, x, hx, _ => ⟨[a], rfl, .cons hx .nil⟩
  | d + 1, a, h1, h2, h4, hsol, x, hx, hd => by
    obtain ⟨n, s, hxs⟩ : ∃ n s, x.shape = n :: s := by
      cases h : x.shape with
      | nil => rw [h] at hd; simp at hd
      | cons n s => exact ⟨n, s, rfl⟩
    obtain ⟨f, hit, hf⟩ := deep_rows fwd a h1 h2 h4 hsol hx hxs
    rw [hxs, List.length_cons] at hd
    have hsub : ∀ i, ∃ ls, i < n → (f i).Loops d ls ∧
        List.Forall₂ (fun (l : Arr α) idx => l.Yields m limit ⟨s.drop d, fun j => x.get (i :: (idx ++ j))⟩) ls (ndindex (s.take d)) := by
      intro i
      by_cases hi : i < n
      · obtain ⟨w1, w2, w3, w4, w5⟩ := hf i hi
        obtain ⟨ls, l1, l2⟩ := deep_loops fwd d (f i) w1 w2 w3 w4 _ w5 (by simpa using hd)
        exact ⟨ls, fun _ => ⟨l1, l2⟩⟩
      · exact ⟨[], fun h => absurd h hi⟩
    choose g hg using hsub
    refine ⟨((List.range n).map g).flatten, ⟨_, _, hit, ?_, rfl⟩, ?_⟩
    · rw [List.forall₂_map_left_iff, List.forall₂_map_right_iff, List.forall₂_same]
      exact fun i hi => (hg i (List.mem_range.mp hi)).1
    · rw [hxs, List.take_succ_cons, List.drop_succ_cons, ndindex, ← List.flatMap_def]
      have : ∀ (l : List Nat), (∀ i ∈ l, i < n) →
          List.Forall₂ (fun (l : Arr α) idx => l.Yields m limit ⟨s.drop d, fun j => x.get (idx ++ j)⟩) (l.flatMap g)
            (l.flatMap (fun i => (ndindex (s.take d)).map (i :: ·))) := by
        intro l
        induction l with
        | nil => intro _; exact .nil
        | cons i l ih =>
          intro hl
          rw [List.flatMap_cons, List.flatMap_cons]
          refine List.rel_append ?_ (ih (fun j hj => hl j (List.mem_cons_of_mem _ hj)))
          rw [List.forall₂_map_right_iff]
          exact (hg i (hl i List.mem_cons_self)).2
      exact this _ (fun i hi => List.mem_range.mp hi)

/-- C76, nested loops: `d` nested `for` loops over an array with at least `d` dimensions visit its sub-arrays `a[i1][i2]...[id]` in row-major order, each exactly
once, and each yields the corresponding sub-array `x[i1, ..., id]` of what the array yields. -/
theorem C76_nested_loops (fwd : Bool) (a : Arr α) (hb : a.Built m limit fwd false .whole) (hsol : a.deep) {s : List Nat} (hs : a.shape = .ok s) (d : Nat)
    (hd : d ≤ s.length) :
    ∃ (x : NDA V) (ls : List (Arr α)), a.Yields m limit x ∧ a.Loops d ls ∧
      List.Forall₂ (fun (l : Arr α) idx => l.Yields m limit ⟨s.drop d, fun j => x.get (idx ++ j)⟩) ls (ndindex (s.take d)) := by
  obtain ⟨h1, h2, _, h4⟩ := hb.fine
  have hx : a.Yields m limit (a.den m) := .of_den h1 h2
  have hxs : (a.den m).shape = s := Except.ok.inj (hx.1.symm.trans hs)
  obtain ⟨ls, l1, l2⟩ := deep_loops fwd d a h1 h2 h4 hsol _ hx (by rw [hxs]; exact hd)
  rw [hxs] at l2
  exact ⟨_, ls, hx, l1, l2⟩

/-- C76, all elements: as many nested loops as there are dimensions visit the elements in row-major order. -/
theorem C76_elements (fwd : Bool) (a : Arr α) (hb : a.Built m limit fwd false .whole) (hsol : a.deep) {s : List Nat} (hs : a.shape = .ok s) :
    ∃ (x : NDA V) (ls : List (Arr α)), a.Yields m limit x ∧ a.Loops s.length ls ∧
      List.Forall₂ (fun (l : Arr α) v => l.Yields m limit ⟨[], fun _ => v⟩) ls x.toList := by
  obtain ⟨x, ls, hx, h1, h2⟩ := C76_nested_loops fwd a hb hsol hs s.length (le_refl _)
  refine ⟨x, ls, hx, h1, ?_⟩
  have hxs : x.shape = s := Except.ok.inj (hx.1.symm.trans hs)
  unfold NDA.toList
  rw [List.forall₂_map_right_iff, hxs]
  rw [List.take_length, List.drop_length] at h2
  refine h2.imp (fun l idx h => h.congr ⟨rfl, fun j hj => ?_⟩)
  have hj : InB [] j := hj
  cases j with
  | nil => simp
  | cons _ _ => exact absurd hj (by simp [InB])

/-- The loops visit the same arrays every time. -/
theorem loops_unique : ∀ {d : Nat} {a : Arr α} {l l' : List (Arr α)}, a.Loops d l → a.Loops d l' → l = l'
  | 0, _, _, _, h, h' => h.trans h'.symm
  | d + 1, a, _, _, ⟨xs, yss, h1, h2, h3⟩, ⟨xs', yss', h1', h2', h3'⟩ => by
    have := iterFrom_unique h1 h1'
    subst this
    rw [h3, h3']
    congr 1
    clear h1 h1' h3 h3'
    induction h2 generalizing yss' with
    | nil => cases h2'; rfl
    | cons h _ ih =>
      cases h2' with
      | cons h' t' => rw [loops_unique h h', ih _ t']

/-- The hypotheses hold for `((x + c).mean(axis=1)).T`, of shape (4, 2); its seventh element in row-major order, `a[3][0]`, evaluates to 17. -/
example : exExpr.Built exMode 5 true false .whole ∧ exExpr.deep ∧ exExpr.shape = .ok [4, 2] ∧ (ndindex [4, 2])[6]? = some [3, 0] ∧
    Res.view (exExpr.getitem [.int 3] >>= fun r => r.getitem [.int 0] >>= fun e => e.eval exMode 5 3) = .ok ([], [17]) :=
  ⟨exExpr_built, trivial, by decide +kernel, by decide, by decide +kernel⟩

/-- And for a mosaic of sources along the second dimension plus a constant, as far as the structure is concerned. -/
example : (Arr.elem2 (.mosaic 2 (fun _ => .adapter true exSource []) 1) (.const [2, 6, 4] 1 0) exAdd : Arr ℚ).deep := fun _ _ => trivial

end Biggus

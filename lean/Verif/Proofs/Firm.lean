import Verif.Proofs.Iter
import Verif.Proofs.Index
import Verif.Proofs.Meta
/-
Arrays whose dimensions are all checked (`Arr.firm`): the property is kept by indexing.
-/
namespace Biggus
open Spec

variable {α V : Type} [Inhabited α] [Inhabited V]

theorem Arr.firm.noLead : ∀ {a : Arr α}, a.firm → a.noLead
  | .adapter _ _ _, _ => trivial
  | .const _ _ _, h => h.elim
  | .newAxes _ _, _ => trivial
  | .bcast _ _ _, h => h.1
  | .transposed _ _, _ => trivial
  | .stack _ _, h => fun i hi => (h i hi).noLead
  | .mosaic _ _ _, h => h.elim
  | .asType _ _, _ => trivial
  | .maskVal _ _, _ => trivial
  | .agg _ _ _, _ => trivial
  | .elem1 _ _, _ => trivial
  | .elem2 _ _ _, _ => trivial

theorem firm_bcast {x sub : Arr α} {d : List (Nat × Nat)} {l : List Nat} (hx : x = sub ∨ ∃ d0 l0, sub = .bcast x d0 l0)
    (hs : sub.firm) (hl : l = []) : (Arr.bcast x d l).firm := by
  rcases hx with rfl | ⟨_, _, rfl⟩
  · exact ⟨hl, hs⟩
  · exact ⟨hl, hs.2⟩

/-- Indexing keeps the property. -/
theorem getitem_firm (m : Mode α V) : ∀ (a : Arr α), a.WF → a.firm → ∀ (ks fk : List Key) (τ : List Sel) (b : Arr α),
    expandKeys ks (a.den m).shape.length = .ok fk → Exact fk → resolve fk (a.den m).shape = .ok τ → a.keysOk fk →
    a.getitem ks = .ok b → b.firm
  | .adapter o c stored, hwf, _, ks, fk, τ, b, hexp, he, hτ, hg, hb => by
    rw [Arr.getitem, arrayGetitem_exact (by have := hwf.shape_eq m; rw [Arr.shape] at this; exact this) hexp he] at hb
    unfold adapterFull at hb
    obtain ⟨r, _, hb⟩ := bind_ok.mp hb
    unfold mkAdapter at hb
    simp only at hb
    split at hb
    · cases hb
    · obtain ⟨_, _, hb⟩ := bind_ok.mp hb
      cases hb
      trivial
  | .const _ _ _, _, h, _, _, _, _, _, _, _, _, _ => h.elim
  | .mosaic _ _ _, _, h, _, _, _, _, _, _, _, _, _ => h.elim
  | .newAxes a na, hwf, hs, ks, fk, τ, b, hexp, he, hτ, hg, hb => by
    obtain ⟨b0, q1, q2, q3, q4⟩ := getitem_ok m _ hwf ks fk _ hexp hg (npIndex_ok_iff.mpr ⟨fk, τ, hexp, hτ, rfl⟩)
    rw [hb] at q1
    cases q1
    obtain ⟨hwa, s, hsa, hl⟩ := hwf
    have hden := hwa.den_shape m hsa
    match na, hl, hg with
    | c :: ns, hl, hg =>
      rw [Arr.getitem, hsa] at hb
      simp only [bind, Except.bind] at hb
      rw [← hden] at hb
      have hl' : ns.length = (a.den m).shape.length := by rw [hden]; simpa using hl
      obtain ⟨x, na', hx, hbx⟩ := newAxesGetitem_form m (a := a) hl' hexp hτ hg.1 hb
      obtain ⟨σ, hσ, _⟩ := naSem (p := 0) hl' hg.1 hτ
      have hE := containedKeys_exact (expandKeys_spec hexp).1 c ns
      have ih := getitem_firm m a hwa hs _ _ σ x (expand_resolve hE hσ) hE hσ hg.2 hx
      rcases hbx with rfl | ⟨d, l, rfl⟩
      · exact ih
      · exact ⟨q4 trivial, ih⟩
  | .bcast a d lead, hwf, hs, ks, fk, τ, b, hexp, he, hσ, hg, hb => by
    obtain ⟨b0, q1, q2, q3, q4⟩ := getitem_ok m _ hwf ks fk _ hexp hg (npIndex_ok_iff.mpr ⟨fk, τ, hexp, hσ, rfl⟩)
    rw [hb] at q1
    cases q1
    rw [Arr.getitem, arrayGetitem_exact (hwf.shape_eq m) hexp he] at hb
    have hdn : dropNew fk = fk := dropNew_exact he
    obtain ⟨hwa, _, _, hn, hlead, s, hsa, h1⟩ := hwf
    have hden := hwa.den_shape m hsa
    unfold Arr.keysOk at hg
    rw [hdn] at hg
    obtain ⟨g1, g2, g3, g4⟩ := hg
    obtain ⟨rfl, hs⟩ := hs
    have hshape : ((Arr.bcast a d []).den m).shape = bcShape d 0 s := by
      rw [← hden]; rfl
    rw [hshape] at hσ
    simp only [List.length_nil, List.drop_zero] at g3 g4
    have h1' : ∀ q ∈ d, 0 ≤ q.1 → s[q.1 - 0]? = some 1 := by intro q hq _; simpa using h1 q hq
    obtain ⟨d', σ', hloop, hE, hσ', _⟩ := bcastLoop_ok (rem := 0) (le_refl 0) he g3 h1' hσ
    unfold bcastFull at hb
    obtain ⟨lead', _, hb⟩ := bind_ok.mp hb
    rw [hsa] at hb
    simp only [bind, Except.bind, shapeFromDict_ok d s hn h1, List.length_nil, List.drop_zero] at hb
    rw [hloop] at hb
    simp only at hb
    split at hb
    · cases hb
    · rename_i sub hsub
      obtain ⟨x, dd, ll, rfl, hx⟩ := mkBcast_form hb
      refine firm_bcast hx ?_ (q4 rfl)
      unfold bcastSub at hsub
      obtain ⟨full, _, hsub⟩ := bind_ok.mp hsub
      split at hsub
      · cases hsub; exact hs
      · rw [← hden] at hσ'
        exact getitem_firm m a hwa hs _ _ σ' _ (expand_resolve hE hσ') hE hσ' g4 hsub
  | .transposed a axes, hwf, hs, ks, fk, τ, b, hexp, he, hσ, hg, hb => by
    rw [Arr.getitem, arrayGetitem_exact (hwf.shape_eq m) hexp he] at hb
    obtain ⟨rem, σ', hrem, hE, hσ'⟩ := transposed_keys m hwf he hσ
    unfold Arr.keysOk at hg
    rw [dropNew_exact he] at hg
    unfold transposedFull at hb
    rw [hrem] at hb
    obtain ⟨_, h0, hb⟩ := bind_ok.mp hb
    cases h0
    obtain ⟨c, hc, hb⟩ := bind_ok.mp hb
    unfold mkTransposed at hb
    obtain ⟨_, _, hb⟩ := bind_ok.mp hb
    split at hb
    · cases hb
    · cases hb
      exact getitem_firm m a hwf.1 hs _ _ σ' c (expand_resolve hE hσ') hE hσ' (hg _ hrem) hc
  | .stack ss items, hwf, hs, ks, fk, τ, b, hexp, he, hσ, hg, hb => by
    rw [Arr.getitem, arrayGetitem_exact (hwf.shape_eq m) hexp he] at hb
    obtain ⟨h0, s, hi⟩ := hwf
    have hz := hi _ (inB_zeros ss h0)
    unfold Arr.keysOk at hg
    rw [dropNew_exact he] at hg
    obtain ⟨g1, g2, g3, g4⟩ := hg
    have hshape : ((Arr.stack ss items).den m).shape = ss ++ s := by
      unfold Arr.den NDA.stacked
      simp only
      rw [hz.1.den_shape m hz.2]
    rw [hshape] at hσ
    have hlen := (resolve_length he hσ).1
    have he1 : Exact (fk.take ss.length) := fun k hk => he k (List.mem_of_mem_take hk)
    have he2 : Exact (fk.drop ss.length) := fun k hk => he k (List.mem_of_mem_drop hk)
    have hl1 : (fk.take ss.length).length = ss.length := by rw [List.length_take, hlen]; simp
    rw [← List.take_append_drop ss.length fk] at hσ
    obtain ⟨τ1, τ2, rfl, hτ1, hτ2⟩ := resolve_append_inv he1 hl1 hσ
    have hitem : ∀ j x, InB ss j → (items j).getitem (fk.drop ss.length) = .ok x → x.firm := by
      intro j x hj hx
      have hsj := (hi j hj).1.den_shape m (hi j hj).2
      rw [← hsj] at hτ2
      exact getitem_firm m (items j) (hi j hj).1 (hs j hj) _ _ τ2 x (expand_resolve he2 hτ2) he2 hτ2 (g4 j hj) hx
    rcases stackFull_cases he1 hτ1 g1 g2 hb with ⟨hn, j, hj, hbj⟩ | ⟨hn, F, rfl, hF⟩
    · exact hitem j _ hj hbj
    · intro i hin
      obtain ⟨j, hj, hFj⟩ := hF i hin
      exact hitem j _ hj hFj
  | .asType a dt, hwf, hs, ks, fk, τ, b, hexp, he, hσ, hg, hb => by
    rw [Arr.getitem] at hb
    obtain ⟨x, hx, hb⟩ := bind_ok.mp hb
    cases hb
    exact getitem_firm m a hwf hs ks fk τ x hexp he hσ hg hx
  | .maskVal a v, hwf, hs, ks, fk, τ, b, hexp, he, hσ, hg, hb => by
    rw [Arr.getitem] at hb
    obtain ⟨x, hx, hb⟩ := bind_ok.mp hb
    cases hb
    exact getitem_firm m a hwf hs ks fk τ x hexp he hσ hg hx
  | .agg a axis k, hwf, hs, ks, fk, τ, b, hexp, he, hσ, hg, hb => by
    rw [Arr.getitem, arrayGetitem_exact (hwf.shape_eq m) hexp he] at hb
    obtain ⟨hwa, s, hsa, hax⟩ := hwf
    have hden := hwa.den_shape m hsa
    have hσ0 : resolve fk (s.eraseIdx axis) = .ok τ := by rw [← hden]; exact hσ
    obtain ⟨hE, σ', hσ', hn⟩ := resolve_insert_full hax he hσ0
    rw [← hden] at hσ'
    unfold Arr.keysOk at hg
    rw [dropNew_exact he] at hg
    unfold aggFull at hb
    obtain ⟨x, hx, hb⟩ := bind_ok.mp hb
    cases hb
    exact getitem_firm m a hwa hs _ _ σ' x (expand_resolve hE hσ') hE hσ' hg hx
  | .elem1 a op, hwf, hs, ks, fk, τ, b, hexp, he, hσ, hg, hb => by
    rw [Arr.getitem, arrayGetitem_exact (show a.shape = .ok (a.den m).shape from Arr.WF.shape_eq (a := a) m hwf) hexp he] at hb
    unfold Arr.keysOk at hg
    rw [dropNew_exact he] at hg
    obtain ⟨x, hx, hb⟩ := bind_ok.mp hb
    cases hb
    exact getitem_firm m a hwf hs _ _ τ x (expand_resolve he hσ) he hσ hg hx
  | .elem2 a b op, hwf, hs, ks, fk, τ, b0, hexp, he, hσ, hg, hb => by
    rw [Arr.getitem, arrayGetitem_exact (show a.shape = .ok (a.den m).shape from hwf.1.shape_eq m) hexp he] at hb
    obtain ⟨hwa, hwb, hab⟩ := hwf
    unfold Arr.keysOk at hg
    rw [dropNew_exact he] at hg
    obtain ⟨x, hx, hb⟩ := bind_ok.mp hb
    obtain ⟨y, hy, hb⟩ := bind_ok.mp hb
    have hsh : (a.den m).shape = (b.den m).shape := by
      rw [hwa.shape_eq m, hwb.shape_eq m] at hab; exact Except.ok.inj hab
    have hσa : resolve fk (a.den m).shape = .ok τ := hσ
    have hσb : resolve fk (b.den m).shape = .ok τ := by rw [← hsh]; exact hσ
    obtain ⟨hwx, hdx⟩ := getitem_sim m hwa (expand_resolve he hσa) hσa hg.1 hx
    obtain ⟨hwy, hdy⟩ := getitem_sim m hwb (expand_resolve he hσb) hσb hg.2 hy
    rw [mkElem2_same (s := selShape τ) (by rw [hwx.shape_eq m, hdx.1]; rfl) (by rw [hwy.shape_eq m, hdy.1]; rfl)] at hb
    cases hb
    exact getitem_firm m a hwa hs _ _ τ x (expand_resolve he hσa) he hσa hg.1 hx

/-- All dimensions are checked. -/
theorem firm_checks {m : Mode α V} {fwd rep : Bool} : ∀ (a : Arr α) (arr : Bool) (cut : Cut), a.WF → a.PlainR rep m fwd arr cut → a.firm →
    ∀ (s : List Nat) (p : Nat), a.shape = .ok s → p < s.length → a.checks p
  | .adapter _ _ _, _, _, _, hp, _, _, _, _, _ => hp.2.1
  | .const _ _ _, _, _, _, _, h, _, _, _, _ => h.elim
  | .mosaic _ _ _, _, _, _, _, h, _, _, _, _ => h.elim
  | .newAxes a na, arr, cut, hwf, hp, h, s, p, hs, hlt => by
    obtain ⟨hwa, sa, hsa, hna⟩ := hwf
    rw [Arr.shape, bind_val hsa, naInsert_one na sa hna] at hs
    cases hs
    obtain ⟨c, ns, rfl⟩ : ∃ c ns, na = c :: ns := by cases na with
      | nil => simp at hna
      | cons c ns => exact ⟨c, ns, rfl⟩
    have hns : ns.length = sa.length := by simpa using hna
    obtain ⟨g1, g2, g3⟩ := isNewOf_shape sa c ns hns
    simp only [Arr.checks, List.length_cons, Nat.add_sub_cancel, naInsert_true]
    split
    · trivial
    · rename_i hb
      have := (g3 p).2 hb
      rw [List.getElem?_eq_getElem hlt] at this
      exact firm_checks a arr cut hwa hp.2 h sa _ hsa (List.getElem?_eq_some_iff.mp this.symm).1
    · rename_i hb
      rw [List.getElem?_eq_none_iff] at hb
      omega
  | .bcast a d lead, arr, cut, hwf, hp, h, s, p, hs, hlt => by
    obtain ⟨hwa, _, _, hn, hlead, sa, hsa, h1⟩ := hwf
    obtain ⟨rfl, h⟩ := h
    rw [Arr.shape, bind_val hsa] at hs
    obtain ⟨s', h2, hs⟩ := bind_ok.mp hs
    cases hs
    refine ⟨Nat.zero_le _, Or.inr ?_⟩
    have := (shapeFromDict_get h2).1
    exact firm_checks a arr cut hwa hp.2 h sa _ hsa (by simpa [this] using hlt)
  | .transposed a axes, arr, cut, hwf, hp, h, s, p, hs, hlt => by
    obtain ⟨hwa, sa, hsa, hperm⟩ := hwf
    rw [Arr.shape, bind_val hsa, axesForward_ok axes sa 0 hperm] at hs
    cases hs
    rw [List.length_map] at hlt
    refine ⟨axes[p], List.getElem?_eq_getElem hlt, firm_checks a arr cut hwa hp h sa _ hsa ?_⟩
    exact List.mem_range.mp (hperm.mem_iff.mp (List.getElem_mem hlt))
  | .stack ss items, arr, cut, hwf, hp, h, s, p, hs, hlt => by
    obtain ⟨h0, si, hi⟩ := hwf
    rw [Arr.shape, bind_val (hi _ (inB_zeros ss h0)).2] at hs
    cases hs
    rw [List.length_append] at hlt
    by_cases hp' : p < ss.length
    · exact Or.inl hp'
    · exact Or.inr (fun i hin => firm_checks (items i) arr cut (hi i hin).1 (hp.2.2 i hin) (h i hin) si _ (hi i hin).2 (by omega))
  | .asType a _, arr, cut, hwf, hp, h, s, p, hs, hlt => firm_checks a arr cut hwf hp h s p hs hlt
  | .maskVal a _, arr, cut, hwf, hp, h, s, p, hs, hlt => firm_checks a arr cut hwf hp h s p hs hlt
  | .agg a axis k, arr, cut, hwf, hp, h, s, p, hs, hlt => by
    obtain ⟨hwa, sa, hsa, hax⟩ := hwf
    rw [Arr.shape, bind_val hsa] at hs
    cases hs
    rw [List.length_eraseIdx_of_lt hax] at hlt
    exact firm_checks a arr _ hwa hp.2 h sa _ hsa (by split <;> omega)
  | .elem1 a _, arr, cut, hwf, hp, h, s, p, hs, hlt => firm_checks a arr _ hwf hp h s p hs hlt
  | .elem2 a b _, arr, cut, hwf, hp, h, s, p, hs, hlt => Or.inl (firm_checks a arr _ hwf.1 hp.2.1 h s p hs hlt)

theorem simple_first {rep fwd arr : Bool} {i : Int} {n : Nat} {s : List Nat} (h : inRange i n = true) (h0 : 0 ≤ i) :
    List.Forall₂ (SimpleKeyR rep fwd arr) (oneInt 0 i s.length) (n :: s) := by
  rw [oneInt_zero]
  refine .cons (Or.inl ⟨i, rfl, h, fun _ => h0⟩) ?_
  induction s with
  | nil => exact .nil
  | cons x s ih =>
    obtain ⟨r, hr, hl⟩ := range_full x
    rw [List.length_cons, List.replicate_succ]
    exact .cons (Or.inr (Or.inl ⟨PySlice.full, r, rfl, fun _ => rfl, hr, fun h0 => by rintro rfl; exact h0 hl.symm⟩)) ih

/-- The first row of a firm array. -/
theorem getitem_first {m : Mode α V} {fwd rep : Bool} {a : Arr α} {arr : Bool} {cut : Cut} (hwf : a.WF) (hp : a.PlainR rep m fwd arr cut) (h : a.firm)
    {n : Nat} {s : List Nat} (hs : a.shape = .ok (n :: s)) {ks : List Key} {i : Int} (h0 : 0 ≤ i) (hk : expandKeys ks (n :: s).length = .ok (oneInt 0 i s.length))
    {b : Arr α} (hb : a.getitem ks = .ok b) : b.firm := by
  have hc := firm_checks a arr cut hwf hp h _ 0 hs (by simp)
  have hi : inRange i n = true := by
    by_contra hi
    rw [getitem_rejects (q := s.length) a hwf hs hc rfl hi (by simp) hk] at hb
    cases hb
  have hds : (a.den m).shape = n :: s := by
    have := hwf.shape_eq m
    rw [hs] at this
    exact (Except.ok.inj this).symm
  have hsk := simple_first (rep := rep) (fwd := fwd) (arr := arr) (s := s) hi h0
  obtain ⟨q1, _⟩ := simple_ok m true fwd a arr cut hwf hp (oneInt 0 i s.length) (by rw [hds]; exact hsk)
  obtain ⟨σ, hσ, _⟩ := simpleKeys_resolve hsk
  exact getitem_firm m a hwf h ks _ σ b (by rw [hds]; exact hk) (oneInt_exact _ _ _) (by rw [hds]; exact hσ) q1 hb

theorem deep_checks {m : Mode α V} {fwd rep : Bool} : ∀ (a : Arr α) (arr : Bool) (cut : Cut), a.WF → a.PlainR rep m fwd arr cut → a.deep →
    ∀ (s : List Nat), a.shape = .ok s → 0 < s.length → a.checks 0 := by
  intro a
  induction a with
  | mosaic n tiles axis ih =>
    intro arr cut hwf hp h s hs hlt
    obtain ⟨hn, st, hax, hit⟩ := hwf
    refine ⟨Nat.zero_le _, fun i hi => ?_⟩
    obtain ⟨k, hk⟩ := (hit i hi).2
    exact ih i _ _ (hit i hi).1 (hp.2.2.2 i hi) (h i hi) _ hk (by simp; omega)
  | asType a _ ih => intro arr cut hwf hp h s hs hlt; exact ih arr cut hwf hp h s hs hlt
  | maskVal a _ ih => intro arr cut hwf hp h s hs hlt; exact ih arr cut hwf hp h s hs hlt
  | elem1 a _ ih => intro arr cut hwf hp h s hs hlt; exact ih arr _ hwf hp h s hs hlt
  | elem2 a b _ ih _ => intro arr cut hwf hp h s hs hlt; exact Or.inl (ih arr _ hwf.1 hp.2.1 h s hs hlt)
  | _ => intro arr cut hwf hp h s hs hlt; exact firm_checks _ arr cut hwf hp h s 0 hs hlt

/-- The rows of a deep array are deep. -/
theorem getitem_deep {m : Mode α V} {fwd rep : Bool} : ∀ (a : Arr α) (arr : Bool) (cut : Cut), a.WF → a.PlainR rep m fwd arr cut → a.deep →
    ∀ (n : Nat) (s : List Nat), a.shape = .ok (n :: s) → ∀ (ks : List Key) (i : Int), 0 ≤ i → expandKeys ks (n :: s).length = .ok (oneInt 0 i s.length) →
    ∀ b, a.getitem ks = .ok b → b.deep := by
  have base : ∀ {a : Arr α}, a.firm → a.deep := by
    intro a
    induction a with
    | mosaic n tiles axis ih => intro h; exact h.elim
    | asType a _ ih => exact ih
    | maskVal a _ ih => exact ih
    | elem1 a _ ih => exact ih
    | elem2 a b _ ih _ => exact ih
    | _ => exact fun h => h
  intro a
  induction a with
  | mosaic N tiles axis ih =>
    intro arr cut hwf hp h n s hs ks i h0 hk b hb
    have hs0 := hs
    obtain ⟨hn, st, hax, hit⟩ := id hwf
    rw [Arr.getitem, arrayGetitem_exact hs0 hk (oneInt_exact _ _ _)] at hb
    unfold mosaicFull at hb
    rw [trimKeys_oneInt] at hb
    have hlen : s.length + 1 = st.length := by
      obtain ⟨k0, hk0⟩ := (hit 0 hn).2
      rw [Arr.shape, bind_val hk0] at hs
      obtain ⟨lens, _, hs⟩ := bind_ok.mp hs
      have := congrArg List.length (Except.ok.inj hs)
      simpa using this.symm
    have tile : ∀ t, t < N → ∀ j : Int, 0 ≤ j → ∀ b, (tiles t).getitem [.int j] = .ok b → b.deep := by
      intro t ht j hj b hb
      obtain ⟨k, hk⟩ := (hit t ht).2
      obtain ⟨n', s', hns⟩ : ∃ n' s', st.set axis k = n' :: s' := by
        cases h : st.set axis k with
        | nil => rw [List.length_eq_zero_iff.mp (show st.length = 0 by simpa using congrArg List.length h)] at hlen; simp at hlen
        | cons n' s' => exact ⟨n', s', rfl⟩
      rw [hns] at hk
      exact ih t _ _ (hit t ht).1 (hp.2.2.2 t ht) (h t ht) n' s' hk _ j hj (expand_trimmed (p := 0) (by simp)) b hb
    simp only [List.replicate_zero, List.nil_append, List.length_singleton] at hb
    split at hb
    · obtain ⟨l, hl, hb⟩ := bind_ok.mp hb
      rw [mkMosaic_form hb]
      intro t ht
      have hfl := mapM_ok_inv _ _ _ hl
      have htN : t < N := by have := hfl.length_eq; simp at this; omega
      have := hfl.get (i := t) (by simpa using htN) ht
      simp only [List.get_eq_getElem, List.getElem_range] at this
      show (l.getD t default).deep
      rw [List.getD_eq_getElem _ _ ht]
      exact tile t htN i h0 _ this
    · rename_i hax0
      have hax0 : axis = 0 := by omega
      subst hax0
      obtain ⟨lens, hl, hb⟩ := bind_ok.mp hb
      have hll : lens.length = N := by have := (mapM_ok_inv _ _ _ hl).length_eq; simpa using this.symm
      unfold mosaicAxis at hb
      simp only [List.getD_cons_zero, List.set_cons_zero] at hb
      have hlt : tileIndex lens i < N := by rw [← hll]; exact tileIndex_lt (by omega) i
      refine tile _ hlt _ ?_ _ hb
      by_cases hi : inRange i lens.sum = true
      · obtain ⟨_, _, _, q3, q4, _⟩ := tileIndex_ok lens i h0 (by simp [inRange] at hi; omega)
        omega
      · have hne : lens ≠ [] := by rintro rfl; simp at hll; omega
        have := offset_last hne
        rw [tileIndex_out hne hi]
        simp [inRange] at hi
        omega
  | asType a _ ih =>
    intro arr cut hwf hp h n s hs ks i h0 hk b hb
    rw [Arr.getitem] at hb
    obtain ⟨x, hx, hb⟩ := bind_ok.mp hb
    cases hb
    exact ih arr cut hwf hp h n s hs ks i h0 hk x hx
  | maskVal a _ ih =>
    intro arr cut hwf hp h n s hs ks i h0 hk b hb
    rw [Arr.getitem] at hb
    obtain ⟨x, hx, hb⟩ := bind_ok.mp hb
    cases hb
    exact ih arr cut hwf hp h n s hs ks i h0 hk x hx
  | elem1 a _ ih =>
    intro arr cut hwf hp h n s hs ks i h0 hk b hb
    rw [Arr.shape] at hs
    rw [Arr.getitem, arrayGetitem_exact hs hk (oneInt_exact _ _ _)] at hb
    obtain ⟨x, hx, hb⟩ := bind_ok.mp hb
    cases hb
    exact ih arr _ hwf hp h n s hs _ i h0 (expand_oneInt (by simp)) x hx
  | elem2 a b _ ih _ =>
    intro arr cut hwf hp h n s hs ks i h0 hk b0 hb
    rw [Arr.shape] at hs
    rw [Arr.getitem, arrayGetitem_exact hs hk (oneInt_exact _ _ _)] at hb
    obtain ⟨hwa, hwb, hab⟩ := hwf
    have hc := deep_checks a arr _ hwa hp.2.1 h _ hs (by simp)
    obtain ⟨x, hx, hb⟩ := bind_ok.mp hb
    obtain ⟨y, hy, hb⟩ := bind_ok.mp hb
    have hk' : expandKeys (oneInt 0 i s.length) (n :: s).length = .ok (oneInt 0 i s.length) := expand_oneInt (by simp)
    have hi : inRange i n = true := by
      by_contra hi
      rw [getitem_rejects (q := s.length) a hwa hs hc rfl hi (by simp) hk'] at hx
      cases hx
    have hda : (a.den m).shape = n :: s := by
      have := hwa.shape_eq m
      rw [hs] at this
      exact (Except.ok.inj this).symm
    have hdb : (b.den m).shape = n :: s := by
      have := hwb.shape_eq m
      rw [← hab, hs] at this
      exact (Except.ok.inj this).symm
    have hsk := simple_first (rep := rep) (fwd := fwd) (arr := arr) (s := s) hi h0
    obtain ⟨qa, _⟩ := simple_ok m true fwd a arr _ hwa hp.2.1 (oneInt 0 i s.length) (by rw [hda]; exact hsk)
    obtain ⟨qb, _⟩ := simple_ok m true fwd b arr _ hwb hp.2.2 (oneInt 0 i s.length) (by rw [hdb]; exact hsk)
    obtain ⟨σ, hσ, _⟩ := simpleKeys_resolve hsk
    obtain ⟨hwx, hdx⟩ := getitem_sim m hwa (by rw [hda]; exact hk') (by rw [hda]; exact hσ) qa hx
    obtain ⟨hwy, hdy⟩ := getitem_sim m hwb (by rw [hdb]; exact hk') (by rw [hdb]; exact hσ) qb hy
    rw [mkElem2_same (s := selShape σ) (by rw [hwx.shape_eq m, hdx.1]; rfl) (by rw [hwy.shape_eq m, hdy.1]; rfl)] at hb
    cases hb
    exact ih arr _ hwa hp.2.1 h n s hs _ i h0 hk' x hx
  | _ => intro arr cut hwf hp h n s hs ks i h0 hk b hb; exact base (getitem_first hwf hp h hs h0 hk hb)

end Biggus

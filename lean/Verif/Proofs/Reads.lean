import Verif.Proofs.ReadsErase
import Verif.Proofs.Totals
import Mathlib.Algebra.Order.Group.Multiset
/-
What evaluation reads from the data sources: each needed element exactly once, for thrifty expressions.
-/
namespace Biggus

variable {α V : Type}

theorem coe_flatMap {β γ : Type} (l : List β) (f : β → List γ) :
    ((l.flatMap f : List γ) : Multiset γ) = lsum l (fun x => (f x : Multiset γ)) := by
  induction l with
  | nil => rfl
  | cons x l ih => rw [List.flatMap_cons, ← Multiset.coe_add, ih, lsum_cons]

theorem coe_singletons {β γ : Type} (l : List β) (f : β → γ) :
    lsum l (fun x => ({f x} : Multiset γ)) = ((l.map f : List γ) : Multiset γ) := by
  induction l with
  | nil => rfl
  | cons x l ih => rw [lsum_cons, ih, List.map_cons, ← Multiset.cons_coe, Multiset.singleton_add]

theorem den_total : ∀ (a : Arr α) (st : Bool) (n : Nat), a.WF → a.thrifty st n →
    (a.den (usesMode α)).total = (a.needed : Multiset (Option α))
  | .adapter o c keys, st, n, hwf, _ => by
    obtain ⟨_, r, hr⟩ := hwf
    rw [den_adapter _ o c keys r hr]
    unfold Arr.needed
    rw [hr]
    exact coe_singletons (ndindex r.shape) r.get
  | .const s v d, st, n, hwf, _ => lsum_zero (M := Multiset (Option α)) (ndindex s)
  | .newAxes a na, st, n, hwf, ht => by
    obtain ⟨hwa, s, hs, hl⟩ := hwf
    unfold Arr.needed
    rw [← den_total a _ _ hwa ht]
    exact total_insertAxes _ na (by rw [hwa.den_shape _ hs]; exact hl)
  | .bcast a d l, st, n, hwf, ht => ht.elim
  | .transposed a ax, st, n, hwf, ht => by
    obtain ⟨hwa, s, hs, hl⟩ := hwf
    unfold Arr.needed
    rw [← den_total a _ _ hwa ht]
    exact total_permute _ ax (by rw [hwa.den_shape _ hs]; exact hl)
  | .stack ss items, st, n, hwf, ht => by
    obtain ⟨h0, s, hi⟩ := hwf
    unfold Arr.needed
    rw [coe_flatMap]
    refine (total_stacked ss s _ (fun i h => (hi i h).1.den_shape _ (hi i h).2) h0).trans ?_
    apply lsum_congr
    intro i h
    have hin := (mem_ndindex _ _).mp h
    exact den_total (items i) _ _ (hi i hin).1 (ht i hin)
  | .mosaic k tiles axis, st, n, hwf, ht => by
    obtain ⟨h0, s, hax, hi⟩ := hwf
    unfold Arr.needed
    rw [coe_flatMap]
    refine (total_concat k _ axis s hax h0
      (fun i h => by obtain ⟨h1, j, h2⟩ := hi i h; exact ⟨j, h1.den_shape _ h2⟩)).trans ?_
    apply lsum_congr
    intro i h
    have hin : i < k := by simpa using h
    exact den_total (tiles i) _ _ (hi i hin).1 (ht i hin)
  | .asType a d, st, n, hwf, ht => den_total a _ _ hwf ht
  | .maskVal a v, st, n, hwf, ht => den_total a _ _ hwf ht
  | .agg a axis k, st, n, hwf, ht => by
    obtain ⟨hwa, s, hs, hax⟩ := hwf
    have h1 := den_total a _ _ hwa ht
    have h2 := total_reduce (a.den (usesMode α)) axis (by rw [hwa.den_shape (usesMode α) hs]; exact hax)
    unfold Arr.needed
    rw [← h1, ← h2]
    have h3 : (fun col => ((usesMode α).handler k).run ((a.den (usesMode α)).shape.getD axis 0) [col]) = List.sum := by
      funext col
      exact zero_add col.sum
    show ((a.den (usesMode α)).reduce axis _).total = _
    rw [h3]
  | .elem1 a op, st, n, hwf, ht => den_total a _ _ hwf ht
  | .elem2 a b op, st, n, hwf, ht => by
    obtain ⟨hwa, hwb, hab⟩ := hwf
    have hsh : (a.den (usesMode α)).shape = (b.den (usesMode α)).shape := by
      have h1 := hwa.shape_eq (usesMode α)
      rw [hab, hwb.shape_eq (usesMode α)] at h1
      injection h1 with h1
      exact h1.symm
    unfold Arr.needed
    rw [← Multiset.coe_add, ← den_total a _ _ hwa ht.1, ← den_total b _ _ hwb ht.2, ← total_zip _ _ hsh]
    rfl

/-- A loop that adds to the log. -/
theorem foldlM_log {β σ L : Type} (f : σ × List L → β → Res (σ × List L)) (need : β → List L) : ∀ (l : List β),
    (∀ st x st', x ∈ l → f st x = .ok st' → (st'.2 : Multiset L) = st.2 + (need x : Multiset L)) → ∀ st st',
    l.foldlM f st = .ok st' → (st'.2 : Multiset L) = st.2 + ((l.flatMap need : List L) : Multiset L) := by
  intro l
  induction l with
  | nil =>
    intro _ st st' h
    cases h
    simp
  | cons x l ih =>
    intro hf st st' h
    rw [List.foldlM_cons] at h
    obtain ⟨s1, h1, h2⟩ := bind_ok.mp h
    have := ih (fun st x st' hx => hf st x st' (by simp [hx])) s1 st' h2
    rw [this, hf st x s1 (by simp) h1, List.flatMap_cons, ← Multiset.coe_add, add_assoc]

/-- What a data source is asked for. -/
theorem applyKeysL_reads {β : Type} {o : Bool} {data r : NDA β} {keys : List Key} (hs : ∀ k ∈ keys, k.storable = true)
    (hr : npIndex data keys = .ok r) (hsafe : o = false → takeSafe keys)
    (h1 : o = true ∨ (keys.filter Key.isTuple).length ≤ 1) {x : NDA β × List β} (hx : applyKeysL o data keys = .ok x) :
    x.2 = r.toList := by
  have htl : ∀ r' : NDA β, r' ≈ₐ r → r'.toList = r.toList := by
    intro r' h
    unfold NDA.toList
    rw [h.1]
    exact List.map_congr_left (fun i hi => h.2 i (by rw [h.1]; exact (mem_ndindex _ _).mp hi))
  cases o with
  | true =>
    unfold applyKeysL at hx
    simp only [if_true, hr] at hx
    cases hx
    rfl
  | false =>
    have h1 : (keys.filter Key.isTuple).length ≤ 1 := by simpa using h1
    obtain ⟨r', k1, k2⟩ := numpyApplyKeys_ok data r keys hs hr (hsafe rfl)
    unfold numpyApplyKeys at k1
    unfold applyKeysL at hx
    simp only [Bool.false_eq_true, if_false, if_neg (show ¬ (keys.filter Key.isTuple).length > 1 by omega)] at hx k1
    rw [k1] at hx
    cases hx
    exact htl r' k2

theorem evalWithL_reads [Inhabited α] [Inhabited V] (m : Mode α V) (limit : Nat)
    (eng : Arr α → Res (NDA V × List (Option α)))
    (hE : ∀ b : Arr α, b.WF → b.Ok m limit .sliced → b.thrifty true 1 → ∀ x, eng b = .ok x → x.2.Perm b.needed) :
    ∀ a : Arr α, a.WF → a.Ok m limit .whole → a.thrifty false 0 → ∀ x, a.evalWithL m eng = .ok x → x.2.Perm a.needed
  | .adapter o c keys, hwf, hok, ht, x, hx => by
    obtain ⟨hs, r, hr⟩ := hwf
    unfold Arr.evalWithL at hx
    obtain ⟨y, hy, hx⟩ := bind_ok.mp hx
    cases hx
    rw [show (y.2 : List (Option α)) = r.toList from applyKeysL_reads hs hr (fun ho => (hok.2.2 ho).1) (by
      rcases ht with h | h | h
      · exact Or.inl h
      · exact Or.inr h.2
      · omega) hy]
    unfold Arr.needed
    rw [hr]
  | .const s v d, hwf, hok, ht, x, hx => by
    cases hx
    exact List.Perm.refl _
  | .newAxes a na, hwf, hok, ht, x, hx => by
    unfold Arr.evalWithL at hx
    obtain ⟨s, _, hx⟩ := bind_ok.mp hx
    obtain ⟨r, hr, hx⟩ := bind_ok.mp hx
    obtain ⟨y, _, hx⟩ := bind_ok.mp hx
    cases hx
    exact evalWithL_reads m limit eng hE a hwf.1 hok.2 ht r hr
  | .bcast a d l, hwf, hok, ht, x, hx => ht.elim
  | .transposed a ax, hwf, hok, ht, x, hx => by
    unfold Arr.evalWithL at hx
    obtain ⟨r, hr, hx⟩ := bind_ok.mp hx
    obtain ⟨y, _, hx⟩ := bind_ok.mp hx
    cases hx
    exact evalWithL_reads m limit eng hE a hwf.1 hok ht r hr
  | .stack ss items, hwf, hok, ht, x, hx => by
    obtain ⟨h0, s, hi⟩ := hwf
    unfold Arr.evalWithL at hx
    obtain ⟨s', _, hx⟩ := bind_ok.mp hx
    have := foldlM_log _ (fun i => (items i).needed) (ndindex ss) (by
      intro st i st' hmem h
      have hin := (mem_ndindex _ _).mp hmem
      obtain ⟨d, hd, h⟩ := bind_ok.mp h
      obtain ⟨data, _, h⟩ := bind_ok.mp h
      cases h
      rw [← Multiset.coe_add]
      congr 1
      exact Multiset.coe_eq_coe.mpr (evalWithL_reads m limit eng hE (items i) (hi i hin).1 (hok.2.2 i hin) (ht i hin) d hd)) _ _ hx
    rw [← Multiset.coe_eq_coe, this]
    exact zero_add (((ndindex ss).flatMap (fun i => (items i).needed) : List (Option α)) : Multiset (Option α))
  | .mosaic n tiles axis, hwf, hok, ht, x, hx => by
    obtain ⟨h0, s, hax, hi⟩ := hwf
    unfold Arr.Ok at hok
    rw [if_pos rfl] at hok
    unfold Arr.thrifty at ht
    rw [if_pos rfl] at ht
    unfold Arr.evalWithL at hx
    obtain ⟨s', _, hx⟩ := bind_ok.mp hx
    obtain ⟨r, hr, hx⟩ := bind_ok.mp hx
    cases hx
    have := foldlM_log _ (fun i => (tiles i).needed) (List.range n) (by
      intro st i st' hmem h
      have hin : i < n := by simpa using hmem
      obtain ⟨ts, _, h⟩ := bind_ok.mp h
      obtain ⟨d, hd, h⟩ := bind_ok.mp h
      obtain ⟨data, _, h⟩ := bind_ok.mp h
      cases h
      rw [← Multiset.coe_add]
      congr 1
      exact Multiset.coe_eq_coe.mpr (evalWithL_reads m limit eng hE (tiles i) (hi i hin).1 (hok i hin) (ht i hin) d hd)) _ _ hr
    rw [← Multiset.coe_eq_coe]
    show (r.2 : Multiset (Option α)) = _
    rw [this]
    exact zero_add (((List.range n).flatMap (fun i => (tiles i).needed) : List (Option α)) : Multiset (Option α))
  | .asType a d, hwf, hok, ht, x, hx => by
    unfold Arr.evalWithL at hx
    obtain ⟨r, hr, hx⟩ := bind_ok.mp hx
    cases hx
    exact evalWithL_reads m limit eng hE a hwf hok ht r hr
  | .maskVal a v, hwf, hok, ht, x, hx => by
    unfold Arr.evalWithL at hx
    obtain ⟨r, hr, hx⟩ := bind_ok.mp hx
    cases hx
    exact evalWithL_reads m limit eng hE a hwf hok ht r hr
  | .agg a axis k, hwf, hok, ht, x, hx => hE (.agg a axis k) hwf hok ht x hx
  | .elem1 a op, hwf, hok, ht, x, hx => by
    unfold Arr.evalWithL at hx
    cases h : m.op1 op with
    | none => rw [h] at hx; cases hx
    | some f =>
      rw [h] at hx
      obtain ⟨r, hr, hx⟩ := bind_ok.mp hx
      cases hx
      exact hE a hwf hok.2.2 ht r hr
  | .elem2 a b op, hwf, hok, ht, x, hx => by
    unfold Arr.evalWithL at hx
    cases h : m.op2 op with
    | none => rw [h] at hx; cases hx
    | some f =>
      rw [h] at hx
      obtain ⟨ra, hra, hx⟩ := bind_ok.mp hx
      obtain ⟨rb, hrb, hx⟩ := bind_ok.mp hx
      obtain ⟨y, _, hx⟩ := bind_ok.mp hx
      cases hx
      exact (hE a hwf.1 hok.2.2.2.1 ht.1 ra hra).append (hE b hwf.2.1 hok.2.2.2.2 ht.2 rb hrb)

/-- Reading an array in chunks reads what it needs. -/
theorem producerL_reads [Inhabited α] [Inhabited V] (m : Mode α V) (limit : Nat)
    (evalP : Arr α → Res (NDA V × List (Option α)))
    (hE : ∀ b : Arr α, b.WF → b.Ok m limit .whole → b.thrifty false 0 → ∀ x, evalP b = .ok x → x.2.Perm b.needed)
    (a : Arr α) (hwf : a.WF) (hok : a.Ok m limit .sliced) (ht : a.thrifty false 1) (order : List Nat)
    (hp : order.Perm (List.range (a.den m).shape.length)) (x : List (Chunk V) × List (Option α))
    (hx : (do
      let s ← a.shape
      let l ← (chunkIndexGen limit s order).mapM (fun key => do
        let b ← a.getitem key
        let d ← evalP b
        return ((key, d.1), d.2))
      return (l.map Prod.fst, l.flatMap Prod.snd) : Res (List (Chunk V) × List (Option α))) = .ok x) :
    x.2.Perm a.needed := by
  have hsh := hwf.shape_eq m
  have hsh2 := hwf.shape_eq (usesMode α)
  rw [hsh] at hsh2
  have hsheq : (a.den (usesMode α)).shape = (a.den m).shape := by injection hsh2 with h; exact h.symm
  obtain ⟨s0, hs0, hx⟩ := bind_ok.mp hx
  rw [hsh] at hs0
  cases hs0
  obtain ⟨l, hl, hx⟩ := bind_ok.mp hx
  cases hx
  have hc := allSlices_ok limit (a.den m).shape
  -- what one chunk reads
  have hone : ∀ key ∈ chunkIndexGen limit (a.den m).shape order, ∃ σ, resolve key (a.den m).shape = .ok σ ∧
      (∀ k ∈ key, k ≠ Key.newaxis) ∧ ∀ y, (do
        let b ← a.getitem key
        let d ← evalP b
        return ((key, d.1), d.2) : Res ((List Key × NDA V) × List (Option α))) = .ok y →
        (y.2 : Multiset (Option α)) = ((a.den (usesMode α)).ortho σ).total := by
    intro key hkey
    have hso := chunkKeys_ok hc hp hkey
    have hck : List.Forall₂ (ChunkKey .sliced) key (a.den m).shape := hso.imp (fun _ _ h => h.chunkKey _)
    obtain ⟨σ, hσ, _⟩ := sliceOk_resolve hso
    have he := sliceOk_exact hso
    refine ⟨σ, hσ, fun k hk => by have := (he k hk).1; rintro rfl; simp [Key.isNewaxis] at this, ?_⟩
    intro y hy
    obtain ⟨b, hb, hy⟩ := bind_ok.mp hy
    obtain ⟨d, hd, hy⟩ := bind_ok.mp hy
    cases hy
    have hcl := chunk_closed m limit a .sliced hwf hok (by decide) key key b (expand_chunk hck) hck hb
    have hexp : expandKeys key (a.den (usesMode α)).shape.length = .ok key := by rw [hsheq]; exact expand_chunk hck
    obtain ⟨b', hb', hwb, hbd, _⟩ := getitem_ok (usesMode α) a hwf key key _ hexp
      (chunk_keysOk m limit a .sliced hwf hok (by decide) key hck)
      (npIndex_ok_iff.mpr ⟨key, σ, hexp, by rw [hsheq]; exact hσ, rfl⟩)
    rw [hb] at hb'
    injection hb' with hb'
    subst hb'
    have htb : b.thrifty false 0 := hcl.thrifty false 1 0 (by intro h; cases h) (Or.inl rfl) ht
    have := hE b hwb (Arr.Ok.mono m limit b _ _ (Or.inr (Or.inr rfl)) hcl.ok) htb d hd
    rw [← total_congr hbd, den_total b false 0 hwb htb]
    exact Multiset.coe_eq_coe.mpr this
  choose! σ hσ1 hσ2 hσ3 using hone
  have hsum : ∀ (ks : List (List Key)) (l : List ((List Key × NDA V) × List (Option α))), (∀ k ∈ ks, k ∈ chunkIndexGen limit (a.den m).shape order) →
      ks.mapM (fun key => do
        let b ← a.getitem key
        let d ← evalP b
        return ((key, d.1), d.2)) = .ok l →
      ((l.flatMap Prod.snd : List (Option α)) : Multiset (Option α)) = lsum ks (fun k => ((a.den (usesMode α)).ortho (σ k)).total) := by
    intro ks
    induction ks with
    | nil => intro l _ h; cases h; rfl
    | cons k ks ih =>
      intro l hm h
      rw [List.mapM_cons] at h
      obtain ⟨y, hy, h⟩ := bind_ok.mp h
      obtain ⟨ys, hys, h⟩ := bind_ok.mp h
      cases h
      rw [List.flatMap_cons, ← Multiset.coe_add, lsum_cons, ih ys (fun k hk => hm k (by simp [hk])) hys,
        hσ3 k (hm k (by simp)) y hy]
  have := hsum _ l (fun _ h => h) hl
  rw [← Multiset.coe_eq_coe]
  show ((l.flatMap Prod.snd : List (Option α)) : Multiset (Option α)) = _
  rw [this, ← den_total a false 1 hwf ht]
  have h3 := total_chunks (M := Multiset (Option α)) (a.den (usesMode α)) (cuts := allSlicesInner limit true (a.den m).shape)
    (by rw [hsheq]; exact hc) (order := order) (by rw [hsheq]; exact hp) (σ := σ)
    (fun ks hk => ⟨by rw [hsheq]; exact hσ1 ks hk, hσ2 ks hk⟩)
  exact h3

theorem streamL_reads [Inhabited α] [Inhabited V] (m : Mode α V) (limit : Nat)
    (evalP : Arr α → Res (NDA V × List (Option α)))
    (hE : ∀ b : Arr α, b.WF → b.Ok m limit .whole → b.thrifty false 0 → ∀ x, evalP b = .ok x → x.2.Perm b.needed) :
    ∀ a : Arr α, a.WF → a.Ok m limit .sliced → a.thrifty true 1 → ∀ order : List Nat,
    order.Perm (List.range (a.den m).shape.length) → ∀ x, a.streamL m limit evalP order = .ok x → x.2.Perm a.needed
  | .agg a axis k, hwf, hok, ht, order, hp, x, hx => by
    obtain ⟨hwa, s, hs, hax⟩ := hwf
    have hden := hwa.den_shape m hs
    have hax' : axis < (a.den m).shape.length := by rw [hden]; exact hax
    have hsl : ((Arr.agg a axis k).den m).shape = (a.den m).shape.eraseIdx axis := rfl
    rw [hsl, List.length_eraseIdx, if_pos hax'] at hp
    unfold Arr.streamL at hx
    obtain ⟨s', _, hx⟩ := bind_ok.mp hx
    obtain ⟨r, hr, hx⟩ := bind_ok.mp hx
    obtain ⟨y, _, hx⟩ := bind_ok.mp hx
    cases hx
    exact streamL_reads m limit evalP hE a hwa hok.2 ht (aggOrder axis order) (aggOrder_perm' hax' hp) r hr
  | .elem1 a op, hwf, hok, ht, order, hp, x, hx => by
    unfold Arr.streamL at hx
    cases h : m.op1 op with
    | none => rw [h] at hx; cases hx
    | some f =>
      rw [h] at hx
      obtain ⟨r, hr, hx⟩ := bind_ok.mp hx
      cases hx
      exact streamL_reads m limit evalP hE a hwf hok.2.2 ht order hp r hr
  | .elem2 a b op, hwf, hok, ht, order, hp, x, hx => by
    obtain ⟨hwa, hwb, hab⟩ := hwf
    have hsh : (a.den m).shape = (b.den m).shape := by
      have h1 := hwa.shape_eq m
      rw [hab, hwb.shape_eq m] at h1
      injection h1 with h1
      exact h1.symm
    unfold Arr.streamL at hx
    cases h : m.op2 op with
    | none => rw [h] at hx; cases hx
    | some f =>
      rw [h] at hx
      obtain ⟨ra, hra, hx⟩ := bind_ok.mp hx
      obtain ⟨rb, hrb, hx⟩ := bind_ok.mp hx
      obtain ⟨y, _, hx⟩ := bind_ok.mp hx
      cases hx
      exact (streamL_reads m limit evalP hE a hwa hok.2.2.2.1 ht.1 order hp ra hra).append
        (streamL_reads m limit evalP hE b hwb hok.2.2.2.2 ht.2 order (by rw [← hsh]; exact hp) rb hrb)
  | .adapter o c keys, hwf, hok, ht, order, hp, x, hx => producerL_reads m limit evalP hE _ hwf hok ht order hp x hx
  | .const s v d, hwf, hok, ht, order, hp, x, hx => producerL_reads m limit evalP hE _ hwf hok ht order hp x hx
  | .newAxes a na, hwf, hok, ht, order, hp, x, hx => producerL_reads m limit evalP hE _ hwf hok ht order hp x hx
  | .bcast a d l, hwf, hok, ht, order, hp, x, hx => ht.elim
  | .transposed a ax, hwf, hok, ht, order, hp, x, hx => producerL_reads m limit evalP hE _ hwf hok ht order hp x hx
  | .stack ss it, hwf, hok, ht, order, hp, x, hx => producerL_reads m limit evalP hE _ hwf hok ht order hp x hx
  | .mosaic n t ax, hwf, hok, ht, order, hp, x, hx => producerL_reads m limit evalP hE _ hwf hok ht order hp x hx
  | .asType a d, hwf, hok, ht, order, hp, x, hx => producerL_reads m limit evalP hE _ hwf hok ht order hp x hx
  | .maskVal a v, hwf, hok, ht, order, hp, x, hx => producerL_reads m limit evalP hE _ hwf hok ht order hp x hx

theorem engineOneL_reads [Inhabited α] [Inhabited V] (m : Mode α V) (limit : Nat)
    (evalP : Arr α → Res (NDA V × List (Option α)))
    (hE : ∀ b : Arr α, b.WF → b.Ok m limit .whole → b.thrifty false 0 → ∀ x, evalP b = .ok x → x.2.Perm b.needed)
    (a : Arr α) (hwf : a.WF) (hok : a.Ok m limit .sliced) (ht : a.thrifty true 1) (x : NDA V × List (Option α))
    (hx : engineOneL m limit evalP a = .ok x) : x.2.Perm a.needed := by
  unfold engineOneL at hx
  obtain ⟨s, hs, hx⟩ := bind_ok.mp hx
  obtain ⟨r, hr, hx⟩ := bind_ok.mp hx
  obtain ⟨y, _, hx⟩ := bind_ok.mp hx
  cases hx
  exact streamL_reads m limit evalP hE a hwf hok ht _ (by rw [hwf.den_shape m hs]) r hr

/-- Evaluation reads each needed element once. -/
theorem evalL_reads [Inhabited α] [Inhabited V] (m : Mode α V) (limit : Nat) : ∀ (n : Nat) (a : Arr α), a.WF →
    a.Ok m limit .whole → a.thrifty false 0 → ∀ x, a.evalL m limit n = .ok x → x.2.Perm a.needed
  | 0, a, hwf, hok, ht, x, hx => evalWithL_reads m limit _ (fun _ _ _ _ _ h => by cases h) a hwf hok ht x hx
  | n + 1, a, hwf, hok, ht, x, hx => evalWithL_reads m limit _
      (fun b hb hokb htb y hy => engineOneL_reads m limit _ (evalL_reads m limit n) b hb hokb htb y hy) a hwf hok ht x hx

theorem engineEvalL_reads [Inhabited α] [Inhabited V] (m : Mode α V) (limit n : Nat) (a : Arr α) (hwf : a.WF)
    (hok : a.Ok m limit .sliced) (ht : a.thrifty true 1) (x : NDA V × List (Option α))
    (hx : engineEvalL m limit n a = .ok x) : x.2.Perm a.needed :=
  engineOneL_reads m limit _ (evalL_reads m limit n) a hwf hok ht x hx

end Biggus

import Verif.Proofs.NodeTranspose
/-
Indexing a stack of arrays.  NumPy indexing of the object array is orthogonal if at most one key is an index
array and the integer keys are adjacent to it.
-/
namespace Biggus

variable {α V : Type}

theorem contiguous_split (adv : List Bool) (h : contiguousAdv adv = true) :
    ∃ p q r, adv = List.replicate p false ++ List.replicate q true ++ List.replicate r false := by
  unfold contiguousAdv at h
  simp only [Bool.not_eq_true'] at h
  have h1 : adv.takeWhile (!·) = List.replicate (adv.takeWhile (!·)).length false := by
    rw [List.eq_replicate_iff]
    refine ⟨rfl, fun b hb => ?_⟩
    have := List.mem_takeWhile_imp hb
    simpa using this
  have h2 : (adv.dropWhile (!·)).takeWhile (·) = List.replicate ((adv.dropWhile (!·)).takeWhile (·)).length true := by
    rw [List.eq_replicate_iff]
    exact ⟨rfl, fun b hb => List.mem_takeWhile_imp hb⟩
  have h3 : (adv.dropWhile (!·)).dropWhile (·) = List.replicate ((adv.dropWhile (!·)).dropWhile (·)).length false := by
    rw [List.eq_replicate_iff]
    refine ⟨rfl, fun b hb => ?_⟩
    simpa using List.any_eq_false.mp h b hb
  refine ⟨(adv.takeWhile (!·)).length, ((adv.dropWhile (!·)).takeWhile (·)).length,
    ((adv.dropWhile (!·)).dropWhile (·)).length, ?_⟩
  rw [← h1, ← h2, ← h3, List.append_assoc, List.takeWhile_append_dropWhile, List.takeWhile_append_dropWhile]

/-- Splitting a list along a split of its image. -/
theorem map_eq_append3 {β γ : Type} {f : β → γ} {l : List β} {x y z : List γ} (h : l.map f = x ++ y ++ z) :
    ∃ a b c, l = a ++ b ++ c ∧ a.map f = x ∧ b.map f = y ∧ c.map f = z := by
  obtain ⟨ab, c, rfl, h1, h2⟩ := List.map_eq_append_iff.mp h
  obtain ⟨a, b, rfl, h3, h4⟩ := List.map_eq_append_iff.mp h1
  exact ⟨a, b, c, rfl, h3, h4, h2⟩

theorem mixedSrc_basic (pre : List Sel) (rest : List (Bool × Sel)) (b : Nat) (i idx : List Nat)
    (hp : ∀ s ∈ pre, s.isPick = true) (hl : i.length = pre.length) :
    mixedSrc (pre.map (false, ·) ++ rest) b (i ++ idx) = selSrc pre i ++ mixedSrc rest b idx := by
  induction pre generalizing i with
  | nil =>
    have : i = [] := List.length_eq_zero_iff.mp (by simpa using hl)
    subst this; rfl
  | cons s pre ih =>
    cases i with
    | nil => simp at hl
    | cons j i =>
      cases s with
      | pick l =>
        simp only [List.map_cons, List.cons_append, mixedSrc, selSrc]
        rw [ih i (fun x hx => hp x (List.mem_cons_of_mem _ hx)) (by simpa using hl)]
      | «at» v => exact absurd (hp _ List.mem_cons_self) (by simp [Sel.isPick])
      | new => exact absurd (hp _ List.mem_cons_self) (by simp [Sel.isPick])

theorem mixedSrc_adv (mid : List Sel) (rest : List (Bool × Sel)) (b : Nat) (idx : List Nat) :
    mixedSrc (mid.map (true, ·) ++ rest) b idx = mid.map (advVal · b) ++ mixedSrc rest b idx := by
  induction mid with
  | nil => rfl
  | cons s mid ih => simp only [List.map_cons, List.cons_append, mixedSrc, ih]

theorem basicDims_append (a b : List (Bool × Sel)) : basicDims (a ++ b) = basicDims a ++ basicDims b := by
  induction a with
  | nil => rfl
  | cons x a ih => obtain ⟨f, s⟩ := x; cases f <;> simp [basicDims, ih]

theorem basicDims_true (l : List Sel) : basicDims (l.map (true, ·)) = [] := by
  induction l with
  | nil => rfl
  | cons s l ih => simpa [basicDims] using ih

theorem basicDims_false (l : List Sel) (h : ∀ s ∈ l, s.isPick = true) : basicDims (l.map (false, ·)) = selShape l := by
  induction l with
  | nil => rfl
  | cons s l ih =>
    have := ih (fun x hx => h x (List.mem_cons_of_mem _ hx))
    cases s with
    | pick l' => simpa [basicDims, selShape, Sel.lenOf] using this
    | «at» v => exact absurd (h _ List.mem_cons_self) (by simp [Sel.isPick])
    | new => exact absurd (h _ List.mem_cons_self) (by simp [Sel.isPick])

theorem selShape_picks (l : List Sel) (h : ∀ s ∈ l, s.isPick = true) : (selShape l).length = l.length := by
  induction l with
  | nil => rfl
  | cons s l ih =>
    have := ih (fun x hx => h x (List.mem_cons_of_mem _ hx))
    cases s with
    | pick l' => simpa [selShape] using this
    | «at» v => exact absurd (h _ List.mem_cons_self) (by simp [Sel.isPick])
    | new => exact absurd (h _ List.mem_cons_self) (by simp [Sel.isPick])

/-- The advanced block: integers and exactly one index array. -/
theorem adv_block {ks : List Key} : ∀ {sh : List Nat} {σ : List Sel}, Exact ks → (∀ k ∈ ks, k.isAdv = true) →
    resolve ks sh = .ok σ →
    ((ks.filter Key.isArr).length = 0 → selShape σ = [] ∧ bcastLen (σ.map Sel.lenOf) = some 1 ∧
      ∀ b idx, selSrc σ idx = σ.map (advVal · b)) ∧
    ((ks.filter Key.isArr).length = 1 → ∃ L, selShape σ = [L] ∧ bcastLen (σ.map Sel.lenOf) = some L ∧
      ∀ b idx, b < L → selSrc σ (b :: idx) = σ.map (advVal · b)) := by
  induction ks with
  | nil =>
    intro sh σ _ _ h
    obtain ⟨_, rfl⟩ := resolve_nil_iff.mp h
    exact ⟨fun _ => ⟨rfl, rfl, fun _ _ => rfl⟩, fun h => by simp at h⟩
  | cons k ks ih =>
    intro sh σ he ha h
    obtain ⟨n, ns, s, σ', rfl, rfl, h1, h2⟩ := (resolve_cons_iff (he k List.mem_cons_self).1).mp h
    obtain ⟨ih0, ih1⟩ := ih he.tail (fun x hx => ha x (List.mem_cons_of_mem _ hx)) h2
    have hk := ha k List.mem_cons_self
    by_cases harr : k.isArr = true
    · have hs : ∃ l, s = .pick l := by
        cases k with
        | tuple l | list l | iarr l | barr l =>
          simp only [resolve1] at h1
          split at h1
          · cases h1; exact ⟨_, rfl⟩
          · cases h1
        | _ => simp [Key.isArr] at harr
      obtain ⟨l, rfl⟩ := hs
      refine ⟨fun hc => ?_, fun hc => ?_⟩
      · rw [List.filter_cons, if_pos harr] at hc; simp at hc
      · rw [List.filter_cons, if_pos harr] at hc
        obtain ⟨a1, a2, a3⟩ := ih0 (by simpa using hc)
        refine ⟨l.length, by simp [selShape, a1], ?_, ?_⟩
        · simp only [List.map_cons, bcastLen, a2, Sel.lenOf]
          by_cases hl : l.length = 1 <;> simp [hl]
        · intro b idx hb
          simp only [selSrc, List.map_cons, advVal]
          rw [a3 b idx]
          congr 1
          split
          · rename_i hl; rw [show b = 0 by omega]
          · rfl
    · have hs : ∃ i, s = .at i := by
        cases k with
        | int i =>
          simp only [resolve1] at h1
          split at h1
          · cases h1; exact ⟨_, rfl⟩
          · cases h1
        | _ => simp_all [Key.isAdv, Key.isArr]
      obtain ⟨i, rfl⟩ := hs
      rw [List.filter_cons, if_neg harr]
      refine ⟨fun hc => ?_, fun hc => ?_⟩
      · obtain ⟨a1, a2, a3⟩ := ih0 hc
        refine ⟨by simp [selShape, a1], by simp [bcastLen, a2, Sel.lenOf], fun b idx => ?_⟩
        simp only [selSrc, List.map_cons]; rw [a3 b idx]; rfl
      · obtain ⟨L, a1, a2, a3⟩ := ih1 hc
        refine ⟨L, by simp [selShape, a1], ?_, fun b idx hb => ?_⟩
        · simp only [List.map_cons, bcastLen, a2, Sel.lenOf]
          split
          · rfl
          · simp
        · simp only [selSrc, List.map_cons]; rw [a3 b idx hb]; rfl

theorem basic_picks {ks : List Key} {sh : List Nat} {σ : List Sel} (he : Exact ks) (hb : ∀ k ∈ ks, k.isAdv = false)
    (h : resolve ks sh = .ok σ) : ∀ s ∈ σ, s.isPick = true := by
  induction ks generalizing sh σ with
  | nil => obtain ⟨_, rfl⟩ := resolve_nil_iff.mp h; intro s hs; cases hs
  | cons k ks ih =>
    obtain ⟨n, ns, s, σ', rfl, rfl, h1, h2⟩ := (resolve_cons_iff (he k List.mem_cons_self).1).mp h
    intro x hx
    rcases List.mem_cons.mp hx with rfl | hx
    · have := hb k List.mem_cons_self
      rw [resolve1_scalar (he k List.mem_cons_self).1 h1]
      cases k <;> simp_all [Key.isAdv, Key.isScalar, Key.isArr]
    · exact ih he.tail (fun y hy => hb y (List.mem_cons_of_mem _ hy)) h2 x hx

theorem zip_replicate {β : Type} (b : Bool) (l : List β) : (List.replicate l.length b).zip l = l.map (b, ·) := by
  induction l with
  | nil => rfl
  | cons x l ih => simp [List.replicate_succ, ih]

theorem filter_map_pair (b : Bool) (l : List Sel) :
    (l.map (fun s => (b, s))).filter (·.1) = if b then l.map (b, ·) else [] := by
  cases b
  · simp [List.filter_eq_nil_iff]
  · simp [List.filter_eq_self]

/-- NumPy's own indexing is orthogonal for safe keys. -/
theorem npFancy_ok {β : Type} (a : NDA β) {ks : List Key} {σ : List Sel} (he : Exact ks)
    (h : resolve ks a.shape = .ok σ) (hs : fancySafe ks) :
    ∃ r, npFancy a ks = .ok r ∧ r ≈ₐ a.ortho σ := by
  have hl := resolve_length he h
  unfold npFancy
  rw [if_neg (by omega), show a.shape.length - ks.length = 0 by omega]
  simp only [List.replicate_zero, List.append_nil, h, bind, Except.bind]
  rcases hs with hs | ⟨hs1, hs2⟩
  · rw [if_neg (by simp [hs])]
    exact ⟨_, rfl, NDA.Eqv.refl _⟩
  · have hany : ks.any Key.isArr = true := by
      have : ∃ k, k ∈ ks.filter Key.isArr := by
        cases hf : ks.filter Key.isArr with
        | nil => rw [hf] at hs1; simp at hs1
        | cons k l => exact ⟨k, List.mem_cons_self⟩
      obtain ⟨k, hk⟩ := this
      exact List.any_eq_true.mpr ⟨k, (List.mem_filter.mp hk).1, (List.mem_filter.mp hk).2⟩
    rw [if_pos hany]
    obtain ⟨p, q, r, hpqr⟩ := contiguous_split _ hs2
    obtain ⟨kp, kq, kr, rfl, hp, hq, hr⟩ := map_eq_append3 hpqr
    have hep : Exact kp := fun k hk => he k (by simp [hk])
    have heq' : Exact kq := fun k hk => he k (by simp [hk])
    have her : Exact kr := fun k hk => he k (by simp [hk])
    -- split the shape and the selections
    have hlen : kp.length + kq.length + kr.length = a.shape.length := by
      have := hl.1; simp at this; omega
    obtain ⟨sp, sq, sr, hsh, hlp, hlq, hlr⟩ : ∃ sp sq sr, a.shape = sp ++ sq ++ sr ∧ kp.length = sp.length ∧
        kq.length = sq.length ∧ kr.length = sr.length := by
      refine ⟨a.shape.take kp.length, (a.shape.drop kp.length).take kq.length, (a.shape.drop kp.length).drop kq.length, ?_, ?_, ?_, ?_⟩
      · rw [List.append_assoc, List.take_append_drop, List.take_append_drop]
      · rw [List.length_take]; omega
      · rw [List.length_take, List.length_drop]; omega
      · rw [List.length_drop, List.length_drop]; omega
    rw [hsh] at h
    obtain ⟨σpq, σr, rfl, h1, hσr⟩ := resolve_append_inv (hep.append heq') (by simp [hlp, hlq]) h
    obtain ⟨σp, σq, rfl, hσp, hσq⟩ := resolve_append_inv hep hlp h1
    have hpb : ∀ k ∈ kp, k.isAdv = false := fun k hk => by
      have : k.isAdv ∈ kp.map Key.isAdv := List.mem_map_of_mem hk
      rw [hp] at this; exact (List.mem_replicate.mp this).2
    have hrb : ∀ k ∈ kr, k.isAdv = false := fun k hk => by
      have : k.isAdv ∈ kr.map Key.isAdv := List.mem_map_of_mem hk
      rw [hr] at this; exact (List.mem_replicate.mp this).2
    have hqa : ∀ k ∈ kq, k.isAdv = true := fun k hk => by
      have : k.isAdv ∈ kq.map Key.isAdv := List.mem_map_of_mem hk
      rw [hq] at this; exact (List.mem_replicate.mp this).2
    have hnoarr : ∀ l : List Key, (∀ k ∈ l, k.isAdv = false) → l.filter Key.isArr = [] := by
      intro l hl
      rw [List.filter_eq_nil_iff]
      intro k hk hka
      have := hl k hk
      cases k <;> simp_all [Key.isAdv, Key.isArr]
    have hq1 : (kq.filter Key.isArr).length = 1 := by
      rw [List.filter_append, List.filter_append, hnoarr kp hpb, hnoarr kr hrb] at hs1
      simpa using hs1
    obtain ⟨L, b1, b2, b3⟩ := (adv_block heq' hqa hσq).2 hq1
    have hpick := basic_picks hep hpb hσp
    have hrick := basic_picks her hrb hσr
    have hpl : p = σp.length := by
      have h1 := congrArg List.length hp; simp at h1
      have := (resolve_length hep hσp); omega
    have hql : q = σq.length := by
      have h1 := congrArg List.length hq; simp at h1
      have := (resolve_length heq' hσq); omega
    have hrl : r = σr.length := by
      have h1 := congrArg List.length hr; simp at h1
      have := (resolve_length her hσr); omega
    have hq0 : 0 < q := by
      rcases Nat.eq_zero_or_pos q with h0 | h0
      · rw [h0] at hql
        have : σq = [] := List.length_eq_zero_iff.mp hql.symm
        rw [this] at b1; simp [selShape] at b1
      · exact h0
    have hitems : ((kp ++ kq ++ kr).map Key.isAdv).zip (σp ++ σq ++ σr) =
        σp.map (false, ·) ++ (σq.map (true, ·) ++ σr.map (false, ·)) := by
      rw [hpqr, hpl, hql, hrl, List.append_assoc, List.append_assoc,
        List.zip_append (by simp), List.zip_append (by simp), zip_replicate, zip_replicate, zip_replicate]
    simp only [hitems]
    have hfil : (σp.map (false, ·) ++ (σq.map (true, ·) ++ σr.map (false, ·))).filter (·.1) = σq.map (true, ·) := by
      rw [List.filter_append, List.filter_append, filter_map_pair, filter_map_pair, filter_map_pair]; simp
    rw [hfil, List.map_map]
    have hlens : σq.map ((fun x : Bool × Sel => x.2.lenOf) ∘ fun x => (true, x)) = σq.map Sel.lenOf := rfl
    rw [hlens, b2]
    simp only [hs2, if_true]
    have htake : (((kp ++ kq ++ kr).map Key.isAdv).takeWhile (!·)).length = p := by
      rw [hpqr]
      obtain ⟨q', rfl⟩ : ∃ q', q = q' + 1 := ⟨q - 1, by omega⟩
      rw [List.replicate_succ, List.append_assoc, List.takeWhile_append_of_pos]
      · simp
      · intro b hb; rw [(List.mem_replicate.mp hb).2]; rfl
    rw [htake, basicDims_append, basicDims_append, basicDims_true, List.nil_append, basicDims_false σp hpick,
      basicDims_false σr hrick]
    have hspl : (selShape σp).length = p := by rw [selShape_picks σp hpick, hpl]
    have hshape : (selShape σp ++ selShape σr).take p ++ [L] ++ (selShape σp ++ selShape σr).drop p =
        selShape (σp ++ σq ++ σr) := by
      rw [List.take_left' hspl, List.drop_left' hspl, selShape_append, selShape_append, b1]
    refine ⟨_, rfl, hshape, fun idx hi => ?_⟩
    simp only [hshape, selShape_append, b1] at hi
    simp only [NDA.ortho]
    congr 1
    -- split the index
    rw [List.append_assoc] at hi
    obtain ⟨hi1, hi2⟩ := inB_split hi
    rw [hspl] at hi1 hi2
    cases hdrop : idx.drop p with
    | nil => rw [hdrop] at hi2; exact hi2.elim
    | cons b rest =>
      rw [hdrop] at hi2
      have hidx : idx = idx.take p ++ b :: rest := by rw [← hdrop, List.take_append_drop]
      have htl : (idx.take p).length = p := by rw [hi1.length]; exact hspl
      have hget : idx.getD p 0 = b := by
        rw [hidx, List.getD_eq_getElem?_getD, List.getElem?_append_right (by omega)]; simp [htl]
      have herase : idx.eraseIdx p = idx.take p ++ rest := by
        conv_lhs => rw [hidx]
        rw [List.eraseIdx_append_of_length_le (by omega)]; simp [htl]
      rw [hget, herase, mixedSrc_basic σp _ b (idx.take p) rest hpick (by rw [htl, hpl]), mixedSrc_adv]
      have hrest : mixedSrc (σr.map (false, ·)) b rest = selSrc σr rest := by
        have hrl' : rest.length = σr.length := by rw [hi2.2.length]; exact selShape_picks σr hrick
        have := mixedSrc_basic σr [] b rest [] hrick hrl'
        simpa [mixedSrc] using this
      rw [hrest, List.append_assoc, selSrc_append (by rw [hspl]; exact hi1), hspl, hdrop,
        selSrc_append (by rw [b1]; exact ⟨hi2.1, trivial⟩), b1]
      simp only [List.length_singleton, List.take_succ_cons, List.take_zero, List.drop_succ_cons, List.drop_zero]
      rw [b3 b [] hi2.1]

theorem stackFull_ok [Inhabited V] (m : Mode α V) {inner : List Nat → List Key → Res (Arr α)} {ss : List Nat}
    {items : List Nat → Arr α} (hwf : (Arr.stack ss items).WF) {fk : List Key} {τ : List Sel} (he : Exact fk)
    (hτ : resolve fk ((Arr.stack ss items).den m).shape = .ok τ)
    (hlist : ∀ l, Key.list l ∉ fk.take ss.length) (hsafe : fancySafe (fk.take ss.length))
    (hne : ∀ σ, resolve (fk.take ss.length) ss = .ok σ → (selShape σ).prod ≠ 0)
    (hin : ∀ i σ, InB ss i → Exact (fk.drop ss.length) →
      resolve (fk.drop ss.length) ((items i).den m).shape = .ok σ →
      Sim m (items i) (inner i (fk.drop ss.length)) (((items i).den m).ortho σ)) :
    Sim m (.stack ss items) (stackFull inner ss items fk) (((Arr.stack ss items).den m).ortho τ) := by
  obtain ⟨hprod, s, hi⟩ := hwf
  have hz := inB_zeros ss hprod
  have hish : ∀ i, InB ss i → ((items i).den m).shape = s := fun i h => (hi i h).1.den_shape m (hi i h).2
  have hshape : ((Arr.stack ss items).den m).shape = ss ++ s := by
    simp only [Arr.den, NDA.stacked]; rw [hish _ hz]
  rw [hshape] at hτ
  have hlen := (resolve_length he hτ).1
  have he1 : Exact (fk.take ss.length) := fun k hk => he k (List.mem_of_mem_take hk)
  have he2 : Exact (fk.drop ss.length) := fun k hk => he k (List.mem_of_mem_drop hk)
  have hl1 : (fk.take ss.length).length = ss.length := by rw [List.length_take, hlen]; simp
  rw [← List.take_append_drop ss.length fk] at hτ
  obtain ⟨τ1, τ2, rfl, hτ1, hτ2⟩ := resolve_append_inv he1 hl1 hτ
  have hls : slicedShape ss (fk.take ss.length) = .ok (selShape τ1) :=
    C02_sliced_shape_is_numpy_shape (⟨ss, fun _ => ()⟩ : NDA Unit) _ (fk.take ss.length) hlist
      (npIndex_exact (⟨ss, fun _ => ()⟩ : NDA Unit) _ τ1 hl1 he1 hτ1)
  obtain ⟨sel, hsel, hsel1, hsel2⟩ := npFancy_ok (⟨ss, id⟩ : NDA (List Nat)) he1 hτ1 hsafe
  have hselshape : sel.shape = selShape τ1 := hsel1
  have hselget : ∀ i, InB (selShape τ1) i → sel.get i = selSrc τ1 i := by
    intro i h
    have := hsel2 i (by rw [hselshape]; exact h)
    simpa [NDA.ortho] using this
  -- the indexed items
  have hitem : ∀ i, InB (selShape τ1) i → Sim m (items (sel.get i)) (inner (sel.get i) (fk.drop ss.length))
      (((items (sel.get i)).den m).ortho τ2) := by
    intro i h
    have hin' : InB ss (sel.get i) := by rw [hselget i h]; exact selSrc_inB hτ1 i h
    exact hin _ τ2 hin' he2 (by rw [hish _ hin']; exact hτ2)
  have hgoal : ∀ idx, InB (selShape τ1 ++ selShape τ2) idx →
      (((Arr.stack ss items).den m).ortho (τ1 ++ τ2)).get idx =
      ((items (sel.get (idx.take (selShape τ1).length))).den m).get
        (selSrc τ2 (idx.drop (selShape τ1).length)) := by
    intro idx h
    obtain ⟨h1, h2⟩ := inB_split h
    simp only [NDA.ortho, Arr.den, NDA.stacked]
    have hsl : (selSrc τ1 (idx.take (selShape τ1).length)).length = ss.length := (selSrc_inB hτ1 _ h1).length
    rw [selSrc_append h1, List.take_left' hsl, List.drop_left' hsl, hselget _ h1]
  unfold stackFull
  simp only [hls, hsel, bind, Except.bind]
  by_cases hrs : selShape τ1 = []
  · rw [hrs, if_pos (by rfl)]
    obtain ⟨b, hb1, hb2, hb3, hb4⟩ := hitem [] (by rw [hrs]; trivial)
    refine ⟨b, hb1, hb2, hb3.trans ⟨?_, fun idx h => ?_⟩, fun hnl => hb4 (hnl _ ?_)⟩
    · simp [NDA.ortho, selShape_append, hrs]
    · rw [hgoal idx (by rw [hrs]; exact h), hrs]
      simp [NDA.ortho]
    · rw [hselget [] (by rw [hrs]; trivial)]; exact selSrc_inB hτ1 [] (by rw [hrs]; trivial)
  · rw [if_neg (by simpa using hrs)]
    -- choose the results
    have hbs : ∀ i, InB (selShape τ1) i → ∃ b, inner (sel.get i) (fk.drop ss.length) = .ok b ∧ b.WF ∧
        b.den m ≈ₐ ((items (sel.get i)).den m).ortho τ2 ∧ ((items (sel.get i)).noLead → b.noLead) :=
      fun i h => hitem i h
    set F : List Nat → Arr α := fun i => if i ∈ ndindex (selShape τ1) then
      okOr (inner (sel.get i) (fk.drop ss.length)) (items (sel.get i)) else items (sel.get i) with hF
    have hFi : ∀ i, InB (selShape τ1) i → (F i).WF ∧ (F i).den m ≈ₐ ((items (sel.get i)).den m).ortho τ2 ∧
        ((items (sel.get i)).noLead → (F i).noLead) := by
      intro i h
      obtain ⟨b, h1, h2, h3, h4⟩ := hbs i h
      have : F i = b := by simp only [hF, if_pos ((mem_ndindex _ _).mpr h), h1, okOr]
      rw [this]; exact ⟨h2, h3, h4⟩
    have hFsh : ∀ i, InB (selShape τ1) i → (F i).shape = .ok (selShape τ2) := by
      intro i h
      obtain ⟨h1, h2, _⟩ := hFi i h
      rw [h1.shape_eq m, h2.1]; rfl
    have hmapM : (ndindex (selShape τ1)).mapM (fun i =>
        if ¬ InB sel.shape i then .error PyErr.index
        else inner (sel.get i) (fk.drop ss.length)) = .ok ((ndindex (selShape τ1)).map F) := by
      apply mapM_ok
      intro i h
      have h' := (mem_ndindex _ _).mp h
      obtain ⟨b, h1, _⟩ := hbs i h'
      rw [if_neg (by rw [hselshape]; simpa using h'), h1]
      simp only [hF, if_pos h, h1, okOr]
    rw [hmapM]
    simp only
    have hpr := hne τ1 hτ1
    have hz1 := inB_zeros (selShape τ1) hpr
    have hmk : mkStack (selShape τ1) F = .ok (.stack (selShape τ1) F) := by
      unfold mkStack
      rw [if_neg hpr, hFsh _ hz1]
      simp only [bind, Except.bind]
      have : (ndindex (selShape τ1)).mapM (fun i => do
          let s ← (F i).shape
          if s ≠ selShape τ2 then throw PyErr.value) = .ok ((ndindex (selShape τ1)).map (fun _ => ())) := by
        apply mapM_ok
        intro i h
        rw [hFsh i ((mem_ndindex _ _).mp h)]
        simp only [bind, Except.bind]
        rw [if_neg (by simp)]; rfl
      simp only [bind, Except.bind] at this
      rw [this]; rfl
    rw [hselshape]
    refine ⟨_, hmk, ⟨hpr, selShape τ2, fun i h => ⟨(hFi i h).1, hFsh i h⟩⟩, ⟨?_, fun idx h => ?_⟩, fun hnl i h => (hFi i h).2.2 (hnl _ ?_)⟩
    · simp only [Arr.den, NDA.stacked, NDA.ortho]
      rw [(hFi _ hz1).2.1.1, selShape_append]; rfl
    · have hsh : ((Arr.stack (selShape τ1) F).den m).shape = selShape τ1 ++ selShape τ2 := by
        simp only [Arr.den, NDA.stacked]; rw [(hFi _ hz1).2.1.1]; rfl
      rw [hsh] at h
      rw [hgoal idx h]
      obtain ⟨h1, h2⟩ := inB_split h
      have := (hFi _ h1).2.1
      exact this.2 _ (by rw [this.1]; exact h2)
    · rw [hselget i h]; exact selSrc_inB hτ1 i h

end Biggus

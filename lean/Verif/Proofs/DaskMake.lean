import Verif.Proofs.DaskOps
import Verif.Spec.Dask
/-
The graph made for an array object.
-/
namespace Biggus

variable {α V : Type}

theorem Skel.cutsOk (limit : Nat) : ∀ (sk : Skel), sk.WF → CutsOk (sk.cuts limit) sk.shape
  | .prod s, _ => allSlices_ok limit s
  | .agg s axis, h => (Skel.cutsOk limit s h.1).eraseIdx axis

theorem cart_length_prod {β : Type} : ∀ (N : List (List β)), (cart N).length = (N.map List.length).prod
  | [] => rfl
  | c :: N => by
    rw [cart, List.length_flatMap]
    simp [cart_length_prod N]

/-- The array is represented by the tasks `ids`. -/
def Represented [Inhabited V] (m : Mode α V) (limit : Nat) (a : Arr α) (tasks : List (DTask α)) (v : Nat → DVal V) (ids : List Nat) : Prop :=
  ∃ order cs D, NodeOk (a.den m) (a.skel.cuts limit) tasks v ids order cs D

theorem Represented.mono [Inhabited V] {m : Mode α V} {limit : Nat} {a : Arr α} {tasks ts : List (DTask α)} {v v' : Nat → DVal V} {ids : List Nat}
    (h : Represented m limit a tasks v ids) (hv : ∀ i, i < tasks.length → v' i = v i) : Represented m limit a (tasks ++ ts) v' ids := by
  obtain ⟨order, cs, D, h⟩ := h
  exact ⟨order, cs, D, h.mono hv⟩

/-- The graph so far: its values, and the cached arrays. -/
structure DaskInv [Inhabited V] (heap : Nat → AObj α) (m : Mode α V) (limit : Nat) (evalP : Arr α → Res (NDA V)) (b : DBuild α) (v : Nat → DVal V) : Prop where
  vals : DVals m evalP b.tasks v
  cached : ∀ id ids, b.cache.lookup id = some ids → Represented m limit (heap id).toArr b.tasks v ids

variable [Inhabited α] [Inhabited V] {heap : Nat → AObj α} {m : Mode α V} {limit : Nat} {evalP : Arr α → Res (NDA V)}

theorem DaskInv.put {b : DBuild α} {v v' : Nat → DVal V} (h : DaskInv heap m limit evalP b v) {id : Nat} {x : AObj α} (hx : heap id = x) {ids : List Nat} {ts : List (DTask α)}
    (hv : ∀ i, i < b.tasks.length → v' i = v i) (hvals : DVals m evalP (b.tasks ++ ts) v') (hrep : Represented m limit x.toArr (b.tasks ++ ts) v' ids) :
    DaskInv heap m limit evalP (b.put id (ids, b.tasks ++ ts)).2 v' := by
  refine ⟨hvals, ?_⟩
  intro id' ids' hl
  unfold DBuild.put at hl ⊢
  simp only [List.lookup_cons] at hl
  by_cases he : id' = id
  · subst he
    simp only [beq_self_eq_true] at hl
    cases hl
    rw [hx]
    exact hrep
  · have : (id' == id) = false := by simpa using he
    rw [this] at hl
    exact (h.cached id' ids' hl).mono hv

/-- What `_make_nodes` does. -/
def Makes (heap : Nat → AObj α) (m : Mode α V) (limit : Nat) (evalP : Arr α → Res (NDA V)) (x : AObj α) (order : List Nat) (b : DBuild α) (v : Nat → DVal V) : Prop :=
  ∃ ids b' v' ts, makeDask m limit x order b = .ok (ids, b') ∧ b'.tasks = b.tasks ++ ts ∧ (∀ i, i < b.tasks.length → v' i = v i) ∧
    DaskInv heap m limit evalP b' v' ∧ Represented m limit x.toArr b'.tasks v' ids

theorem makes_prod {G : Arr α → Prop} (hE : ∀ b : Arr α, b.WF → G b → ∃ r, evalP b = .ok r ∧ r ≈ₐ b.den m) {id : Nat} {a : Arr α} (hh : heap id = .prod id a)
    (hpr : a.isProd = true) (hwf : a.WF) (hg : a.streamGood m limit G) {order : List Nat} (hp : order.Perm (List.range (a.den m).shape.length))
    {b : DBuild α} {v : Nat → DVal V} (hb : DaskInv heap m limit evalP b v) (hnone : b.cache.lookup id = none) : Makes heap m limit evalP (.prod id a) order b v := by
  have hg' : ∀ s, a.shape = .ok s → ∀ ks, List.Forall₂ SliceOk ks s → a.keysOk ks ∧ ∀ b, a.getitem ks = .ok b → G b := by
    cases a <;> first | exact hg | cases hpr
  have hp' : order.reverse.Perm (List.range (a.den m).shape.length) := (List.reverse_perm order).trans hp
  have hsh := hwf.shape_eq m
  obtain ⟨cs, h1, h2, h3⟩ := producer_ok m limit G evalP hE a hwf hg' order.reverse hp'
  rw [hsh] at h1
  have h1' : (chunkIndexGen limit (a.den m).shape order.reverse).mapM (fun key => (do
        let b ← a.getitem key
        let d ← evalP b
        return (key, d) : Res (Chunk V))) = .ok cs := h1
  rw [← isProd_skel hpr] at h2 h3
  obtain ⟨ts, t1, t2⟩ : ∃ ts : List (DTask α), (chunkIndexGen limit (a.den m).shape order.reverse).mapM (fun key => (do
        let c ← a.getitem key
        return DTask.read key c : Res (DTask α))) = .ok ts ∧
      List.Forall₂ (fun t c => t.keys = c.1 ∧ t.deps = [] ∧ t.run m evalP [] = .ok (.chunk c)) ts cs := by
    rw [mapM_ok_iff] at h1'
    clear h1 h2
    generalize chunkIndexGen limit (a.den m).shape order.reverse = L at h1'
    induction h1' with
    | nil => exact ⟨[], rfl, .nil⟩
    | @cons key c L cs hr _ ih =>
      obtain ⟨ts, i1, i2⟩ := ih
      obtain ⟨x, hx, hr⟩ := bind_ok.mp hr
      obtain ⟨d, hd, hr⟩ := bind_ok.mp hr
      cases hr
      refine ⟨.read key x :: ts, ?_, .cons ⟨rfl, rfl, ?_⟩ i2⟩
      · rw [List.mapM_cons]
        simp only [hx, i1, bind, Except.bind, pure, Except.pure] at i1 ⊢
      · unfold DTask.run
        simp only [hd, bind, Except.bind, pure, Except.pure]
  obtain ⟨v', hv1, hv2, hv3⟩ := hb.vals.extend (ts := ts) (ws := cs.map DVal.chunk) (by
    rw [List.forall₂_map_right_iff]
    refine t2.imp ?_
    rintro t c ⟨_, e1, e2⟩
    refine ⟨by rw [e1]; simp, ?_⟩
    rw [e1]
    exact e2)
  have htl := t2.length_eq
  obtain ⟨w1, w2⟩ := skel_shape m a hwf
  have hdims := Skel.slices_ok limit a.skel w1
  rw [w2] at hdims
  have hrep : Represented m limit a (b.tasks ++ ts) v' (List.range' b.tasks.length ts.length) := by
    refine ⟨order.reverse, cs, a.skel.slices limit, hp', h2, hdims, rfl, List.nodup_range', ?_⟩
    rw [List.forall₂_iff_get]
    refine ⟨by rw [List.length_range', htl], ?_⟩
    intro j j1 j2
    simp only [List.get_eq_getElem, List.getElem_range', Nat.one_mul]
    have hjt : j < ts.length := by omega
    obtain ⟨k1, _⟩ := t2.get hjt j2
    simp only [List.get_eq_getElem] at k1
    have hm : cs[j].1 ∈ chunkKeysOf (a.skel.cuts limit) order.reverse := by rw [← h2.keys]; exact List.mem_map_of_mem (List.getElem_mem j2)
    obtain ⟨K, hK, he⟩ := (chunkKey_slices h3 hp').mp hm
    refine ⟨hv3 j _ (by simp [j2]), ts[j], K, ?_, by rw [k1, he], hK, by rw [he, keySlice_slice]⟩
    rw [List.getElem?_append_right (by omega), Nat.add_sub_cancel_left, List.getElem?_eq_getElem hjt]
  refine ⟨List.range' b.tasks.length ts.length, (b.put id (List.range' b.tasks.length ts.length, b.tasks ++ ts)).2, v', ts, ?_, rfl, hv1, hb.put hh hv1 hv2 hrep, hrep⟩
  unfold makeDask
  simp only [hnone, hsh, bind, Except.bind]
  have t1' := t1
  simp only [bind, Except.bind] at t1'
  rw [t1']
  rfl

theorem makeDask_ok {G : Arr α → Prop} (hE : ∀ b : Arr α, b.WF → G b → ∃ r, evalP b = .ok r ∧ r ≈ₐ b.den m) : ∀ (x : AObj α) (order : List Nat) (b : DBuild α) (v : Nat → DVal V),
    x.inHeap heap → x.Proper → x.toArr.WF → x.toArr.Ok m limit .sliced → x.toArr.streamGood m limit G → x.toArr.fewChunks limit →
    order.Perm (List.range (x.toArr.den m).shape.length) → DaskInv heap m limit evalP b v → Makes heap m limit evalP x order b v := by
  intro x
  have hcached : ∀ (x : AObj α) (order : List Nat) (b : DBuild α) (v : Nat → DVal V) (ids : List Nat), x.inHeap heap → DaskInv heap m limit evalP b v →
      b.cache.lookup x.id = some ids → makeDask m limit x order b = .ok (ids, b) → Makes heap m limit evalP x order b v := by
    intro x order b v ids hh hb hl hm
    refine ⟨ids, b, v, [], hm, by simp, fun _ _ => rfl, hb, ?_⟩
    have := hb.cached _ _ hl
    rwa [inHeap_id hh] at this
  induction x with
  | prod id a =>
    intro order b v hh hpr hwf hok hg hfew hp hb
    cases hl : b.cache.lookup id with
    | some ids => exact hcached _ order b v ids hh hb hl (by unfold makeDask; rw [hl])
    | none => exact makes_prod hE hh hpr hwf hg hp hb hl
  | agg id x axis k ih =>
    intro order b v hh hpr hwf hok hg hfew hp hb
    cases hl : b.cache.lookup id with
    | some ids => exact hcached _ order b v ids hh hb hl (by unfold makeDask; rw [hl])
    | none =>
      obtain ⟨hwa, s, hs, hax'⟩ := _root_.id hwf
      have hden := hwa.den_shape m hs
      have hax : axis < (x.toArr.den m).shape.length := by rw [hden]; exact hax'
      have hsh : ((AObj.agg id x axis k).toArr.den m).shape = (x.toArr.den m).shape.eraseIdx axis := rfl
      rw [hsh, List.length_eraseIdx, if_pos hax] at hp
      obtain ⟨g1, g2, g3⟩ := hg
      rw [hs] at g1
      obtain ⟨ids, b1, v1, ts1, m1, m2, m3, m4, ⟨o1, cs1, D1, m5⟩⟩ := ih (aggOrder axis order) b v hh.2 hpr hwa hok.2 g3 hfew.2 (aggOrder_perm' hax hp) hb
      obtain ⟨w1, w2⟩ := skel_shape m x.toArr hwa
      have hc := x.toArr.skel.cutsOk limit w1
      rw [w2] at hc
      have hwf' : (AObj.agg id x axis k).toArr.WF := hwf
      obtain ⟨w1', w2'⟩ := skel_shape m _ hwf'
      have hdims := Skel.slices_ok limit _ w1'
      rw [w2'] at hdims
      have hdims' : List.Forall₂ DimCut ((x.toArr.den m).shape.eraseIdx axis) (((x.toArr.skel.cuts limit).eraseIdx axis).map (fun c => c.map keySlice)) := hdims
      obtain ⟨ids', ts, v', cs, n1, n2, n3, n4⟩ := streamNodes_ok (m := m) (evalP := evalP) (arr := .agg x.toArr axis k) (B := (Arr.agg x.toArr axis k).den m)
        (Arr.WF.shape_eq m _ hwf') (ax := some axis) (cuts := (x.toArr.skel.cuts limit).eraseIdx axis) (hc.eraseIdx axis) hdims' rfl m4.vals (sources := [ids]) (chs := [cs1])
        (.cons ⟨_, _, o1, D1, m5, hc, (fun a ha => by cases ha; exact hax), rfl, by rw [slices_eraseIdx]⟩ .nil) (by simp)
        hfew.1
        (fun κ hκ => group_agg m limit hwf hok m5.stream m5.perm hc hdims' (by rw [hs] at g2; rw [hden]; exact g2) (by rw [hden]; exact g1) rfl hκ)
      have hrep : Represented m limit (AObj.agg id x axis k).toArr (b1.tasks ++ ts) v' ids' := ⟨_, cs, _, n4⟩
      refine ⟨ids', (b1.put id (ids', b1.tasks ++ ts)).2, v', ts1 ++ ts, ?_, ?_, ?_, m4.put hh.1 n2 n3 hrep, hrep⟩
      · unfold makeDask
        simp only [hl, m1, n1, bind, Except.bind]
        rfl
      · show b1.tasks ++ ts = _
        rw [m2, List.append_assoc]
      · intro i hi
        rw [n2 i (by rw [m2, List.length_append]; omega), m3 i hi]
  | elem1 id x op ih =>
    intro order b v hh hpr hwf hok hg hfew hp hb
    cases hl : b.cache.lookup id with
    | some ids => exact hcached _ order b v ids hh hb hl (by unfold makeDask; rw [hl])
    | none =>
      have hwa : x.toArr.WF := hwf
      obtain ⟨g1, g2⟩ := hg
      obtain ⟨f, hf⟩ := Option.isSome_iff_exists.mp g1
      obtain ⟨ids, b1, v1, ts1, m1, m2, m3, m4, ⟨o1, cs1, D1, m5⟩⟩ := ih order b v hh.2 hpr hwa hok.2.2 g2 hfew.2 hp hb
      obtain ⟨w1, w2⟩ := skel_shape m x.toArr hwa
      have hc := x.toArr.skel.cutsOk limit w1
      rw [w2] at hc
      have hdims := Skel.slices_ok limit _ w1
      rw [w2] at hdims
      have hwf' : (Arr.elem1 x.toArr op).WF := hwf
      obtain ⟨ids', ts, v', cs, n1, n2, n3, n4⟩ := streamNodes_ok (m := m) (evalP := evalP) (arr := .elem1 x.toArr op) (B := (Arr.elem1 x.toArr op).den m)
        (Arr.WF.shape_eq m _ hwf') (ax := none) (cuts := x.toArr.skel.cuts limit) hc hdims rfl m4.vals (sources := [ids]) (chs := [cs1])
        (.cons ⟨_, _, o1, D1, m5, hc, (fun a ha => by cases ha), rfl, rfl⟩ .nil) (by simp)
        hfew.1
        (fun κ hκ => group_elem1 m limit hwf hok m5.stream m5.perm hc hdims rfl hκ)
      have hrep : Represented m limit (AObj.elem1 id x op).toArr (b1.tasks ++ ts) v' ids' := ⟨_, cs, _, n4⟩
      refine ⟨ids', (b1.put id (ids', b1.tasks ++ ts)).2, v', ts1 ++ ts, ?_, ?_, ?_, m4.put hh.1 n2 n3 hrep, hrep⟩
      · unfold makeDask
        simp only [hl, hf, m1, n1, bind, Except.bind]
        rfl
      · show b1.tasks ++ ts = _
        rw [m2, List.append_assoc]
      · intro i hi
        rw [n2 i (by rw [m2, List.length_append]; omega), m3 i hi]
  | elem2 id x y op ihx ihy =>
    intro order b v hh hpr hwf hok hg hfew hp hb
    cases hl : b.cache.lookup id with
    | some ids => exact hcached _ order b v ids hh hb hl (by unfold makeDask; rw [hl])
    | none =>
      obtain ⟨hwa, hwb, hab⟩ := _root_.id hwf
      have hshab : (x.toArr.den m).shape = (y.toArr.den m).shape := by
        have h1 := hwa.shape_eq m
        rw [hab, hwb.shape_eq m] at h1
        injection h1 with h1
        exact h1.symm
      obtain ⟨g1, g2, g3, g4⟩ := hg
      obtain ⟨f, hf⟩ := Option.isSome_iff_exists.mp g1
      have hp1 : order.Perm (List.range (x.toArr.den m).shape.length) := by
        have : ((AObj.elem2 id x y op).toArr.den m).shape = (x.toArr.den m).shape := rfl
        rwa [this] at hp
      obtain ⟨ids, b1, v1, ts1, m1, m2, m3, m4, m5⟩ := ihx order b v hh.2.1 hpr.1 hwa hok.2.2.2.1 g2 hfew.2.1 hp1 hb
      obtain ⟨ids2, b2, v2, ts2, k1, k2, k3, k4, ⟨o2, cs2, D2, k5⟩⟩ := ihy order b1 v1 hh.2.2 hpr.2 hwb hok.2.2.2.2 g3 hfew.2.2 (hshab ▸ hp1) m4
      obtain ⟨o1, cs1, D1, m6⟩ := m5.mono (ts := ts2) k3
      rw [← k2] at m6
      obtain ⟨w1, w2⟩ := skel_shape m x.toArr hwa
      have hc := x.toArr.skel.cutsOk limit w1
      rw [w2] at hc
      have hdims := Skel.slices_ok limit _ w1
      rw [w2] at hdims
      rw [← g4] at k5
      have hwf' : (Arr.elem2 x.toArr y.toArr op).WF := hwf
      obtain ⟨ids', ts, v', cs, n1, n2, n3, n4⟩ := streamNodes_ok (m := m) (evalP := evalP) (arr := .elem2 x.toArr y.toArr op) (B := (Arr.elem2 x.toArr y.toArr op).den m)
        (Arr.WF.shape_eq m _ hwf') (ax := none) (cuts := x.toArr.skel.cuts limit) hc hdims rfl k4.vals (sources := [ids, ids2]) (chs := [cs1, cs2])
        (.cons ⟨_, _, o1, D1, m6, hc, (fun a ha => by cases ha), rfl, rfl⟩
          (.cons ⟨_, _, o2, D2, k5, (by rw [← hshab]; exact hc), (fun a ha => by cases ha), hshab, rfl⟩ .nil)) (by simp)
        hfew.1
        (fun κ hκ => group_elem2 m limit hwf hok m6.stream k5.stream m6.perm k5.perm hc hdims rfl hκ)
      have hrep : Represented m limit (AObj.elem2 id x y op).toArr (b2.tasks ++ ts) v' ids' := ⟨_, cs, _, n4⟩
      refine ⟨ids', (b2.put id (ids', b2.tasks ++ ts)).2, v', ts1 ++ ts2 ++ ts, ?_, ?_, ?_, k4.put hh.1 n2 n3 hrep, hrep⟩
      · unfold makeDask
        simp only [hl, hf, m1, k1, n1, bind, Except.bind]
        rfl
      · show b2.tasks ++ ts = _
        rw [k2, m2]
        simp [List.append_assoc]
      · intro i hi
        rw [n2 i (by rw [k2, m2]; simp; omega), k3 i (by rw [m2]; simp; omega), m3 i hi]

end Biggus

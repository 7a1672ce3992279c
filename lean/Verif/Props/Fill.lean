import Verif.Props.Meta
import Verif.Spec.Fill
import Verif.Proofs.Mutable
/-
C84: the fill value of indexed and evaluated arrays.
-/
namespace Biggus

variable {α : Type}

theorem foldl_step_same (F : Fills α) (d : Nat) (f : α) (hf : F.Agree d f f) : ∀ l : List α, (∀ x ∈ l, x = f) → l.foldl (F.step d) (some f) = some f
  | [], _ => rfl
  | x :: l, h => by
    have hx := h x List.mem_cons_self
    subst hx
    have hok : F.ok d x x = true := by
      unfold Fills.ok
      rcases hf with h | ⟨h1, h2, _⟩
      · split <;> simp [h]
      · rw [if_pos h1]; simp [h2]
    rw [List.foldl_cons]
    have : F.step d (some x) x = some x := by simp [Fills.step, hok]
    rw [this]
    exact foldl_step_same F d x hf l (fun y hy => h y (List.mem_cons_of_mem _ hy))

/-- The declared fill value of an expression with the fill value `f` throughout is `f`. -/
theorem fillValue_of_hasFill (T : DTypes α) (F : Fills α) (f : α) (hf : ∀ d, F.Agree d f f) : ∀ a : Arr α, a.HasFill T F f → a.fillValue T F = f
  | .adapter _ _ _, h => h
  | .const _ _ _, h => h
  | .newAxes _ _, h => h
  | .bcast _ _ _, h => h
  | .transposed _ _, h => h
  | .asType _ _, h => h
  | .maskVal _ _, h => h
  | .agg _ _ _, h => h
  | .elem1 _ _, h => h
  | .elem2 _ _ _, h => h
  | .stack ss items, h => by
    unfold Arr.fillValue Fills.combine
    rw [fillValue_of_hasFill T F f hf _ (h.2 _ (inB_zeros ss h.1)), foldl_step_same F _ f (hf _)]
    · rfl
    · intro x hx
      obtain ⟨i, hi, rfl⟩ := List.mem_map.mp hx
      exact fillValue_of_hasFill T F f hf _ (h.2 i ((mem_ndindex _ _).mp hi))
  | .mosaic n tiles axis, h => by
    unfold Arr.fillValue Fills.combine
    rw [fillValue_of_hasFill T F f hf _ (h.2 0 h.1), foldl_step_same F _ f (hf _)]
    · rfl
    · intro x hx
      obtain ⟨i, hi, rfl⟩ := List.mem_map.mp hx
      have := List.mem_range.mp hi
      exact fillValue_of_hasFill T F f hf _ (h.2 (i + 1) (by omega))

theorem arrayGetitem_plain {full : List Key → Res (Arr α)} {shape : Res (List Nat)} {keys : List Key} {b : Arr α}
    (hn : ∀ k ∈ keys, k.isNewaxis = false) (h : arrayGetitem full shape keys = .ok b) : ∃ fk, full fk = .ok b ∧ ∀ k ∈ fk, k.isNewaxis = false := by
  unfold arrayGetitem at h
  obtain ⟨s, _, h⟩ := bind_ok.mp h
  obtain ⟨fk, hfk, h⟩ := bind_ok.mp h
  have hfn : ∀ k ∈ fk, k.isNewaxis = false := by
    intro k hk
    rcases fullKeys_mem hfk k hk with hk | rfl
    · exact hn k hk
    · rfl
  rw [if_neg (by simp only [List.any_eq_true, not_exists, not_and, Bool.not_eq_true]; exact hfn)] at h
  exact ⟨fk, h, hfn⟩

/-- Dtype `d` and fill value `f` throughout. -/
def DFill (T : DTypes α) (F : Fills α) (d : Nat) (f : α) (a : Arr α) : Prop := HasDtype T d a ∧ a.HasFill T F f

theorem dfill_mosaic [Inhabited α] {T : DTypes α} {F : Fills α} {d : Nat} {f : α} {tiles : List (Arr α)} {axis : Nat} {b : Arr α}
    (hs : ∀ t ∈ tiles, DFill T F d f t) (h : mkMosaic tiles axis = .ok b) : DFill T F d f b := by
  refine ⟨hasDtype_mosaic (fun t ht => (hs t ht).1) h, ?_⟩
  obtain ⟨hne, _, rfl⟩ := mkMosaic_iff.mp h
  exact ⟨List.length_pos_iff.mpr hne, fun i hi => (hs _ (getD_mem tiles i default hi)).2⟩

theorem set_noNewaxis {ks : List Key} {i : Nat} {k : Key} (h : ∀ k ∈ ks, k.isNewaxis = false) (hk : k.isNewaxis = false) :
    ∀ x ∈ ks.set i k, x.isNewaxis = false := fun x hx => by
  rcases List.mem_or_eq_of_mem_set hx with hx | rfl
  · exact h x hx
  · exact hk

theorem dfill_mosaicFull [Inhabited α] {T : DTypes α} {F : Fills α} {d : Nat} {f : α} {inner : Nat → List Key → Res (Arr α)} {tshape : Nat → Res (List Nat)}
    {n axis : Nat} {fk : List Key} {b : Arr α} (hn : 0 < n) (hfk : ∀ k ∈ fk, k.isNewaxis = false)
    (hin : ∀ i, i < n → ∀ ks b, (∀ k ∈ ks, k.isNewaxis = false) → inner i ks = .ok b → DFill T F d f b)
    (h : mosaicFull inner tshape n axis fk = .ok b) : DFill T F d f b := by
  have htr : ∀ k ∈ trimKeys fk, k.isNewaxis = false := fun k hk => hfk k (by
    unfold trimKeys at hk
    exact List.mem_reverse.mp (List.IsSuffix.mem (List.mem_reverse.mp hk) (List.dropWhile_suffix _)))
  unfold mosaicFull at h
  simp only at h
  split at h
  · obtain ⟨tiles, ht, h⟩ := bind_ok.mp h
    refine dfill_mosaic ?_ h
    intro t htm
    obtain ⟨i, hi, h⟩ := mapM_mem ht t htm
    exact hin i (List.mem_range.mp hi) _ _ htr h
  · obtain ⟨lens, hl, h⟩ := bind_ok.mp h
    have hlen : lens.length = n := by
      have := (mapM_ok_inv _ _ _ hl).length_eq
      simpa using this.symm
    have hpos : 0 < lens.length := by omega
    have many : ∀ is rev, mosaicMany inner lens axis (trimKeys fk) is rev = .ok b → DFill T F d f b := by
      intro is rev h
      unfold mosaicMany at h
      obtain ⟨tiles, ht, h⟩ := bind_ok.mp h
      refine dfill_mosaic ?_ h
      have hall : ∀ t ∈ tiles, DFill T F d f t := by
        intro t htm
        obtain ⟨g, hg, h⟩ := mapM_mem ht t htm
        refine hin g.1 ?_ _ _ (set_noNewaxis htr ?_) h
        · rw [← hlen]; exact groupTiles_fst hpos is g hg
        · unfold tileKey; split <;> rfl
      intro t htm
      split at htm
      · exact hall t (List.mem_reverse.mp htm)
      · exact hall t htm
    unfold mosaicAxis at h
    split at h
    · exact hin _ (by rw [← hlen]; exact tileIndex_lt hpos _) _ _ (set_noNewaxis htr rfl) h
    · obtain ⟨_, _, h⟩ := bind_ok.mp h
      exact many _ _ h
    · exact many _ _ h
    · exact many _ _ h
    · exact many _ _ h
    · split at h <;> cases h
    · cases h

theorem dfill_stackFull {T : DTypes α} {F : Fills α} {d : Nat} {f : α} {inner : List Nat → List Key → Res (Arr α)} {ss : List Nat} {items : List Nat → Arr α}
    {fk : List Key} {b : Arr α} (hfk : ∀ k ∈ fk, k.isNewaxis = false) (hit : ∀ i, InB ss i → DFill T F d f (items i))
    (hin : ∀ i, InB ss i → ∀ ks b, (∀ k ∈ ks, k.isNewaxis = false) → inner i ks = .ok b → DFill T F d f b)
    (h : stackFull inner ss items fk = .ok b) : DFill T F d f b := by
  have hdr : ∀ k ∈ fk.drop ss.length, k.isNewaxis = false := fun k hk => hfk k (List.mem_of_mem_drop hk)
  unfold stackFull at h
  simp only at h
  obtain ⟨rs, hrs, h'⟩ := bind_ok.mp h
  clear h
  obtain ⟨sel, hsel, h⟩ := bind_ok.mp h'
  clear h'
  have hb := npFancy_inB hsel
  split at h
  · rename_i hre
    have hrs0 : rs = [] := by simpa using hre
    subst hrs0
    exact hin _ (hb [] (npFancy_scalars hrs hsel)) _ _ hdr h
  · obtain ⟨us, hus, h⟩ := bind_ok.mp h
    obtain ⟨hne, _, rfl⟩ := mkStack_iff.mp h
    have hitem : ∀ i, InB sel.shape i → DFill T F d f
        (if i ∈ ndindex rs then okOr (inner (sel.get i) (fk.drop ss.length)) (items (sel.get i)) else items (sel.get i)) := by
      intro i hi
      split
      · cases hr : inner (sel.get i) (fk.drop ss.length) with
        | ok c => exact hin _ (hb i hi) _ _ hdr hr
        | error e => exact hit _ (hb i hi)
      · exact hit _ (hb i hi)
    have hz := inB_zeros _ hne
    refine ⟨⟨(hitem _ hz).1.1, hne, ?_, fun i hi => (hitem i hi).1.2⟩, hne, fun i hi => (hitem i hi).2⟩
    intro i j hi hj
    rw [(hitem i hi).1.1, (hitem j hj).1.1]

/-- Everything that is not a data source, a stack or a mosaic. -/
def Arr.usesDefault : Arr α → Bool
  | .adapter _ _ _ | .stack _ _ | .mosaic _ _ _ => false
  | _ => true

theorem hasFill_default {T : DTypes α} {F : Fills α} {f : α} {a : Arr α} (h : a.usesDefault = true) : a.HasFill T F f ↔ F.default (a.dtype T) = f := by
  cases a <;> simp_all [Arr.usesDefault, Arr.HasFill]

theorem usesDefault_getitem [Inhabited α] {a b : Arr α} {ks : List Key} (ha : a.usesDefault = true) (h : a.getitem ks = .ok b) : b.usesDefault = true := by
  have hna : ∀ (a : Arr α) na, a.usesDefault = true → (Arr.newAxes a na).usesDefault = true := fun _ _ _ => rfl
  have hbc : ∀ (a : Arr α) d l, a.usesDefault = true → (Arr.bcast a d l).usesDefault = true := fun _ _ _ _ => rfl
  cases a with
  | adapter => cases ha
  | stack => cases ha
  | mosaic => cases ha
  | const s v dt =>
    unfold Arr.getitem at h
    obtain ⟨_, _, h⟩ := bind_ok.mp h
    cases h; rfl
  | newAxes a na =>
    unfold Arr.getitem at h
    obtain ⟨s, _, h⟩ := bind_ok.mp h
    unfold newAxesGetitem at h
    obtain ⟨_, _, h⟩ := bind_ok.mp h
    obtain ⟨st, _, h⟩ := bind_ok.mp h
    obtain ⟨c, hc, h⟩ := bind_ok.mp h
    obtain ⟨r, hr, h⟩ := bind_ok.mp h
    split at h
    · cases h
      unfold mkNewAxes at hr
      obtain ⟨_, _, hr⟩ := bind_ok.mp hr
      split at hr
      · cases hr
      · cases hr; rfl
    · obtain ⟨x, d', l', rfl, hx⟩ := mkBcast_form h
      rfl
  | bcast a d lead =>
    unfold Arr.getitem at h
    refine arrayGetitem_inv (P := fun b => b.usesDefault = true) ?_ hna hbc h
    intro ks b h
    unfold bcastFull at h
    obtain ⟨_, _, h⟩ := bind_ok.mp h
    obtain ⟨_, _, h⟩ := bind_ok.mp h
    obtain ⟨_, _, h⟩ := bind_ok.mp h
    obtain ⟨⟨ak, d'⟩, _, h⟩ := bind_ok.mp h
    obtain ⟨sub, hsub, h⟩ := bind_ok.mp h
    obtain ⟨x, d', l', rfl, hx⟩ := mkBcast_form h
    rfl
  | transposed a axes =>
    unfold Arr.getitem at h
    refine arrayGetitem_inv (P := fun b => b.usesDefault = true) ?_ hna hbc h
    intro ks b h
    unfold transposedFull at h
    obtain ⟨rem, _, h⟩ := bind_ok.mp h
    obtain ⟨c, hc, h⟩ := bind_ok.mp h
    unfold mkTransposed at h
    obtain ⟨_, _, h⟩ := bind_ok.mp h
    split at h
    · cases h
    · cases h; rfl
  | asType a dt =>
    unfold Arr.getitem at h
    obtain ⟨c, hc, h⟩ := bind_ok.mp h
    cases h; rfl
  | maskVal a v =>
    unfold Arr.getitem at h
    obtain ⟨c, hc, h⟩ := bind_ok.mp h
    cases h; rfl
  | agg a axis k =>
    unfold Arr.getitem at h
    refine arrayGetitem_inv (P := fun b => b.usesDefault = true) ?_ hna hbc h
    intro ks b h
    unfold aggFull at h
    obtain ⟨c, hc, h⟩ := bind_ok.mp h
    cases h; rfl
  | elem1 a op =>
    unfold Arr.getitem at h
    refine arrayGetitem_inv (P := fun b => b.usesDefault = true) ?_ hna hbc h
    intro ks b h
    obtain ⟨c, hc, h⟩ := bind_ok.mp h
    cases h; rfl
  | elem2 a b' op =>
    unfold Arr.getitem at h
    refine arrayGetitem_inv (P := fun b => b.usesDefault = true) ?_ hna hbc h
    intro ks r h
    obtain ⟨c, hc, h⟩ := bind_ok.mp h
    obtain ⟨d, hdd, h⟩ := bind_ok.mp h
    unfold mkElem2 at h
    obtain ⟨⟨a', b'⟩, hab, h⟩ := bind_ok.mp h
    cases h; rfl

theorem getitem_fill [Inhabited α] (T : DTypes α) (F : Fills α) (f : α) : ∀ (a : Arr α), a.DtypeOk T → a.HasFill T F f → ∀ ks b,
    (∀ k ∈ ks, k.isNewaxis = false) → a.getitem ks = .ok b → DFill T F (a.dtype T) f b
  | .adapter o c stored, hd, hf, ks, b, hn, h => by
    refine ⟨getitem_dtype T _ hd ks b h, ?_⟩
    unfold Arr.getitem at h
    obtain ⟨fk, h, _⟩ := arrayGetitem_plain hn h
    unfold adapterFull at h
    obtain ⟨r, _, h⟩ := bind_ok.mp h
    unfold mkAdapter at h
    simp only at h
    split at h
    · cases h
    · obtain ⟨_, _, h⟩ := bind_ok.mp h
      cases h
      exact hf
  | .stack ss items, hd, hf, ks, b, hn, h => by
    unfold Arr.getitem at h
    obtain ⟨hne, hsame, hok⟩ := hd
    have hz := inB_zeros ss hne
    obtain ⟨fk, h, hfk⟩ := arrayGetitem_plain hn h
    refine dfill_stackFull (d := (items (ss.map (fun _ => 0))).dtype T) hfk (fun i hi => ⟨⟨hsame i _ hi hz, hok i hi⟩, hf.2 i hi⟩) ?_ h
    intro i hi ks b hn h
    have := getitem_fill T F f (items i) (hok i hi) (hf.2 i hi) ks b hn h
    rw [hsame i _ hi hz] at this
    exact this
  | .mosaic n tiles axis, hd, hf, ks, b, hn, h => by
    unfold Arr.getitem at h
    obtain ⟨hn0, hsame, hok⟩ := hd
    obtain ⟨fk, h, hfk⟩ := arrayGetitem_plain hn h
    refine dfill_mosaicFull (d := (tiles 0).dtype T) hn0 hfk ?_ h
    intro i hi ks b hn h
    have := getitem_fill T F f (tiles i) (hok i hi) (hf.2 i hi) ks b hn h
    rw [hsame i 0 hi hn0] at this
    exact this
  | .const s v dt, hd, hf, ks, b, hn, h => of_default T F f _ rfl hd hf ks b h
  | .newAxes a na, hd, hf, ks, b, hn, h => of_default T F f _ rfl hd hf ks b h
  | .bcast a d lead, hd, hf, ks, b, hn, h => of_default T F f _ rfl hd hf ks b h
  | .transposed a axes, hd, hf, ks, b, hn, h => of_default T F f _ rfl hd hf ks b h
  | .asType a dt, hd, hf, ks, b, hn, h => of_default T F f _ rfl hd hf ks b h
  | .maskVal a v, hd, hf, ks, b, hn, h => of_default T F f _ rfl hd hf ks b h
  | .agg a axis k, hd, hf, ks, b, hn, h => of_default T F f _ rfl hd hf ks b h
  | .elem1 a op, hd, hf, ks, b, hn, h => of_default T F f _ rfl hd hf ks b h
  | .elem2 a c op, hd, hf, ks, b, hn, h => of_default T F f _ rfl hd hf ks b h
where
  of_default (T : DTypes α) (F : Fills α) (f : α) (a : Arr α) (ha : a.usesDefault = true) (hd : a.DtypeOk T) (hf : a.HasFill T F f) (ks : List Key) (b : Arr α)
      (h : a.getitem ks = .ok b) : DFill T F (a.dtype T) f b := by
    have h1 := getitem_dtype T a hd ks b h
    refine ⟨h1, (hasFill_default (usesDefault_getitem ha h)).mpr ?_⟩
    rw [h1.1]
    exact (hasFill_default ha).mp hf

/-- C84: indexing (without `newaxis`) an expression with one fill value throughout, any number of times, keeps that fill value. -/
theorem C84_indexing_keeps_fill_partial [Inhabited α] (T : DTypes α) (F : Fills α) (f : α) (hf : ∀ d, F.Agree d f f) : ∀ (steps : List (List Key)) (a b : Arr α),
    a.DtypeOk T → a.HasFill T F f → (∀ ks ∈ steps, ∀ k ∈ ks, k.isNewaxis = false) → steps.foldlM Arr.getitem a = .ok b →
    a.fillValue T F = f ∧ b.fillValue T F = f
  | [], a, b, _, h1, _, h => by
    cases h
    exact ⟨fillValue_of_hasFill T F f hf a h1, fillValue_of_hasFill T F f hf a h1⟩
  | ks :: steps, a, b, h0, h1, hn, h => by
    rw [List.foldlM_cons] at h
    obtain ⟨c, hc, h⟩ := bind_ok.mp h
    obtain ⟨h2, h3⟩ := getitem_fill T F f a h0 h1 ks c (hn ks List.mem_cons_self) hc
    exact ⟨fillValue_of_hasFill T F f hf a h1,
      (C84_indexing_keeps_fill_partial T F f hf steps c b h2.2 h3 (fun ks h => hn ks (List.mem_cons_of_mem _ h)) h).2⟩

/-- C84: `a.masked_array().fill_value` is `a.fill_value` for sources, constants, stacks, mosaics, broadcasts, aggregations and element-wise operations
(of what is not a single masked element). -/
theorem C84_evaluated_fill_partial (T : DTypes α) (F : Fills α) (cast : Nat → α → α) (a : Arr α) (h : a.ownFill = true) (hs : a.NotMaskedScalar) :
    a.evalFill T F cast = a.fillValue T F := by
  have hd := C39_evaluated_dtype_partial T a hs
  unfold Arr.evalFill
  cases a with
  | newAxes => cases h
  | transposed => cases h
  | asType => cases h
  | maskVal => cases h
  | adapter => rfl
  | stack => rfl
  | mosaic => rfl
  | _ => simp only [Arr.setFill, Option.getD_none, hd, Arr.fillValue]

/-- C84: so does that of a view, as soon as what it is a view of has the default fill value of its dtype. -/
theorem C84_views_of_default (T : DTypes α) (F : Fills α) (cast : Nat → α → α) (a : Arr α) (ha : a.evalFill T F cast = F.default (a.dtype T))
    (hs : a.NotMaskedScalar) : (∀ na, (Arr.newAxes a na).evalFill T F cast = (Arr.newAxes a na).fillValue T F) ∧
    ∀ axes, (Arr.transposed a axes).evalFill T F cast = (Arr.transposed a axes).fillValue T F := ⟨fun _ => ha, fun _ => ha⟩

/-! ### Concrete cases -/

/-- A source of shape [3] with fill value 7. -/
def exFillSource : Arr ℚ := .adapter false ⟨⟨[3], fun _ => some 0⟩, 7, 1⟩ []

/-- A stack of two such sources, both with fill value 7, indexed twice. -/
example : (Arr.stack [2] (fun _ => exFillSource)).HasFill exDTypes exFills 7 ∧ (Arr.stack [2] (fun _ => exFillSource)).DtypeOk exDTypes ∧
    ([[Key.slice ⟨none, none, some (-1)⟩], [Key.full, Key.int 1]].foldlM Arr.getitem (Arr.stack [2] (fun _ => exFillSource))).map
      (fun b => b.fillValue exDTypes exFills) = .ok 7 := by
  refine ⟨⟨by decide, fun _ _ => rfl⟩, ⟨by decide, fun _ _ _ _ => rfl, fun _ _ => trivial⟩, by decide +kernel⟩

/-- C84 fails in the code: the transpose of an array with fill value 7, the array with a new axis, `masked_equal` of it and its `astype` announce the default
of the dtype (1000), but evaluate to a masked array with fill value 7 (for `masked_equal`: the masked value). -/
theorem C84_views_wrong :
    (Arr.transposed exFillSource [0]).fillValue exDTypes exFills = 1000 ∧ (Arr.transposed exFillSource [0]).evalFill exDTypes exFills (fun _ x => x) = 7 ∧
    (Arr.newAxes exFillSource [1, 0]).fillValue exDTypes exFills = 1000 ∧ (Arr.newAxes exFillSource [1, 0]).evalFill exDTypes exFills (fun _ x => x) = 7 ∧
    (Arr.maskVal exFillSource 3).fillValue exDTypes exFills = 1000 ∧ (Arr.maskVal exFillSource 3).evalFill exDTypes exFills (fun _ x => x) = 3 ∧
    (Arr.asType exFillSource 1).fillValue exDTypes exFills = 1000 ∧ (Arr.asType exFillSource 1).evalFill exDTypes exFills (fun _ x => x) = 7 := by
  decide +kernel

/-- C84 fails in the code: `biggus.masked_arrays([a])` of a source with fill value 7 has the default fill value, while `a.masked_array()` has 7. -/
theorem C84_engine_forgets : exFillSource.fillValue exDTypes exFills = 7 ∧ exFillSource.evalFill exDTypes exFills (fun _ x => x) = 7 ∧
    exFillSource.engineFill exDTypes exFills = 1000 := by
  decide +kernel

/-- C84 fails in the code: indexing a stack of arrays with different fill values changes the declared one. -/
theorem C84_mixed_stack_changes :
    (Arr.stack [2] (fun i => if i = [0] then exFillSource else .const [3] 0 1)).fillValue exDTypes exFills = 1000 ∧
    ((Arr.stack [2] (fun i => if i = [0] then exFillSource else .const [3] 0 1)).getitem [.int 0]).map (fun b => b.fillValue exDTypes exFills) = .ok 7 := by
  decide +kernel

end Biggus

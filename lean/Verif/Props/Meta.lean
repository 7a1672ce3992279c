import Verif.Proofs.Meta
import Verif.Props.Adapters
/-
C34 (fill values), C39 (dtypes).
-/
namespace Biggus

variable {α : Type}

/-! ### C39 -/

theorem mapM_check {β : Type} {l : List β} {p : β → Prop} [DecidablePred p] :
    (∃ us, l.mapM (fun x => if p x then (.error .value : Res Unit) else .ok ()) = .ok us) ↔ ∀ x ∈ l, ¬ p x := by
  constructor
  · rintro ⟨us, h⟩ x hx hp
    have hf := mapM_ok_inv _ _ _ h
    clear h
    induction hf with
    | nil => cases hx
    | cons h1 h2 ih =>
      rcases List.mem_cons.mp hx with rfl | hx
      · rw [if_pos hp] at h1; cases h1
      · exact ih hx
  · intro h
    exact ⟨_, mapM_ok l _ (fun _ => ()) (fun x hx => if_neg (h x hx))⟩

/-- C39.  `ArrayStack(...)` and `LinearMosaic(...)` accept only parts of one dtype: what they create is consistent if its parts are. -/
theorem C39_stack_checks_dtypes (T : DTypes α) (ss : List Nat) (items : List Nat → Arr α) (b : Arr α)
    (h : mkStackD T ss items = .ok b) (hok : ∀ i, InB ss i → (items i).DtypeOk T) :
    b.DtypeOk T ∧ ∀ i, InB ss i → (items i).dtype T = b.dtype T := by
  unfold mkStackD at h
  obtain ⟨b', hb, h⟩ := bind_ok.mp h
  obtain ⟨us, hus, h⟩ := bind_ok.mp h
  cases h
  obtain ⟨hne, _, rfl⟩ := mkStack_iff.mp hb
  have hall : ∀ i, InB ss i → (items i).dtype T = (items (ss.map (fun _ => 0))).dtype T := by
    intro i hi
    have := mapM_check.mp ⟨us, hus⟩ i ((mem_ndindex ss i).mpr hi)
    exact Decidable.not_not.mp this
  exact ⟨⟨hne, fun i j hi hj => by rw [hall i hi, hall j hj], hok⟩, hall⟩

theorem C39_mosaic_checks_dtypes [Inhabited α] (T : DTypes α) (tiles : List (Arr α)) (axis : Nat) (b : Arr α)
    (h : mkMosaicD T tiles axis = .ok b) (hok : ∀ t ∈ tiles, t.DtypeOk T) :
    b.DtypeOk T ∧ ∀ t ∈ tiles, t.dtype T = b.dtype T := by
  unfold mkMosaicD at h
  obtain ⟨b', hb, h⟩ := bind_ok.mp h
  obtain ⟨us, hus, h⟩ := bind_ok.mp h
  cases h
  obtain ⟨hne, _, _⟩ := mkMosaic_iff.mp hb
  have hall : ∀ t ∈ tiles, HasDtype T ((tiles.headD default).dtype T) t := by
    intro t ht
    refine ⟨?_, hok t ht⟩
    match tiles, ht with
    | t0 :: ts, ht =>
      rcases List.mem_cons.mp ht with rfl | ht
      · rfl
      · have := mapM_check.mp ⟨us, hus⟩ t ht
        exact Decidable.not_not.mp this
  have := hasDtype_mosaic hall hb
  refine ⟨this.2, ?_⟩
  intro t ht
  rw [(hall t ht).1, this.1]

/-- C39.  Whatever the expression and whatever the keys: if indexing succeeds, the result has the same dtype (and stays consistent: the
dtype checks of the constructors never fail while indexing). -/
theorem C39_indexing_keeps_dtype [Inhabited α] (T : DTypes α) (a : Arr α) (hok : a.DtypeOk T) (keys : List Key) (b : Arr α)
    (h : a.getitem keys = .ok b) : b.dtype T = a.dtype T ∧ b.DtypeOk T :=
  getitem_dtype T a hok keys b h

/-- C39.  The result of `ndarray()` has the declared dtype, unless it is one single masked element. -/
theorem C39_evaluated_dtype_partial (T : DTypes α) : ∀ (a : Arr α), a.NotMaskedScalar → a.evalDtype T = a.dtype T
  | .adapter o c keys, h => by
    unfold Arr.evalDtype
    split
    · rename_i r hr
      split
      · rename_i hc
        have := h r hr hc.1
        rw [Option.isSome_iff_exists] at this
        obtain ⟨x, hx⟩ := this
        rw [hx] at hc
        exact absurd hc.2 (by simp)
      · rfl
    · rfl
  | .const _ _ _, _ => rfl
  | .newAxes a _, h => C39_evaluated_dtype_partial T a h
  | .bcast a _ _, h => C39_evaluated_dtype_partial T a h
  | .transposed a _, h => C39_evaluated_dtype_partial T a h
  | .maskVal a _, h => C39_evaluated_dtype_partial T a h
  | .stack _ _, _ => rfl
  | .mosaic _ _ _, _ => rfl
  | .asType _ _, _ => rfl
  | .agg _ _ _, _ => rfl
  | .elem1 _ _, _ => rfl
  | .elem2 _ _ _, _ => rfl

/-- C39.  An aggregation announces, and evaluates to, the documented dtype; so does everything indexed from it. -/
theorem C39_aggregation_dtype [Inhabited α] (T : DTypes α) (a : Arr α) (hok : a.DtypeOk T) (axis : Nat) (k : AggKind α) :
    AggDtype T (a.dtype T) k ((Arr.agg a axis k).dtype T) ∧ (Arr.agg a axis k).evalDtype T = (Arr.agg a axis k).dtype T ∧
    ∀ keys b, (Arr.agg a axis k).getitem keys = .ok b → AggDtype T (a.dtype T) k (b.dtype T) := by
  have h1 : AggDtype T (a.dtype T) k ((Arr.agg a axis k).dtype T) := by cases k <;> constructor
  refine ⟨h1, rfl, fun keys b hb => ?_⟩
  rw [(C39_indexing_keeps_dtype T (.agg a axis k) hok keys b hb).1]
  exact h1

/-- C39.  An element-wise operation on two operands neither of which is a Python number: the dtype computed when it is created is the dtype of
the array created, hence of everything indexed from it and evaluated. -/
theorem C39_elementwise_dtype (T : DTypes α) (a b c : Arr α) (y : Operand α) (op : Op2 α) (h : mkElem2 a b op = .ok c) :
    c.dtype T = elem2Declared T op a y false b ∧ c.evalDtype T = c.dtype T := by
  have side : ∀ {e e' : Arr α} {kw}, bcastSide e kw = .ok e' → e'.dtype T = e.dtype T := by
    intro e e' kw h
    unfold bcastSide at h
    split at h
    · cases h; rfl
    · obtain ⟨x, d', l', rfl, hx⟩ := mkBcast_form h
      rcases hx with rfl | ⟨_, _, rfl⟩ <;> rfl
  unfold mkElem2 at h
  obtain ⟨⟨a', b'⟩, hab, h⟩ := bind_ok.mp h
  cases h
  unfold broadcastArrays at hab
  obtain ⟨sa, _, hab⟩ := bind_ok.mp hab
  obtain ⟨sb, _, hab⟩ := bind_ok.mp hab
  obtain ⟨full, _, hab⟩ := bind_ok.mp hab
  obtain ⟨x, hx, hab⟩ := bind_ok.mp hab
  obtain ⟨y', hy, hab⟩ := bind_ok.mp hab
  cases hab
  refine ⟨?_, rfl⟩
  show T.op2 op (a'.dtype T) (b'.dtype T) = _
  rw [side hx, side hy]
  unfold elem2Declared
  split
  · rename_i h; cases h
  · rfl

/-- A toy system of dtypes (the identifier is the item size: 1 `int8`, 8 `int64`/`float64`): arrays promote to the larger one, a Python number
does not widen the array. -/
def exDTypes : DTypes ℚ := ⟨fun _ => 8, 4, fun _ d => d, fun _ d e => max d e, fun _ d _ => d, 8⟩

def exPlus : Op2 ℚ := ⟨fun x y => x + y, none⟩

/-- A 2 x 3 source of dtype 1 with one masked element. -/
def exBytes : Concrete ℚ := ⟨⟨[2, 3], fun i => if i = [1, 2] then none else some 1⟩, 0, 1⟩

/-- C39 fails for a single masked element: `A[1, 2]` of an `int8` source has dtype `int8`, but evaluates to a `float64` (`np.array(ma.masked)`). -/
theorem C39_masked_scalar_wrong : ∃ (a : Arr ℚ) (keys : List Key), a.DtypeOk exDTypes ∧
    (a.getitem keys).map (fun b => (b.shape, b.dtype exDTypes, b.evalDtype exDTypes)) = .ok (.ok [], 1, 8) :=
  ⟨.adapter false exBytes [], [.int 1, .int 2], trivial, by decide +kernel⟩

/-- C39 fails for an operand given as a Python number: `A + 1` of an `int8` array announces dtype `int8`, but evaluates to `int64`, and so does
any array indexed from it. -/
theorem C39_python_number_wrong : ∃ (a b c : Arr ℚ), a.DtypeOk exDTypes ∧ ensureArray (.scalar 1 8) = .ok b ∧ mkElem2 a b exPlus = .ok c ∧
    elem2Declared exDTypes exPlus a (.scalar 1 8) true b = 1 ∧ c.evalDtype exDTypes = 8 ∧
    ∀ keys d, c.getitem keys = .ok d → d.dtype exDTypes = 8 := by
  refine ⟨.const [2] 5 1, .const [] 1 8, .elem2 (.const [2] 5 1) (.bcast (.const [] 1 8) [] [2]) exPlus, trivial, rfl, rfl, rfl, rfl, ?_⟩
  intro keys d h
  exact (C39_indexing_keeps_dtype exDTypes (.elem2 (.const [2] 5 1) (.bcast (.const [] 1 8) [] [2]) exPlus) ⟨trivial, trivial⟩ keys d h).1

/-- A stack of a mosaic and an element-wise sum. -/
def exNested : Res (Arr ℚ) := do
  let b ← mkMosaicD exDTypes [.adapter false exBytes [], .const [1, 3] 2 1] 0
  mkStackD exDTypes [2] (fun i => if i = [0] then b else .elem2 (.const [3, 3] 1 1) (.const [3, 3] 1 1) exPlus)

/-- The hypotheses are met by the stack, indexed with a new axis and an integer; a stack of different dtypes is rejected. -/
example : (exNested >>= fun c => c.getitem [.newaxis, .int 0, .slice ⟨some 1, none, none⟩]).map
      (fun d => (d.shape, d.dtype exDTypes, d.evalDtype exDTypes)) = .ok (.ok [1, 2, 3], 1, 1) ∧
    (mkStackD exDTypes [2] (fun i => Arr.const [2] 0 (if i = [0] then 1 else 8))).map (fun _ => ()) = .error .value ∧
    (mkMosaicD exDTypes [Arr.const [2] 0 1, Arr.const [2] 0 8] 0).map (fun _ => ()) = .error .value := by
  decide +kernel

/-- The count and the mean of `int8` data (dtype 1), indexed. -/
example : ((Arr.agg (.adapter false exBytes []) 0 .count).getitem [.int 1]).map (fun b => b.dtype exDTypes) = .ok exDTypes.int ∧
    ((Arr.agg (.adapter false exBytes []) 0 (.mean 1)).getitem [.int 1]).map (fun b => b.dtype exDTypes) = .ok (exDTypes.trueDiv 1) := by
  decide +kernel

/-! ### C34 -/

theorem ndindex_head : ∀ (ss : List Nat), ss.prod ≠ 0 → (ndindex ss).head? = some (ss.map (fun _ => 0))
  | [], _ => rfl
  | n :: ns, h => by
    rw [List.prod_cons] at h
    obtain ⟨hn, hns⟩ := Nat.mul_ne_zero_iff.mp h
    obtain ⟨k, rfl⟩ := Nat.exists_eq_succ_of_ne_zero hn
    unfold ndindex
    rw [List.range_succ_eq_map, List.flatMap_cons, List.head?_append, List.head?_map, ndindex_head ns hns]
    rfl

theorem Fills.ok_iff (F : Fills α) (dt : Nat) (c f : α) : F.ok dt c f = true ↔ F.Agree dt f c := by
  unfold Fills.ok Fills.Agree
  cases h : F.floating dt <;> simp
  constructor
  · rintro (h | ⟨h1, h2⟩)
    · exact Or.inl h
    · exact Or.inr ⟨h2, h1⟩
  · rintro (h | ⟨h1, h2⟩)
    · exact Or.inl h
    · exact Or.inr ⟨h2, h1⟩

theorem Fills.Laws.agree_symm {F : Fills α} (L : F.Laws) {dt : Nat} {f g : α} (h : F.Agree dt f g) : F.Agree dt g f := by
  rcases h with h | ⟨h, h1, h2⟩
  · exact Or.inl (L.symm _ _ h)
  · exact Or.inr ⟨h, h2, h1⟩

theorem Fills.Laws.agree_trans {F : Fills α} (L : F.Laws) {dt : Nat} {f g k : α} (h : F.Agree dt f g) (h' : F.Agree dt g k) : F.Agree dt f k := by
  rcases h with h | ⟨h, h1, h2⟩
  · rcases h' with h' | ⟨_, h3, _⟩
    · exact Or.inl (L.trans _ _ _ h h')
    · have := L.nan g f h3
      rw [L.symm _ _ h] at this; cases this
  · rcases h' with h' | ⟨_, h3, h4⟩
    · have := L.nan g k h2
      rw [h'] at this; cases this
    · exact Or.inr ⟨h, h1, h4⟩

theorem Fills.foldl_none (F : Fills α) (dt : Nat) (l : List α) : l.foldl (F.step dt) none = none := by
  induction l with
  | nil => rfl
  | cons f l ih => exact ih

theorem Fills.foldl_step (F : Fills α) (dt : Nat) (c : α) (l : List α) :
    ((∀ f ∈ l, F.Agree dt f c) → l.foldl (F.step dt) (some c) = some c) ∧
    (¬ (∀ f ∈ l, F.Agree dt f c) → l.foldl (F.step dt) (some c) = none) := by
  induction l with
  | nil => exact ⟨fun _ => rfl, fun h => absurd (fun _ h => by cases h) h⟩
  | cons f l ih =>
    rw [List.foldl_cons]
    have hs : F.step dt (some c) f = if F.ok dt c f then some c else none := rfl
    rw [hs]
    by_cases hf : F.Agree dt f c
    · rw [if_pos ((F.ok_iff dt c f).mpr hf)]
      refine ⟨fun h => ih.1 (fun g hg => h g (List.mem_cons_of_mem _ hg)), fun h => ih.2 (fun h' => h ?_)⟩
      intro g hg
      rcases List.mem_cons.mp hg with rfl | hg
      · exact hf
      · exact h' g hg
    · rw [if_neg (fun h => hf ((F.ok_iff dt c f).mp h))]
      exact ⟨fun h => absurd (h f List.mem_cons_self) hf, fun _ => F.foldl_none dt l⟩

theorem Fills.combine_isCommon (F : Fills α) (L : F.Laws) (dt : Nat) (first : α) (others fs : List α) (hhead : fs.head? = some first)
    (hsub : ∀ f ∈ others, f ∈ fs) (hsup : ∀ f ∈ fs, f = first ∨ f ∈ others) (hself : F.Agree dt first first ∨ others ≠ []) :
    F.IsCommon dt fs (F.combine dt first others) := by
  have hf : first ∈ fs := List.mem_of_head? hhead
  obtain ⟨h1, h2⟩ := F.foldl_step dt first others
  constructor
  · intro h
    unfold Fills.combine
    rw [h1 (fun f hf' => h f (hsub f hf') first hf), hhead]; rfl
  · intro h
    unfold Fills.combine
    rw [h2]; rfl
    intro hall
    have hself' : F.Agree dt first first := by
      rcases hself with h | h
      · exact h
      · obtain ⟨g, hg⟩ := List.exists_mem_of_ne_nil _ h
        exact L.agree_trans (L.agree_symm (hall g hg)) (hall g hg)
    have hag : ∀ f ∈ fs, F.Agree dt f first := by
      intro f hf'
      rcases hsup f hf' with rfl | hf'
      · exact hself'
      · exact hall f hf'
    exact h (fun f hf' g hg => L.agree_trans (hag f hf') (L.agree_symm (hag g hg)))

/-- C34 for stacks (all stacks that can be built have at least one item). -/
theorem C34_stack_fill_value (T : DTypes α) (F : Fills α) (L : F.Laws) (ss : List Nat) (items : List Nat → Arr α) (b : Arr α)
    (h : mkStackD T ss items = .ok b) :
    F.IsCommon (b.dtype T) ((ndindex ss).map (fun i => (items i).fillValue T F)) (b.fillValue T F) := by
  unfold mkStackD at h
  obtain ⟨b', hb, h⟩ := bind_ok.mp h
  obtain ⟨us, hus, h⟩ := bind_ok.mp h
  cases h
  obtain ⟨hne, _, rfl⟩ := mkStack_iff.mp hb
  have hz := (mem_ndindex ss _).mpr (inB_zeros ss hne)
  refine F.combine_isCommon L _ _ _ _ ?_ (fun _ h => h) (fun _ h => Or.inr h) (Or.inr ?_)
  · rw [List.head?_map, ndindex_head ss hne]; rfl
  · intro h0
    rw [List.map_eq_nil_iff] at h0
    rw [h0] at hz; cases hz

/-- C34 for mosaics.  (With one tile only, the fill value is that tile's.) -/
theorem C34_mosaic_fill_value [Inhabited α] (T : DTypes α) (F : Fills α) (L : F.Laws) (tiles : List (Arr α)) (axis : Nat) (b : Arr α)
    (h : mkMosaicD T tiles axis = .ok b) :
    (1 < tiles.length → F.IsCommon (b.dtype T) (tiles.map (fun t => t.fillValue T F)) (b.fillValue T F)) ∧
    ∀ t, tiles = [t] → b.fillValue T F = t.fillValue T F := by
  unfold mkMosaicD at h
  obtain ⟨b', hb, h⟩ := bind_ok.mp h
  obtain ⟨us, hus, h⟩ := bind_ok.mp h
  cases h
  obtain ⟨hne, _, rfl⟩ := mkMosaic_iff.mp hb
  constructor
  · intro h1
    match tiles, h1 with
    | t0 :: t1 :: ts, h1 =>
      have hmap : (List.range ((t0 :: t1 :: ts).length - 1)).map (fun i => ((t0 :: t1 :: ts).getD (i + 1) default).fillValue T F) =
          (t1 :: ts).map (fun t => t.fillValue T F) := by
        apply List.ext_getElem
        · simp
        · intro i h1 h2
          simp at h1 h2
          simp only [List.getElem_map, List.getElem_range]
          congr 1
          rw [List.getD_eq_getElem?_getD, List.getElem?_cons_succ, List.getElem?_eq_getElem (by simpa using h2)]
          rfl
      show F.IsCommon _ _ (F.combine _ _ ((List.range ((t0 :: t1 :: ts).length - 1)).map
        (fun i => ((t0 :: t1 :: ts).getD (i + 1) default).fillValue T F)))
      rw [hmap]
      refine F.combine_isCommon L _ _ _ _ rfl (fun f hf => List.mem_cons_of_mem _ hf) (fun f hf => ?_) (Or.inr (by simp))
      exact List.mem_cons.mp hf
  · rintro t rfl
    rfl

/-- Fill values of the examples: `-1` plays the NaN; dtype 8 is floating; the default is 1000. -/
def exFills : Fills ℚ := ⟨fun x y => decide (x = y ∧ x ≠ -1), fun x => decide (x = -1), fun _ => 1000, fun d => d == 8⟩

theorem exFills_laws : exFills.Laws := by
  constructor
  · intro x y h; simp [exFills] at h ⊢; exact ⟨h.1.symm, by rw [← h.1]; exact h.2⟩
  · intro x y z h h'; simp [exFills] at h h' ⊢; exact ⟨h.1.trans h'.1, h.2⟩
  · intro x y h; simp [exFills] at h ⊢; intro _; exact h

/-- Stacks whose items agree (also on NaN), and one whose items do not; indexing the latter gives a different fill value. -/
example : (mkStackD exDTypes [2] (fun _ => .adapter false ⟨⟨[3], fun _ => some 0⟩, 7, 1⟩ [])).map (fun a => a.fillValue exDTypes exFills) = .ok 7 ∧
    (mkStackD exDTypes [2] (fun _ => .adapter false ⟨⟨[3], fun _ => some 0⟩, -1, 8⟩ [])).map (fun a => a.fillValue exDTypes exFills) = .ok (-1) ∧
    (mkStackD exDTypes [2] (fun i => .adapter false ⟨⟨[3], fun _ => some 0⟩, if i = [0] then 7 else 9, 1⟩ [])).map
      (fun a => a.fillValue exDTypes exFills) = .ok 1000 ∧
    (mkStackD exDTypes [2] (fun i => .adapter false ⟨⟨[3], fun _ => some 0⟩, if i = [0] then 7 else 9, 1⟩ []) >>= fun a =>
      a.getitem [.int 1]).map (fun a => a.fillValue exDTypes exFills) = .ok 9 := by
  decide +kernel

/-- Mosaics, likewise. -/
example : (mkMosaicD exDTypes [.adapter false ⟨⟨[3], fun _ => some 0⟩, -1, 8⟩ [], .adapter false ⟨⟨[2], fun _ => some 0⟩, -1, 8⟩ []] 0).map
      (fun a => a.fillValue exDTypes exFills) = .ok (-1) ∧
    (mkMosaicD exDTypes [.adapter false ⟨⟨[3], fun _ => some 0⟩, -1, 8⟩ [], .const [2] 0 8] 0).map
      (fun a => a.fillValue exDTypes exFills) = .ok 1000 := by
  decide +kernel

/-- New axes and broadcasts do not forward the fill value: `A[np.newaxis]` of an array with fill value 7 has the dtype's default. -/
theorem C34_containers_forget : ∃ a : Arr ℚ, a.fillValue exDTypes exFills = 7 ∧
    (a.getitem [.newaxis]).map (fun b => b.fillValue exDTypes exFills) = .ok 1000 :=
  ⟨.adapter false ⟨⟨[3], fun _ => some 0⟩, 7, 1⟩ [], by decide +kernel, by decide +kernel⟩

end Biggus

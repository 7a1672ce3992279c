import Verif.Props.Compute
import Verif.Spec.Ints
/-
C67: sum and mean of machine integers.  C68: counts.
-/
namespace Biggus
open Spec

/-! ### Casts -/

theorem wrap_modEq (t : IntType) (x : Int) : t.wrap x ≡ x [ZMOD 2 ^ t.bits] := by
  unfold IntType.wrap
  split
  · have h : (x + 2 ^ (t.bits - 1)) % 2 ^ t.bits - 2 ^ (t.bits - 1) ≡ x + 2 ^ (t.bits - 1) - 2 ^ (t.bits - 1) [ZMOD 2 ^ t.bits] :=
      (Int.mod_modEq _ _).sub_right _
    rwa [add_sub_cancel_right] at h
  · exact Int.mod_modEq _ _

theorem wrap_fits {t : IntType} (hb : 0 < t.bits) (x : Int) : Fits t (t.wrap x) := by
  unfold Fits IntType.wrap
  have hp : (0 : Int) < 2 ^ t.bits := pow_pos (by decide) _
  have h2 : (2 : Int) ^ t.bits = 2 * 2 ^ (t.bits - 1) := by
    obtain ⟨k, hk⟩ : ∃ k, t.bits = k + 1 := ⟨t.bits - 1, by omega⟩
    rw [hk, Nat.add_sub_cancel, pow_succ]; ring
  split
  · have h0 := Int.emod_nonneg (x + 2 ^ (t.bits - 1)) hp.ne'
    have h1 := Int.emod_lt_of_pos (x + 2 ^ (t.bits - 1)) hp
    omega
  · exact ⟨Int.emod_nonneg _ hp.ne', Int.emod_lt_of_pos _ hp⟩

theorem wrap_held {t : IntType} (hb : 0 < t.bits) (x : Int) : HeldAs t x (t.wrap x) := ⟨wrap_fits hb x, wrap_modEq t x⟩

theorem fits_unique {t : IntType} (hb : 0 < t.bits) {r r' : Int} (h : Fits t r) (h' : Fits t r') (e : r ≡ r' [ZMOD 2 ^ t.bits]) : r = r' := by
  have h2 : (2 : Int) ^ t.bits = 2 * 2 ^ (t.bits - 1) := by
    obtain ⟨k, hk⟩ : ∃ k, t.bits = k + 1 := ⟨t.bits - 1, by omega⟩
    rw [hk, Nat.add_sub_cancel, pow_succ]; ring
  have hp : (0 : Int) < 2 ^ t.bits := pow_pos (by decide) _
  obtain ⟨k, hk⟩ := e.dvd
  have hlt : r' - r < 2 ^ t.bits ∧ -2 ^ t.bits < r' - r := by
    unfold Fits at h h'
    cases ht : t.signed
    · simp only [ht] at h h'; simp at h h'; omega
    · simp only [ht] at h h'; simp at h h'; omega
  rw [hk] at hlt
  have h1 : k < 1 := by
    by_contra hc
    have : (2 : Int) ^ t.bits * 1 ≤ 2 ^ t.bits * k := mul_le_mul_of_nonneg_left (by omega) hp.le
    omega
  have h3 : -1 < k := by
    by_contra hc
    have : (2 : Int) ^ t.bits * k ≤ 2 ^ t.bits * (-1) := mul_le_mul_of_nonneg_left (by omega) hp.le
    omega
  have : k = 0 := by omega
  rw [this] at hk
  omega

theorem wrap_congr {t : IntType} (hb : 0 < t.bits) {x y : Int} (e : x ≡ y [ZMOD 2 ^ t.bits]) : t.wrap x = t.wrap y :=
  fits_unique hb (wrap_fits hb x) (wrap_fits hb y) ((wrap_modEq t x).trans (e.trans (wrap_modEq t y).symm))

theorem wrap_eq_self_iff {t : IntType} (hb : 0 < t.bits) (x : Int) : t.wrap x = x ↔ Fits t x :=
  ⟨fun h => h ▸ wrap_fits hb x, fun h => fits_unique hb (wrap_fits hb x) h (wrap_modEq t x)⟩

theorem wide_modEq {t : IntType} (h64 : t.bits ≤ 64) (x : Int) : t.wide.wrap x ≡ x [ZMOD 2 ^ t.bits] :=
  (wrap_modEq t.wide x).of_dvd (pow_dvd_pow 2 h64)

theorem npSum_modEq {t : IntType} (h64 : t.bits ≤ 64) (col : List Int) : t.npSum col ≡ col.sum [ZMOD 2 ^ t.bits] := by
  suffices h : ∀ s, col.foldl (fun s x => t.wide.wrap (s + x)) s ≡ s + col.sum [ZMOD 2 ^ t.bits] by
    have := h 0
    rwa [zero_add] at this
  induction col with
  | nil => intro s; simp
  | cons x col ih =>
    intro s
    rw [List.foldl_cons, List.sum_cons]
    refine (ih _).trans ?_
    rw [← add_assoc]
    exact (wide_modEq h64 _).add_right _

theorem addInto_eq {t : IntType} (hb : 0 < t.bits) (h64 : t.bits ≤ 64) {s x y z : Int} (hs : s ≡ x [ZMOD 2 ^ t.bits]) (hy : y ≡ z [ZMOD 2 ^ t.bits]) :
    t.addInto s y = t.wrap (x + z) :=
  wrap_congr hb ((wide_modEq h64 _).trans (hs.add hy))

theorem intTotal {t : IntType} (hb : 0 < t.bits) (h64 : t.bits ≤ 64) (chunks : List (List Int)) (x : Int) :
    chunks.foldl (fun s col => t.addInto s (t.npSum col)) (t.wrap x) = t.wrap (x + chunks.flatten.sum) := by
  induction chunks generalizing x with
  | nil => simp
  | cons c chunks ih =>
    rw [List.foldl_cons, addInto_eq hb h64 (wrap_modEq t x) (npSum_modEq h64 c), ih]
    simp [add_assoc]

theorem wrap_zero {t : IntType} (hb : 0 < t.bits) : t.wrap 0 = 0 := by
  rw [wrap_eq_self_iff hb]
  unfold Fits
  split <;> constructor <;> first | positivity | simp

/-! ### Sum and mean -/

theorem intSumH_run {t : IntType} (hb : 0 < t.bits) (h64 : t.bits ≤ 64) (n : Nat) (chunks : List (List ℚ)) :
    (intSumH t).run n chunks = (t.wrap (chunks.flatten.map Rat.num).sum : ℚ) := by
  have := intTotal hb h64 (chunks.map (fun c => c.map Rat.num)) 0
  rw [List.foldl_map, wrap_zero hb, zero_add] at this
  rw [List.map_flatten]
  simp only [Handler.run, intSumH]
  rw [this]

theorem intMeanH_run {t : IntType} (hb : 0 < t.bits) (h64 : t.bits ≤ 64) (n : Nat) (chunks : List (List ℚ)) :
    (intMeanH t).run n chunks = (t.wrap (chunks.flatten.map Rat.num).sum : ℚ) / n := by
  have := intTotal hb h64 (chunks.map (fun c => c.map Rat.num)) 0
  rw [List.foldl_map, wrap_zero hb, zero_add] at this
  rw [List.map_flatten]
  simp only [Handler.run, intMeanH]
  rw [this]

theorem ints_num (col : List Int) : (col.map (fun z : Int => (z : ℚ))).map Rat.num = col := by
  rw [List.map_map]
  conv_rhs => rw [← List.map_id col]
  exact List.map_congr_left (fun z _ => Rat.num_intCast z)

theorem ints_sum (col : List Int) : (col.map (fun z : Int => (z : ℚ))).sum = (col.sum : ℚ) := by
  induction col with
  | nil => simp
  | cons x col ih => simp [ih]

/-- C67.  The sum of a column of integers of any dtype of at most 64 bits, cut into chunks in any way: the value the dtype holds in place of the exact sum.  So it does not
depend on the chunking, and it is the exact sum if and only if that is a value of the dtype. -/
theorem C67_sum (t : IntType) (hb : 0 < t.bits) (h64 : t.bits ≤ 64) (col : List Int) (chunks : List (List ℚ)) (h : CutOf (col.map (fun z : Int => (z : ℚ))) chunks) (n : Nat) :
    (∃ r : Int, (intSumH t).run n chunks = r ∧ HeldAs t col.sum r) ∧ ((intSumH t).run n chunks = col.sum ↔ Fits t col.sum) := by
  rw [intSumH_run hb h64, show chunks.flatten = _ from h, ints_num]
  refine ⟨⟨_, rfl, wrap_held hb _⟩, ?_⟩
  rw [← wrap_eq_self_iff hb]
  exact Int.cast_inj

/-- C67.  The mean of a column of integers, cut into chunks in any way: right if and only if the exact sum is a value of the dtype *of the data*. -/
theorem C67_mean (t : IntType) (hb : 0 < t.bits) (h64 : t.bits ≤ 64) (col : List Int) (hne : col ≠ []) (chunks : List (List ℚ))
    (h : CutOf (col.map (fun z : Int => (z : ℚ))) chunks) :
    (∃ r : Int, (intMeanH t).run col.length chunks = (r : ℚ) / col.length ∧ HeldAs t col.sum r) ∧
    ((intMeanH t).run col.length chunks = mean (col.map (fun z : Int => (z : ℚ))) ↔ Fits t col.sum) := by
  rw [intMeanH_run hb h64, show chunks.flatten = _ from h, ints_num]
  refine ⟨⟨_, rfl, wrap_held hb _⟩, ?_⟩
  rw [← wrap_eq_self_iff hb]
  have hl : ((col.length : Nat) : ℚ) ≠ 0 := by
    rw [Nat.cast_ne_zero, Ne, List.length_eq_zero_iff]; exact hne
  unfold mean
  rw [ints_sum, List.length_map, div_left_inj' hl, Int.cast_inj]

/-- The two conditions of C67 met: `int8` data with sum 127, in two chunks. -/
example : CutOf ([100, -50, 77].map (fun z : Int => (z : ℚ))) [[100], [-50, 77]] ∧ Fits ⟨true, 8⟩ [100, -50, 77].sum := by
  refine ⟨rfl, ?_⟩
  simp [Fits]

/-- C67 fails of the code beyond: the mean of the `int8` values 100 and 100 is -28, and their sum -56. -/
theorem C67_mean_overflows : (intMeanH ⟨true, 8⟩).run 2 [[100], [100]] = -28 ∧ (intSumH ⟨true, 8⟩).run 2 [[100], [100]] = -56 ∧
    mean [(100 : ℚ), 100] = 100 := by
  refine ⟨by decide +kernel, by decide +kernel, ?_⟩
  norm_num [mean]

/-! ### Masked data -/

theorem fits_of_le {t : IntType} {x y : Int} (h : Fits t y) (h0 : 0 ≤ x) (hxy : x ≤ y) : Fits t x := by
  unfold Fits at h ⊢
  split
  · rename_i ht
    rw [if_pos ht] at h
    have : (0 : Int) < 2 ^ (t.bits - 1) := pow_pos (by decide) _
    omega
  · rename_i ht
    rw [if_neg ht] at h
    omega

theorem intMeanMH_state {t : IntType} (hb : 0 < t.bits) (h64 : t.bits ≤ 64) (chunks : List (List (Option ℚ))) (x y z : Int) :
    chunks.foldl (intMeanMStep t) ⟨t.wrap x, t.wrap y, t.wrap z⟩ =
      ⟨t.wrap (x + (valid chunks.flatten).length), t.wrap (y + chunks.flatten.countP Option.isNone), t.wrap (z + ((valid chunks.flatten).map Rat.num).sum)⟩ := by
  induction chunks generalizing x y z with
  | nil => simp [valid]
  | cons c chunks ih =>
    have hstep : intMeanMStep t ⟨t.wrap x, t.wrap y, t.wrap z⟩ c =
        ⟨t.wrap (x + (valid c).length), t.wrap (y + c.countP Option.isNone), t.wrap (z + ((valid c).map Rat.num).sum)⟩ := by
      unfold intMeanMStep
      rw [addInto_eq hb h64 (wrap_modEq t x) (Int.ModEq.refl _), addInto_eq hb h64 (wrap_modEq t y) (Int.ModEq.refl _),
        addInto_eq hb h64 (wrap_modEq t z) (npSum_modEq h64 _)]
      rfl
    rw [List.foldl_cons, hstep, ih]
    simp [valid_append, add_assoc]

theorem intMeanMH_run {t : IntType} (hb : 0 < t.bits) (h64 : t.bits ≤ 64) (mdtol : ℚ) (n : Nat) (chunks : List (List (Option ℚ))) :
    (intMeanMH t mdtol).run n chunks = intMeanMFin t mdtol
      ⟨t.wrap (valid chunks.flatten).length, t.wrap (chunks.flatten.countP Option.isNone), t.wrap ((valid chunks.flatten).map Rat.num).sum⟩ := by
  have := intMeanMH_state hb h64 chunks 0 0 0
  simp only [wrap_zero hb, zero_add] at this
  simp only [Handler.run, intMeanMH]
  rw [this]

theorem countP_valid {α : Type} (l : List (Option α)) : l.countP Option.isNone + (valid l).length = l.length := by
  induction l with
  | nil => rfl
  | cons v l ih => cases v <;> simp_all [valid] <;> omega

/-- C67.  The mean of a column of masked integers (default `mdtol = 1`), cut in any way: exactly what is computed.  Both the total and the number of unmasked
elements are kept in the dtype of the data. -/
theorem C67_masked_mean_exact (t : IntType) (hb : 0 < t.bits) (h64 : t.bits ≤ 64) (col : List (Option ℚ)) (chunks : List (List (Option ℚ)))
    (h : CutOf col chunks) (n : Nat) :
    ∃ c s : Int, HeldAs t (valid col).length c ∧ HeldAs t ((valid col).map Rat.num).sum s ∧
      (intMeanMH t 1).run n chunks = if c = 0 then none else some ((s : ℚ) / c) := by
  refine ⟨_, _, wrap_held hb _, wrap_held hb _, ?_⟩
  rw [intMeanMH_run hb h64, show chunks.flatten = _ from h]
  unfold intMeanMFin
  rw [if_neg (by rintro ⟨h, _⟩; exact absurd h (by norm_num))]

/-- C67.  The mean of a column of masked integers is right for every `mdtol` and every chunking if the length of the column and the sum of its unmasked elements are values of the dtype of the
data. -/
theorem C67_masked_mean (t : IntType) (hb : 0 < t.bits) (h64 : t.bits ≤ 64) (mdtol : ℚ) (col : List (Option ℤ)) (chunks : List (List (Option ℚ)))
    (h : CutOf (col.map (Option.map (fun z : Int => (z : ℚ)))) chunks) (n : Nat) (hl : Fits t col.length) (hs : Fits t (valid col).sum) :
    (intMeanMH t mdtol).run n chunks = (if valid col = [] ∨ (mdtol < 1 ∧ mdtol < ((col.length - (valid col).length : Nat) : ℚ) / (col.length : ℚ)) then none
      else some (mean ((valid col).map (fun z : Int => (z : ℚ))))) := by
  have hv : ∀ l : List (Option ℤ), valid (l.map (Option.map (fun z : Int => (z : ℚ)))) = (valid l).map (fun z : Int => (z : ℚ)) := by
    intro l
    induction l with
    | nil => rfl
    | cons v l ih => cases v <;> simp_all [valid]
  have hn : ∀ l : List (Option ℤ), (l.map (Option.map (fun z : Int => (z : ℚ)))).countP Option.isNone = l.countP Option.isNone := by
    intro l
    induction l with
    | nil => rfl
    | cons v l ih => cases v <;> simp_all
  have hc := countP_valid col
  rw [intMeanMH_run hb h64, show chunks.flatten = _ from h, hv, hn, ints_num, List.length_map]
  have e1 : t.wrap ((valid col).length : Int) = (valid col).length := (wrap_eq_self_iff hb _).mpr (fits_of_le hl (by omega) (by omega))
  have e2 : t.wrap (col.countP Option.isNone : Int) = col.countP Option.isNone := (wrap_eq_self_iff hb _).mpr (fits_of_le hl (by omega) (by omega))
  have e3 : t.wrap (valid col).sum = (valid col).sum := (wrap_eq_self_iff hb _).mpr hs
  have e4 : t.wrap ((col.countP Option.isNone : Int) + ((valid col).length : Int)) = (col.length : Int) := by
    rw [show ((col.countP Option.isNone : Int) + ((valid col).length : Int)) = (col.length : Int) by omega]
    exact (wrap_eq_self_iff hb _).mpr hl
  rw [e1, e2, e3]
  unfold intMeanMFin
  simp only [e4]
  by_cases hne : valid col = []
  · simp [hne]
  · have hpos : 0 < (valid col).length := List.length_pos_iff.mpr hne
    have hlen : ((col.length : Nat) : Int) ≠ 0 := by omega
    have hvl : (((valid col).length : Nat) : Int) ≠ 0 := by omega
    have hcn : col.countP Option.isNone = col.length - (valid col).length := by omega
    simp only [if_neg hlen, if_neg hvl, hcn, hne, false_or, mean, ints_sum, List.length_map, Int.cast_natCast]

example : CutOf ([some 100, none, some 27].map (Option.map (fun z : Int => (z : ℚ)))) [[some 100], [none, some 27]] ∧
    Fits ⟨true, 8⟩ ([some 100, none, some 27] : List (Option ℤ)).length ∧ Fits ⟨true, 8⟩ (valid [some 100, none, some 27]).sum := by
  refine ⟨rfl, ?_, ?_⟩ <;> simp [Fits, valid]

/-- C67 fails of the code beyond: 256 unmasked `int8` values give a masked mean, because their number wraps to 0. -/
theorem C67_masked_mean_overflows : (intMeanMH ⟨true, 8⟩ 1).run 256 [List.replicate 256 (some 1)] = none ∧
    valid (List.replicate 256 (some (1 : ℚ))) ≠ [] := by
  constructor
  · rw [intMeanMH_run (by decide) (by decide)]
    decide +kernel
  · decide +kernel

/-- C67 fails of the code: the masked mean of unsigned integers raises `TypeError`. -/
theorem C67_unsigned_masked_mean_raises (bits : Nat) : IntType.meanMaskedAccepts ⟨false, bits⟩ = .error .type := rfl

/-- The sum of a column of masked integers. -/
theorem C67_masked_sum (t : IntType) (hb : 0 < t.bits) (h64 : t.bits ≤ 64) (col : List (Option ℚ)) (chunks : List (List (Option ℚ))) (h : CutOf col chunks) (n : Nat) :
    (valid col = [] → (intSumMH t).run n chunks = none) ∧
    (valid col ≠ [] → ∃ r : Int, (intSumMH t).run n chunks = some (r : ℚ) ∧ HeldAs t ((valid col).map Rat.num).sum r) := by
  have hget : ∀ l : List (Option ℚ), (l.map (fun x => (x.getD 0).num)).sum = ((valid l).map Rat.num).sum := by
    intro l
    induction l with
    | nil => rfl
    | cons v l ih => cases v <;> simp_all [valid]
  have hst : ∀ (L : List (List (Option ℚ))) (b : Bool) (x : Int),
      L.foldl (fun (s : Bool × Int) col => (s.1 && col.all Option.isNone, t.addInto s.2 (t.npSum (col.map (fun x => (x.getD 0).num))))) (b, t.wrap x) = (b && L.flatten.all Option.isNone, t.wrap (x + ((valid L.flatten).map Rat.num).sum)) := by
    intro L
    induction L with
    | nil => intro b x; simp [valid]
    | cons c L ih =>
      intro b x
      rw [List.foldl_cons, addInto_eq hb h64 (wrap_modEq t x) (npSum_modEq h64 _), hget, ih]
      simp [valid_append, add_assoc, Bool.and_assoc]
  have hrun : (intSumMH t).run n chunks = if valid col = [] then none else some ((t.wrap ((valid col).map Rat.num).sum : Int) : ℚ) := by
    have := hst chunks true 0
    rw [wrap_zero hb, show chunks.flatten = _ from h, zero_add, Bool.true_and] at this
    simp only [Handler.run, intSumMH]
    rw [this]
    by_cases hv : valid col = []
    · rw [if_pos hv, if_pos ((all_isNone_iff col).mpr hv)]
    · rw [if_neg hv, if_neg (fun hh => hv ((all_isNone_iff col).mp hh))]
  rw [hrun]
  exact ⟨fun hv => if_pos hv, fun hv => ⟨_, by rw [if_neg hv], wrap_held hb _⟩⟩

/-! ### Arrays -/

/-- C67 for arrays.  `sum` and `mean` over an axis of any expression of the grammar that evaluates to an array of integers, through chunks of any size: every element is the value the dtype holds in place of the exact sum
(divided by the length for `mean`). -/
theorem C67_arrays (t : IntType) (hb : 0 < t.bits) (h64 : t.bits ≤ 64) (cast : Nat → ℚ → ℚ) (limit : Nat) (fwd : Bool) (a : Arr ℚ) (x : NDA ℚ) (axis : Nat)
    (ha : a.Built (intMode t cast) limit fwd false .sliced) (hx : a.Yields (intMode t cast) limit x) (hax : axis < x.shape.length) (hne : x.shape.getD axis 0 ≠ 0) :
    (∃ r, (Arr.agg a axis .sum).Yields (intMode t cast) limit r ∧ (Arr.agg a axis .sum).EngineReturns (intMode t cast) limit r ∧
      AggregateOf (fun (col : List ℚ) (v : ℚ) => ∃ z : Int, v = (z : ℚ) ∧ HeldAs t (col.map Rat.num).sum z) x axis r) ∧
    (∀ mdtol, ∃ r, (Arr.agg a axis (.mean mdtol)).Yields (intMode t cast) limit r ∧ (Arr.agg a axis (.mean mdtol)).EngineReturns (intMode t cast) limit r ∧
      AggregateOf (fun col v => ∃ z : Int, v = (z : ℚ) / col.length ∧ HeldAs t (col.map Rat.num).sum z) x axis r) := by
  refine ⟨aggregation_array _ fwd a x axis .sum ha hx hax hne (Or.inl ?_) ?_, fun mdtol => aggregation_array _ fwd a x axis (.mean mdtol) ha hx hax hne (Or.inl ?_) ?_⟩
  · exact lawful_of_spec (fun _ col => (t.wrap (col.map Rat.num).sum : ℚ)) (fun n chunks _ _ => intSumH_run hb h64 n chunks)
  · intro col _
    refine ⟨t.wrap (col.map Rat.num).sum, ?_, wrap_held hb _⟩
    have := intSumH_run hb h64 col.length [col]
    rw [List.flatten_singleton] at this
    exact this
  · exact lawful_of_spec (fun n col => (t.wrap (col.map Rat.num).sum : ℚ) / n) (fun n chunks _ _ => intMeanH_run hb h64 n chunks)
  · intro col _
    refine ⟨t.wrap (col.map Rat.num).sum, ?_, wrap_held hb _⟩
    have := intMeanH_run hb h64 col.length [col]
    rw [List.flatten_singleton] at this
    exact this

/-- The 2 x 3 x 4 array of 0 ... 23 as `int8`, summed and averaged over the middle axis in chunks of at most 5 elements; then 23 + 19 ... overflow as 5 bit integers. -/
example : Res.view ((Arr.agg (.adapter false exSource []) 1 .sum).eval (intMode ⟨true, 8⟩ (fun _ x => x)) 5 2) = .ok ([2, 4], [12, 15, 18, 21, 48, 51, 54, 57]) ∧
    Res.view ((Arr.agg (.adapter false exSource []) 1 .sum).eval (intMode ⟨true, 5⟩ (fun _ x => x)) 5 2) = .ok ([2, 4], [12, 15, -14, -11, -16, -13, -10, -7]) ∧
    (Arr.adapter false exSource []).Built (intMode ⟨true, 8⟩ (fun _ x => x)) 5 true false .sliced :=
  ⟨by decide +kernel, by decide +kernel, exSource_built _ (fun _ _ => rfl) _ _⟩

/-- C67 for masked arrays of signed integers, of two or more dimensions (one-dimensional arrays with a chunk without unmasked elements raise: `C69_masked_exact`): `mean`, with any `mdtol`, is right where the length
of the axis and the sum of the unmasked elements are values of the dtype. -/
theorem C67_masked_arrays (t : IntType) (hb : 0 < t.bits) (h64 : t.bits ≤ 64) (cast : Nat → ℚ → ℚ) (limit : Nat) (fwd : Bool) (a : Arr ℚ) (x : NDA (Option ℚ)) (axis : Nat) (mdtol : ℚ)
    (ha : a.Built (intMaskedMode t cast) limit fwd false .sliced) (hx : a.Yields (intMaskedMode t cast) limit x) (hax : axis < x.shape.length)
    (hne : x.shape.getD axis 0 ≠ 0) (_hdim : 2 ≤ x.shape.length) :
    ∃ r, (Arr.agg a axis (.mean mdtol)).Yields (intMaskedMode t cast) limit r ∧ (Arr.agg a axis (.mean mdtol)).EngineReturns (intMaskedMode t cast) limit r ∧
      AggregateOf (fun col v => ∀ zs : List (Option ℤ), col = zs.map (Option.map (fun z : Int => (z : ℚ))) → Fits t zs.length → Fits t (valid zs).sum →
        IsAggMasked _root_.id (.mean mdtol) col v) x axis r := by
  refine aggregation_array _ fwd a x axis (.mean mdtol) ha hx hax hne (Or.inl ?_) ?_
  · exact lawful_of_spec (fun _ col => intMeanMFin t mdtol ⟨t.wrap (valid col).length, t.wrap (col.countP Option.isNone), t.wrap ((valid col).map Rat.num).sum⟩)
      (fun n chunks _ _ => intMeanMH_run hb h64 mdtol n chunks)
  · rintro col _ zs rfl hl hs
    have := C67_masked_mean t hb h64 mdtol zs [zs.map (Option.map (fun z : Int => (z : ℚ)))] (by simp [CutOf]) (zs.map (Option.map (fun z : Int => (z : ℚ)))).length hl hs
    show (intMeanMH t mdtol).run _ _ = _
    rw [this]
    have hv : ∀ l : List (Option ℤ), valid (l.map (Option.map (fun z : Int => (z : ℚ)))) = (valid l).map (fun z : Int => (z : ℚ)) := by
      intro l
      induction l with
      | nil => rfl
      | cons v l ih => cases v <;> simp_all [valid]
    rw [hv]
    simp

/-! ### Counts (C68) -/

theorem intCountH_run (n : Nat) (chunks : List (List ℚ)) : intCountH.run n chunks = (int32.wrap chunks.flatten.length : ℚ) := by
  have h : ∀ (L : List (List ℚ)) (s : Nat), L.foldl (fun s col => s + col.length) s = s + L.flatten.length := by
    intro L
    induction L with
    | nil => simp
    | cons c L ih => intro s; simp only [List.foldl_cons, ih, List.flatten_cons, List.length_append]; omega
  simp only [Handler.run, intCountH]
  rw [h, Nat.zero_add]

theorem intCountMH_run (n : Nat) (chunks : List (List (Option ℚ))) :
    intCountMH.run n chunks = some (int32.wrap (valid chunks.flatten).length : ℚ) := by
  have h : ∀ (L : List (List (Option ℚ))) (x : Int),
      L.foldl (fun s col => int32.addInto s (unmasked col).length) (int32.wrap x) = int32.wrap (x + (valid L.flatten).length) := by
    intro L
    induction L with
    | nil => intro x; simp [valid]
    | cons c L ih =>
      intro x
      rw [List.foldl_cons, addInto_eq (by decide) (by decide) (wrap_modEq int32 x) (Int.ModEq.refl _), ih]
      have : (unmasked c).length = (valid c).length := rfl
      rw [this, List.flatten_cons, valid_append, List.length_append]
      push_cast
      rw [add_assoc]
  have := h chunks 0
  rw [wrap_zero (by decide), zero_add] at this
  simp only [Handler.run, intCountMH]
  rw [this]

theorem int32_fits_iff (n : Nat) : Fits int32 n ↔ n < 2 ^ 31 := by
  simp only [Fits, int32, if_true]
  constructor
  · rintro ⟨_, h⟩
    exact_mod_cast h
  · intro h
    refine ⟨?_, by exact_mod_cast h⟩
    omega

/-- C68.  `count` of a column, cut into chunks in any way: the value `int32` holds in place of the number of elements.  So it does not depend on the chunking, and is right if and only if there are fewer than `2 ^ 31` elements. -/
theorem C68_count (col : List ℚ) (chunks : List (List ℚ)) (h : CutOf col chunks) (n : Nat) :
    (∃ r : Int, intCountH.run n chunks = r ∧ HeldAs ⟨true, 32⟩ col.length r) ∧ (intCountH.run n chunks = col.length ↔ col.length < 2 ^ 31) := by
  rw [intCountH_run, show chunks.flatten = _ from h]
  refine ⟨⟨_, rfl, wrap_held (by decide) _⟩, ?_⟩
  rw [← int32_fits_iff, ← wrap_eq_self_iff (by decide)]
  exact_mod_cast Int.cast_inj (α := ℚ)

/-- C68.  `count` of a masked column: the same for the number of unmasked elements; the result is never masked. -/
theorem C68_masked_count (col : List (Option ℚ)) (chunks : List (List (Option ℚ))) (h : CutOf col chunks) (n : Nat) :
    (∃ r : Int, intCountMH.run n chunks = some (r : ℚ) ∧ HeldAs ⟨true, 32⟩ (valid col).length r) ∧
    (intCountMH.run n chunks = some ((valid col).length : ℚ) ↔ (valid col).length < 2 ^ 31) := by
  rw [intCountMH_run, show chunks.flatten = _ from h]
  refine ⟨⟨_, rfl, wrap_held (by decide) _⟩, ?_⟩
  rw [← int32_fits_iff, ← wrap_eq_self_iff (by decide), Option.some.injEq]
  exact_mod_cast Int.cast_inj (α := ℚ)

example : CutOf [(7 : ℚ), 8, 9] [[7], [8, 9]] ∧ intCountH.run 3 [[7], [8, 9]] = 3 ∧
    CutOf [some (7 : ℚ), none, some 9] [[some 7], [none, some 9]] ∧ intCountMH.run 3 [[some 7], [none, some 9]] = some 2 :=
  ⟨rfl, by decide +kernel, rfl, by decide +kernel⟩

/-- C68 fails of the code beyond: `2 ^ 31` elements, all of them unmasked, are counted as `-2 ^ 31`. -/
theorem C68_count_overflows (x : ℚ) : intCountH.run (2 ^ 31) [List.replicate (2 ^ 31) x] = -2 ^ 31 ∧
    intCountMH.run (2 ^ 31) [List.replicate (2 ^ 31) (some x)] = some (-2 ^ 31) := by
  have hw : int32.wrap ((2 ^ 31 : Nat) : Int) = -2 ^ 31 := by decide +kernel
  have hv : ∀ n, (valid (List.replicate n (some x))).length = n := by
    intro n
    induction n with
    | zero => rfl
    | succ n ih => simp [List.replicate_succ, valid] at ih ⊢
  constructor
  · rw [intCountH_run, List.flatten_singleton, List.length_replicate, hw]
    norm_cast
  · rw [intCountMH_run, List.flatten_singleton, hv, hw]
    norm_cast

/-- C68 for arrays.  `count` over an axis of any expression of the grammar, through chunks of any size, gives the length of the axis if that is less than `2 ^ 31`. -/
theorem C68_arrays (cast : Nat → ℚ → ℚ) (limit : Nat) (fwd : Bool) (a : Arr ℚ) (x : NDA ℚ) (axis : Nat)
    (ha : a.Built (countMode cast) limit fwd false .sliced) (hx : a.Yields (countMode cast) limit x) (hax : axis < x.shape.length) (hne : x.shape.getD axis 0 ≠ 0) :
    ∃ r, (Arr.agg a axis .count).Yields (countMode cast) limit r ∧ (Arr.agg a axis .count).EngineReturns (countMode cast) limit r ∧
      AggregateOf (fun (col : List ℚ) (v : ℚ) => (∃ z : Int, v = z ∧ HeldAs ⟨true, 32⟩ col.length z) ∧ (v = col.length ↔ col.length < 2 ^ 31)) x axis r := by
  refine aggregation_array _ fwd a x axis .count ha hx hax hne (Or.inl ?_) ?_
  · exact lawful_of_spec (fun _ col => (int32.wrap col.length : ℚ)) (fun n chunks _ _ => intCountH_run n chunks)
  · intro col _
    exact C68_count col [col] (by simp [CutOf]) col.length

/-- C68 for masked arrays. -/
theorem C68_masked_arrays (cast : Nat → ℚ → ℚ) (limit : Nat) (fwd : Bool) (a : Arr ℚ) (x : NDA (Option ℚ)) (axis : Nat)
    (ha : a.Built (countMaskedMode cast) limit fwd false .sliced) (hx : a.Yields (countMaskedMode cast) limit x) (hax : axis < x.shape.length) (hne : x.shape.getD axis 0 ≠ 0) :
    ∃ r, (Arr.agg a axis .count).Yields (countMaskedMode cast) limit r ∧ (Arr.agg a axis .count).EngineReturns (countMaskedMode cast) limit r ∧
      AggregateOf (fun (col : List (Option ℚ)) (v : Option ℚ) =>
        (∃ z : Int, v = some (z : ℚ) ∧ HeldAs ⟨true, 32⟩ (valid col).length z) ∧ (v = some ((valid col).length : ℚ) ↔ (valid col).length < 2 ^ 31)) x axis r := by
  refine aggregation_array _ fwd a x axis .count ha hx hax hne (Or.inl ?_) ?_
  · exact lawful_of_spec (fun _ col => some (int32.wrap (valid col).length : ℚ)) (fun n chunks _ _ => intCountMH_run n chunks)
  · intro col _
    exact C68_masked_count col [col] (by simp [CutOf]) col.length

/-- The 2 x 3 x 4 source counted over its middle axis, in chunks of at most 5 elements. -/
example : Res.view ((Arr.agg (.adapter false exSource []) 1 .count).eval (countMode (fun _ x => x)) 5 2) = .ok ([2, 4], [3, 3, 3, 3, 3, 3, 3, 3]) ∧
    (Arr.adapter false exSource []).Built (countMode (fun _ x => x)) 5 true false .sliced :=
  ⟨by decide +kernel, exSource_built _ (fun _ _ => rfl) _ _⟩

end Biggus

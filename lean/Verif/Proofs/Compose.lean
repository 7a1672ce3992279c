import Verif.Proofs.Returns
/-
Evaluation is compositional: what a container evaluates to is determined by what its parts evaluate to, whatever those
are (no well-formedness of the parts is needed).
-/
namespace Biggus

variable {α V : Type} [Inhabited α] [Inhabited V] {m : Mode α V} {limit : Nat}

theorem eval_with (m : Mode α V) (limit n : Nat) : ∃ eng, ∀ a : Arr α, a.eval m limit n = a.evalWith m eng := by
  cases n with
  | zero => exact ⟨_, fun a => rfl⟩
  | succ n => exact ⟨_, fun a => rfl⟩

theorem Arr.Yields.of_den {a : Arr α} (hwf : a.WF) (hok : a.Ok m limit .whole) : a.Yields m limit (a.den m) :=
  ⟨hwf.shape_eq m, returns_den hwf hok⟩

theorem Arr.Yields.congr {a : Arr α} {r r' : NDA V} (h : a.Yields m limit r) (e : r ≈ₐ r') : a.Yields m limit r' :=
  ⟨by rw [h.1, e.1], h.2.congr e⟩

theorem Arr.Yields.unique {a : Arr α} {r r' : NDA V} (h : a.Yields m limit r) (h' : a.Yields m limit r') : r ≈ₐ r' :=
  h.2.unique h'.2

theorem yields_const (s : List Nat) (v : α) (dt : Nat) : (Arr.const s v dt).Yields m limit ⟨s, fun _ => m.const v⟩ := by
  refine ⟨rfl, 0, fun n _ => ?_⟩
  obtain ⟨eng, he⟩ := eval_with m limit n
  exact ⟨_, by rw [he]; rfl, NDA.Eqv.refl _⟩

theorem yields_newAxes {a : Arr α} {x : NDA V} {na : List Nat} (h : a.Yields m limit x) (hl : na.length = x.shape.length + 1) :
    (Arr.newAxes a na).Yields m limit (x.insertAxes na) := by
  obtain ⟨hs, N, hN⟩ := h
  refine ⟨?_, N, fun n hn => ?_⟩
  · unfold Arr.shape; rw [hs]
    simp only [bind, Except.bind, pure, Except.pure, naInsert_one na x.shape hl]; rfl
  · obtain ⟨eng, he⟩ := eval_with m limit n
    obtain ⟨r, hr, hrx⟩ := hN n hn
    obtain ⟨r', k1, k2⟩ := newAxes_eval hrx hl
    refine ⟨r', ?_, k2⟩
    rw [he] at hr ⊢
    unfold Arr.evalWith
    rw [hs, hr]; exact k1

theorem yields_bcast {a : Arr α} {x : NDA V} {d : List (Nat × Nat)} {lead : List Nat} (h : a.Yields m limit x)
    (hn : (d.map Prod.fst).Nodup) (h1 : ∀ p ∈ d, x.shape[p.1]? = some 1) :
    (Arr.bcast a d lead).Yields m limit (x.stretch d lead) := by
  obtain ⟨hs, N, hN⟩ := h
  refine ⟨?_, N, fun n hn' => ?_⟩
  · unfold Arr.shape; rw [hs]
    simp only [bind, Except.bind, pure, Except.pure, shapeFromDict_ok d x.shape hn h1]; rfl
  · obtain ⟨eng, he⟩ := eval_with m limit n
    obtain ⟨r, hr, hrx⟩ := hN n hn'
    obtain ⟨r', k1, k2⟩ := bcast_eval (lead := lead) hrx hn h1
    refine ⟨r', ?_, k2⟩
    rw [he] at hr ⊢
    unfold Arr.evalWith
    rw [hr]; exact k1

theorem yields_transposed {a : Arr α} {x : NDA V} {axes : List Nat} (h : a.Yields m limit x)
    (hp : axes.Perm (List.range x.shape.length)) : (Arr.transposed a axes).Yields m limit (x.permute axes) := by
  obtain ⟨hs, N, hN⟩ := h
  refine ⟨?_, N, fun n hn' => ?_⟩
  · unfold Arr.shape; rw [hs]
    simp only [bind, Except.bind]
    rw [axesForward_ok axes x.shape 0 hp]; rfl
  · obtain ⟨eng, he⟩ := eval_with m limit n
    obtain ⟨r, hr, hrx⟩ := hN n hn'
    obtain ⟨r', k1, k2⟩ := transposed_eval hrx hp
    refine ⟨r', ?_, k2⟩
    rw [he] at hr ⊢
    unfold Arr.evalWith
    rw [hr]; exact k1

/-- A bound that serves finitely many statements. -/
theorem common_bound {ι : Type} (l : List ι) (P : ι → Nat → Prop) (h : ∀ i ∈ l, ∃ N, ∀ n, N ≤ n → P i n) :
    ∃ N, ∀ n, N ≤ n → ∀ i ∈ l, P i n := by
  induction l with
  | nil => exact ⟨0, by simp⟩
  | cons x l ih =>
    obtain ⟨N, hN⟩ := h x List.mem_cons_self
    obtain ⟨N', hN'⟩ := ih (fun i hi => h i (List.mem_cons_of_mem _ hi))
    refine ⟨max N N', fun n hn i hi => ?_⟩
    rcases List.mem_cons.mp hi with rfl | hi
    · exact hN n (le_trans (le_max_left _ _) hn)
    · exact hN' n (le_trans (le_max_right _ _) hn) i hi

theorem yields_stack {ss s : List Nat} {items : List Nat → Arr α} {x : List Nat → NDA V} (h0 : ss.prod ≠ 0)
    (h : ∀ i, InB ss i → (items i).Yields m limit (x i) ∧ (x i).shape = s) :
    (Arr.stack ss items).Yields m limit (NDA.stacked ss x) := by
  have hz := inB_zeros ss h0
  have hsh : (Arr.stack ss items).shape = .ok (ss ++ s) := by
    unfold Arr.shape
    rw [(h _ hz).1.1, (h _ hz).2]; rfl
  have hss : (NDA.stacked ss x).shape = ss ++ s := by simp only [NDA.stacked]; rw [(h _ hz).2]
  obtain ⟨N, hN⟩ := common_bound (ndindex ss) (fun i n => ∃ r', (items i).eval m limit n = .ok r' ∧ r' ≈ₐ x i)
    (fun i hi => (h i ((mem_ndindex ss i).mp hi)).1.2)
  refine ⟨by rw [hsh, hss], N, fun n hn => ?_⟩
  obtain ⟨eng, he⟩ := eval_with m limit n
  obtain ⟨r, k1, k2⟩ := stack_eval (ss := ss) (s := s) (items := x) (ev := fun i => (items i).evalWith m eng) h0
    (fun i hi => (h i hi).2) (fun i hi => by rw [← he]; exact hN n hn i ((mem_ndindex ss i).mpr hi))
  refine ⟨r, ?_, k2⟩
  rw [he]
  unfold Arr.evalWith
  rw [hsh]; exact k1

theorem yields_mosaic {n axis : Nat} {s : List Nat} {tiles : Nat → Arr α} {x : Nat → NDA V} (h0 : 0 < n)
    (hax : axis < s.length) (h : ∀ i, i < n → (tiles i).Yields m limit (x i) ∧ ∃ k, (x i).shape = s.set axis k) :
    (Arr.mosaic n tiles axis).Yields m limit (NDA.concat n x axis) := by
  have hsh : (Arr.mosaic n tiles axis).shape = .ok (NDA.concat n x axis).shape := by
    unfold Arr.shape
    rw [(h 0 h0).1.1]
    simp only [bind, Except.bind]
    rw [mapM_ok _ _ (fun i => (x i).shape.getD axis 0)]
    · rfl
    · intro i hi
      rw [(h i (List.mem_range.mp hi)).1.1]; rfl
  obtain ⟨N, hN⟩ := common_bound (List.range n) (fun i k => ∃ r', (tiles i).eval m limit k = .ok r' ∧ r' ≈ₐ x i)
    (fun i hi => (h i (List.mem_range.mp hi)).1.2)
  refine ⟨hsh, N, fun k hk => ?_⟩
  obtain ⟨eng, he⟩ := eval_with m limit k
  obtain ⟨r, off, k1, k2⟩ := mosaic_eval (n := n) (axis := axis) (s := s) (tiles := x)
    (ev := fun i => (tiles i).evalWith m eng) (tshape := fun i => (tiles i).shape) h0 hax
    (fun i hi => (h i hi).2) (fun i hi => (h i hi).1.1)
    (fun i hi => by rw [← he]; exact hN k hk i (List.mem_range.mpr hi))
  refine ⟨r, ?_, k2⟩
  rw [he]
  unfold Arr.evalWith
  rw [hsh]
  simp only [bind, Except.bind] at k1 ⊢
  rw [k1]; rfl

theorem yields_asType {a : Arr α} {x : NDA V} (dt : Nat) (h : a.Yields m limit x) :
    (Arr.asType a dt).Yields m limit (x.map (m.cast dt)) := by
  obtain ⟨hs, N, hN⟩ := h
  refine ⟨hs, N, fun n hn' => ?_⟩
  obtain ⟨eng, he⟩ := eval_with m limit n
  obtain ⟨r, hr, hrx⟩ := hN n hn'
  rw [he] at hr ⊢
  exact ⟨r.map (m.cast dt), by unfold Arr.evalWith; rw [hr]; rfl, hrx.map _⟩

theorem yields_maskVal {a : Arr α} {x : NDA V} (v : α) (h : a.Yields m limit x) :
    (Arr.maskVal a v).Yields m limit (x.map (m.maskEq v)) := by
  obtain ⟨hs, N, hN⟩ := h
  refine ⟨hs, N, fun n hn' => ?_⟩
  obtain ⟨eng, he⟩ := eval_with m limit n
  obtain ⟨r, hr, hrx⟩ := hN n hn'
  rw [he] at hr ⊢
  exact ⟨r.map (m.maskEq v), by unfold Arr.evalWith; rw [hr]; rfl, hrx.map _⟩

/-- Element-wise operations evaluate their arguments with the engine (3023-3035). -/
theorem returns_elem1 {a : Arr α} {x : NDA V} {op : Op1 α} {f : V → V} (hf : m.op1 op = some f)
    (h : a.EngineReturns m limit x) : (Arr.elem1 a op).Returns m limit (x.map f) := by
  obtain ⟨N, hN⟩ := h
  refine ⟨N + 1, fun n hn => ?_⟩
  match n, hn with
  | n + 1, hn =>
    obtain ⟨r, hr, hrx⟩ := hN n (by omega)
    refine ⟨r.map f, ?_, hrx.map _⟩
    show Arr.evalWith m (engineOne m limit (Arr.eval m limit n)) (.elem1 a op) = _
    unfold Arr.evalWith
    rw [hf]
    simp only [engineEval] at hr
    rw [hr]; rfl

theorem returns_elem2 {a b : Arr α} {x y : NDA V} {op : Op2 α} {f : V → V → V} (hf : m.op2 op = some f)
    (ha : a.EngineReturns m limit x) (hb : b.EngineReturns m limit y) (hs : x.shape = y.shape) :
    (Arr.elem2 a b op).Returns m limit (x.zip y f) := by
  obtain ⟨N, hN⟩ := ha
  obtain ⟨N', hN'⟩ := hb
  refine ⟨max N N' + 1, fun n hn => ?_⟩
  match n, hn with
  | n + 1, hn =>
    have h1 : max N N' ≤ n := by omega
    obtain ⟨r, hr, hrx⟩ := hN n (le_trans (le_max_left _ _) h1)
    obtain ⟨r', hr', hrx'⟩ := hN' n (le_trans (le_max_right _ _) h1)
    obtain ⟨z, hz, hzx⟩ := npOp2_ok (f := f) hrx hrx' hs
    refine ⟨z, ?_, hzx⟩
    show Arr.evalWith m (engineOne m limit (Arr.eval m limit n)) (.elem2 a b op) = _
    unfold Arr.evalWith
    rw [hf]
    simp only [engineEval] at hr hr'
    rw [hr, hr']; exact hz

theorem returns_agg {a : Arr α} {x : NDA V} {axis : Nat} {k : AggKind α} (h : (Arr.agg a axis k).EngineReturns m limit x) :
    (Arr.agg a axis k).Returns m limit x := by
  obtain ⟨N, hN⟩ := h
  refine ⟨N + 1, fun n hn => ?_⟩
  match n, hn with
  | n + 1, hn => exact hN n (by omega)

end Biggus

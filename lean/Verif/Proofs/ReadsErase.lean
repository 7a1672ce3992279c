import Verif.Model.Reads
import Verif.Proofs.EvalClosed
/-
The logged evaluation computes what the evaluation computes.
-/
namespace Biggus

variable {α V : Type}

theorem map_bind {β γ δ : Type} (x : Res β) (f : β → Res γ) (g : γ → δ) :
    Except.map g (x >>= f) = x >>= fun y => Except.map g (f y) := by
  cases x <;> rfl

theorem bind_map {β γ δ : Type} (x : Res β) (f : γ → Res δ) (g : β → γ) :
    (Except.map g x >>= f) = x >>= fun y => f (g y) := by
  cases x <;> rfl

theorem applyKeysL_erase {β : Type} (o : Bool) (data : NDA β) (keys : List Key) :
    Except.map Prod.fst (applyKeysL o data keys) = applyKeys o data keys := by
  unfold applyKeysL applyKeys numpyApplyKeys
  cases o
  · simp only [Bool.false_eq_true, if_false]
    split
    · cases npFancy data (cutKeys keys) with
      | error e => rfl
      | ok a =>
        simp only [bind, Except.bind]
        cases keys.zipIdx.foldlM (takeStep keys) a <;> rfl
    · cases npFancy data keys <;> rfl
  · simp only [if_true]
    cases npIndex data keys <;> rfl

theorem mapM_erase {β γ δ : Type} (l : List β) (f : β → Res (γ × δ)) (g : β → Res γ)
    (h : ∀ x ∈ l, Except.map Prod.fst (f x) = g x) :
    Except.map (fun r => r.map Prod.fst) (l.mapM f) = l.mapM g := by
  induction l with
  | nil => rfl
  | cons x l ih =>
    rw [List.mapM_cons, List.mapM_cons, map_bind, ← h x (by simp), bind_map]
    cases f x with
    | error e => rfl
    | ok y =>
      show Except.map _ (l.mapM f >>= fun ys => pure (y :: ys)) = _
      rw [map_bind, ← ih (fun x hx => h x (by simp [hx]))]
      simp only [bind, Except.bind]
      cases l.mapM f <;> rfl

theorem foldlM_erase {β σ L : Type} (l : List β) (f : σ × L → β → Res (σ × L)) (g : σ → β → Res σ)
    (h : ∀ st x, Except.map Prod.fst (f st x) = g st.1 x) : ∀ st : σ × L,
    Except.map Prod.fst (l.foldlM f st) = l.foldlM g st.1 := by
  induction l with
  | nil => intro st; rfl
  | cons x l ih =>
    intro st
    rw [List.foldlM_cons, List.foldlM_cons, map_bind, ← h st x, bind_map]
    cases f st x with
    | error e => rfl
    | ok y => exact ih y

theorem producerL_erase [Inhabited α] (limit : Nat) {evalL : Arr α → Res (NDA V × List (Option α))}
    {evalP : Arr α → Res (NDA V)} (h : ∀ x, Except.map Prod.fst (evalL x) = evalP x) (a : Arr α) (order : List Nat) :
    Except.map Prod.fst (do
      let s ← a.shape
      let l ← (chunkIndexGen limit s order).mapM (fun key => do
        let b ← a.getitem key
        let d ← evalL b
        return ((key, d.1), d.2))
      return (l.map Prod.fst, l.flatMap Prod.snd) : Res (List (Chunk V) × List (Option α))) = (do
      let s ← a.shape
      (chunkIndexGen limit s order).mapM (fun key => do
        let b ← a.getitem key
        let d ← evalP b
        return (key, d))) := by
  rw [map_bind]
  congr 1
  funext s
  rw [map_bind, ← mapM_erase (chunkIndexGen limit s order) (fun key => (do
        let b ← a.getitem key
        let d ← evalL b
        return ((key, d.1), d.2) : Res ((List Key × NDA V) × List (Option α)))) _ ?_]
  · have hx : ∀ x : Res (List ((List Key × NDA V) × List (Option α))),
        (x >>= fun l => Except.map Prod.fst (pure (l.map Prod.fst, l.flatMap Prod.snd) : Res (List (Chunk V) × List (Option α)))) =
          Except.map (fun r => r.map Prod.fst) x := by
      intro x; cases x <;> rfl
    exact hx _
  · intro key _
    rw [map_bind]
    congr 1
    funext b
    rw [map_bind, ← h b, bind_map]
    cases evalL b <;> rfl

theorem streamL_erase [Inhabited α] (m : Mode α V) (limit : Nat) {evalL : Arr α → Res (NDA V × List (Option α))}
    {evalP : Arr α → Res (NDA V)} (h : ∀ x, Except.map Prod.fst (evalL x) = evalP x) : ∀ (a : Arr α) (order : List Nat),
    Except.map Prod.fst (a.streamL m limit evalL order) = a.stream m limit evalP order
  | .agg a axis k, order => by
    unfold Arr.streamL Arr.stream
    rw [map_bind]
    congr 1
    funext s
    rw [map_bind, ← streamL_erase m limit h a (aggOrder axis order), bind_map]
    congr 1
    funext r
    rw [map_bind]
    cases aggStream (m.handler k) axis (s.getD axis 0) r.1 <;> rfl
  | .elem1 a op, order => by
    unfold Arr.streamL Arr.stream
    cases m.op1 op with
    | none => rfl
    | some f =>
      simp only
      rw [map_bind, ← streamL_erase m limit h a order, bind_map]
      rfl
  | .elem2 a b op, order => by
    unfold Arr.streamL Arr.stream
    cases m.op2 op with
    | none => rfl
    | some f =>
      simp only
      rw [map_bind, ← streamL_erase m limit h a order, bind_map]
      congr 1
      funext ra
      rw [map_bind, ← streamL_erase m limit h b order, bind_map]
      congr 1
      funext rb
      rw [map_bind]
      cases elem2Stream f ra.1 rb.1 <;> rfl
  | .adapter o c keys, order => producerL_erase limit h (.adapter o c keys) order
  | .const s v dt, order => producerL_erase limit h (.const s v dt) order
  | .newAxes a na, order => producerL_erase limit h (.newAxes a na) order
  | .bcast a d l, order => producerL_erase limit h (.bcast a d l) order
  | .transposed a axes, order => producerL_erase limit h (.transposed a axes) order
  | .stack ss items, order => producerL_erase limit h (.stack ss items) order
  | .mosaic n tiles axis, order => producerL_erase limit h (.mosaic n tiles axis) order
  | .asType a dt, order => producerL_erase limit h (.asType a dt) order
  | .maskVal a v, order => producerL_erase limit h (.maskVal a v) order

theorem engineOneL_erase [Inhabited α] [Inhabited V] (m : Mode α V) (limit : Nat)
    {evalL : Arr α → Res (NDA V × List (Option α))} {evalP : Arr α → Res (NDA V)}
    (h : ∀ x, Except.map Prod.fst (evalL x) = evalP x) (x : Arr α) :
    Except.map Prod.fst (engineOneL m limit evalL x) = engineOne m limit evalP x := by
  unfold engineOneL engineOne
  rw [map_bind]
  congr 1
  funext s
  rw [map_bind, ← streamL_erase m limit h x (List.range s.length), bind_map]
  congr 1
  funext r
  rw [map_bind]
  cases assemble s r.1 <;> rfl

theorem evalWithL_erase [Inhabited α] [Inhabited V] (m : Mode α V) {engL : Arr α → Res (NDA V × List (Option α))}
    {eng : Arr α → Res (NDA V)} (h : ∀ x, Except.map Prod.fst (engL x) = eng x) : ∀ a : Arr α,
    Except.map Prod.fst (a.evalWithL m engL) = a.evalWith m eng
  | .adapter o c keys => by
    unfold Arr.evalWithL Arr.evalWith
    rw [map_bind, ← applyKeysL_erase, bind_map]; rfl
  | .const s v dt => rfl
  | .newAxes a na => by
    unfold Arr.evalWithL Arr.evalWith
    rw [map_bind]
    congr 1
    funext s
    rw [map_bind, ← evalWithL_erase m h a, bind_map]
    congr 1
    funext r
    rw [map_bind]
    cases npIndex r.1 (naInsert Key.newaxis na (List.replicate s.length Key.full)) <;> rfl
  | .bcast a d l => by
    unfold Arr.evalWithL Arr.evalWith
    rw [map_bind, ← evalWithL_erase m h a, bind_map]
    congr 1
    funext r
    rw [map_bind]
    cases bcastNumpy r.1 d l <;> rfl
  | .transposed a axes => by
    unfold Arr.evalWithL Arr.evalWith
    rw [map_bind, ← evalWithL_erase m h a, bind_map]
    congr 1
    funext r
    rw [map_bind]
    cases npTranspose r.1 axes <;> rfl
  | .stack ss items => by
    unfold Arr.evalWithL Arr.evalWith
    rw [map_bind]
    congr 1
    funext s
    refine foldlM_erase _ _ _ ?_ _
    intro st i
    rw [map_bind, ← evalWithL_erase m h (items i), bind_map]
    congr 1
    funext d
    rw [map_bind]
    cases stackStore st.1 i d.1 <;> rfl
  | .mosaic n tiles axis => by
    unfold Arr.evalWithL Arr.evalWith
    rw [map_bind]
    congr 1
    funext s
    have := foldlM_erase (List.range n) (fun (st : (NDA V × Nat) × List (Option α)) i => do
        let ts ← (tiles i).shape
        let d ← (tiles i).evalWithL m engL
        let data ← mosaicStore axis st.1.1 st.1.2 (ts.getD axis 0) d.1
        return ((data, st.1.2 + ts.getD axis 0), st.2 ++ d.2)) (fun (st : NDA V × Nat) i => do
        let ts ← (tiles i).shape
        let d ← (tiles i).evalWith m eng
        let data ← mosaicStore axis st.1 st.2 (ts.getD axis 0) d
        return (data, st.2 + ts.getD axis 0)) (by
          intro st i
          rw [map_bind]
          congr 1
          funext ts
          rw [map_bind, ← evalWithL_erase m h (tiles i), bind_map]
          congr 1
          funext d
          rw [map_bind]
          cases mosaicStore axis st.1.1 st.1.2 (ts.getD axis 0) d.1 <;> rfl) ((⟨s, fun _ => default⟩, 0), [])
    simp only at this
    rw [map_bind, ← this, bind_map]
    rfl
  | .asType a dt => by
    unfold Arr.evalWithL Arr.evalWith
    rw [map_bind, ← evalWithL_erase m h a, bind_map]; rfl
  | .maskVal a v => by
    unfold Arr.evalWithL Arr.evalWith
    rw [map_bind, ← evalWithL_erase m h a, bind_map]; rfl
  | .agg a axis k => h _
  | .elem1 a op => by
    unfold Arr.evalWithL Arr.evalWith
    cases m.op1 op with
    | none => rfl
    | some f =>
      simp only
      rw [map_bind, ← h a, bind_map]; rfl
  | .elem2 a b op => by
    unfold Arr.evalWithL Arr.evalWith
    cases m.op2 op with
    | none => rfl
    | some f =>
      simp only
      rw [map_bind, ← h a, bind_map]
      congr 1
      funext ra
      rw [map_bind, ← h b, bind_map]
      congr 1
      funext rb
      rw [map_bind]
      cases npOp2 f ra.1 rb.1 <;> rfl

/-- The logged evaluation computes what the evaluation computes. -/
theorem evalL_erase [Inhabited α] [Inhabited V] (m : Mode α V) (limit : Nat) : ∀ (n : Nat) (a : Arr α),
    Except.map Prod.fst (a.evalL m limit n) = a.eval m limit n
  | 0, a => evalWithL_erase m (fun _ => rfl) a
  | n + 1, a => evalWithL_erase m (engineOneL_erase m limit (evalL_erase m limit n)) a

theorem engineEvalL_erase [Inhabited α] [Inhabited V] (m : Mode α V) (limit n : Nat) (a : Arr α) :
    Except.map Prod.fst (engineEvalL m limit n a) = engineEval m limit n a :=
  engineOneL_erase m limit (evalL_erase m limit n) a

end Biggus

import Verif.Spec.Reads
import Verif.Model.Ctors
import Verif.Model.Stacks
import Verif.Proofs.ReadsErase
/-
Building and indexing expressions does not look at the data of the sources.
-/
namespace Biggus

variable {α : Type}

theorem mapM_withSources {β γ : Type} (g : γ → γ) (F F' : β → Res γ) (h : ∀ x, F' x = Except.map g (F x)) (l : List β) :
    l.mapM F' = Except.map (List.map g) (l.mapM F) := by
  induction l with
  | nil => rfl
  | cons x l ih =>
    rw [List.mapM_cons, List.mapM_cons, h x, ih]
    cases F x with
    | error e => rfl
    | ok y =>
      cases l.mapM F <;> rfl

section
variable {f : Concrete α → Concrete α} (hf : OnlyData f)
include hf

theorem shape_withSources : ∀ a : Arr α, (a.withSources f).shape = a.shape
  | .adapter o c keys => by
    show slicedShape (f c).data.shape keys = slicedShape c.data.shape keys
    rw [(hf c).1]
  | .const s v dt => rfl
  | .newAxes a na => by simp only [Arr.withSources, Arr.shape, shape_withSources a]
  | .bcast a d lead => by simp only [Arr.withSources, Arr.shape, shape_withSources a]
  | .transposed a axes => by simp only [Arr.withSources, Arr.shape, shape_withSources a]
  | .stack ss items => by simp only [Arr.withSources, Arr.shape, shape_withSources (items _)]
  | .mosaic n tiles axis => by
    have : ∀ i, ((tiles i).withSources f).shape = (tiles i).shape := fun i => shape_withSources (tiles i)
    simp only [Arr.withSources, Arr.shape, this]
  | .asType a dt => shape_withSources a
  | .maskVal a v => shape_withSources a
  | .agg a axis k => by simp only [Arr.withSources, Arr.shape, shape_withSources a]
  | .elem1 a op => shape_withSources a
  | .elem2 a b op => shape_withSources a

theorem mkAdapter_withSources (o : Bool) (c : Concrete α) (keys : List Key) :
    mkAdapter o (f c) keys = Except.map (Arr.withSources f) (mkAdapter o c keys) := by
  unfold mkAdapter
  rw [(hf c).1]
  split
  · rfl
  · simp only [bind, Except.bind, pure, Except.pure]
    cases (keys.zip c.data.shape).mapM (fun p => cleanupKey p.1 p.2) <;> rfl

theorem mkNewAxes_withSources (a : Arr α) (na : List Nat) :
    mkNewAxes (a.withSources f) na = Except.map (Arr.withSources f) (mkNewAxes a na) := by
  unfold mkNewAxes
  rw [shape_withSources hf]
  cases a.shape with
  | error e => rfl
  | ok s =>
    simp only [bind, Except.bind]
    split <;> rfl

theorem mkBcastFlat_withSources (a : Arr α) (d : List (Nat × Nat)) (lead : List Nat) :
    mkBcastFlat (a.withSources f) d lead = Except.map (Arr.withSources f) (mkBcastFlat a d lead) := by
  unfold mkBcastFlat
  rw [shape_withSources hf]
  cases a.shape with
  | error e => rfl
  | ok s =>
    simp only [bind, Except.bind]
    cases shapeFromDict d s with
    | error e => rfl
    | ok s' =>
      simp only
      split <;> rfl

theorem mkBcast_withSources (a : Arr α) (d : List (Nat × Nat)) (lead : List Nat) :
    mkBcast (a.withSources f) d lead = Except.map (Arr.withSources f) (mkBcast a d lead) := by
  cases a with
  | bcast a' d' l' => exact mkBcastFlat_withSources hf a' _ _
  | _ => exact mkBcastFlat_withSources hf _ _ _

theorem mkTransposed_withSources (a : Arr α) (axes : List Nat) :
    mkTransposed (a.withSources f) axes = Except.map (Arr.withSources f) (mkTransposed a axes) := by
  unfold mkTransposed
  rw [shape_withSources hf]
  cases a.shape with
  | error e => rfl
  | ok s =>
    simp only [bind, Except.bind]
    split <;> rfl

theorem mkStack_withSources (ss : List Nat) (items : List Nat → Arr α) :
    mkStack ss (fun i => (items i).withSources f) = Except.map (Arr.withSources f) (mkStack ss items) := by
  unfold mkStack
  simp only [shape_withSources hf]
  split
  · rfl
  · simp only [bind, Except.bind, pure, Except.pure]
    cases (items (ss.map (fun _ => 0))).shape with
    | error e => rfl
    | ok s0 =>
      simp only
      split <;> rfl

theorem mkMosaic_withSources [Inhabited α] (tiles : List (Arr α)) (axis : Nat) :
    mkMosaic (tiles.map (Arr.withSources f)) axis = Except.map (Arr.withSources f) (mkMosaic tiles axis) := by
  cases tiles with
  | nil => rfl
  | cons t ts =>
    unfold mkMosaic
    simp only [List.map_cons]
    rw [shape_withSources hf]
    cases t.shape with
    | error e => rfl
    | ok s0 =>
      simp only [bind, Except.bind, pure, Except.pure]
      split
      · rfl
      · rw [List.mapM_map]
        simp only [Function.comp_def, shape_withSources hf]
        split
        · rfl
        · simp only [Except.map, Arr.withSources, List.length_cons, List.length_map]
          congr 2
          funext i
          have : ∀ (l : List (Arr α)) (i : Nat), (l.map (Arr.withSources f)).getD i default = (l.getD i default).withSources f := by
            intro l
            induction l with
            | nil => intro i; rfl
            | cons x l ih => intro i; cases i with
              | zero => rfl
              | succ i => simpa using ih i
          exact this (t :: ts) i

theorem bcastSide_withSources (a : Arr α) (kw : List (Nat × Nat) × List Nat) :
    bcastSide (a.withSources f) kw = Except.map (Arr.withSources f) (bcastSide a kw) := by
  unfold bcastSide
  split
  · rfl
  · exact mkBcast_withSources hf a _ _

theorem broadcastArrays_withSources (a b : Arr α) :
    broadcastArrays (a.withSources f) (b.withSources f) =
      Except.map (fun p => (p.1.withSources f, p.2.withSources f)) (broadcastArrays a b) := by
  unfold broadcastArrays
  rw [shape_withSources hf, shape_withSources hf]
  cases a.shape with
  | error e => rfl
  | ok sa =>
    cases b.shape with
    | error e => rfl
    | ok sb =>
      simp only [bind, Except.bind]
      cases computeBcastShape sa sb with
      | error e => rfl
      | ok full =>
        simp only [bcastSide_withSources hf]
        cases bcastSide a (bcastKwargs full sa) with
        | error e => rfl
        | ok a' =>
          cases bcastSide b (bcastKwargs full sb) <;> rfl

theorem mkElem2_withSources (a b : Arr α) (op : Op2 α) :
    mkElem2 (a.withSources f) (b.withSources f) op = Except.map (Arr.withSources f) (mkElem2 a b op) := by
  unfold mkElem2
  rw [broadcastArrays_withSources hf]
  cases broadcastArrays a b <;> rfl

theorem newAxesGetitem_withSources {inner inner' : List Key → Res (Arr α)}
    (h : ∀ ks, inner' ks = Except.map (Arr.withSources f) (inner ks)) (ndim : Nat) (na : List Nat) (keys : List Key) :
    newAxesGetitem inner' ndim na keys = Except.map (Arr.withSources f) (newAxesGetitem inner ndim na keys) := by
  unfold newAxesGetitem
  simp only [h]
  rw [map_bind]
  congr 1
  funext fk
  rw [map_bind]
  congr 1
  funext st
  rw [map_bind, bind_map]
  congr 1
  funext b
  rw [map_bind, mkNewAxes_withSources hf, bind_map]
  congr 1
  funext r
  split
  · rfl
  · exact mkBcast_withSources hf r _ _

theorem arrayGetitem_withSources {full full' : List Key → Res (Arr α)}
    (h : ∀ ks, full' ks = Except.map (Arr.withSources f) (full ks)) (shape : Res (List Nat)) (keys : List Key) :
    arrayGetitem full' shape keys = Except.map (Arr.withSources f) (arrayGetitem full shape keys) := by
  unfold arrayGetitem
  rw [map_bind]
  congr 1
  funext s
  rw [map_bind]
  congr 1
  funext fk
  split
  · refine newAxesGetitem_withSources hf ?_ _ _ _
    intro ks
    rw [map_bind]
    congr 1
    funext fk
    exact h fk
  · exact h fk

theorem bcastFull_withSources {inner inner' : List Key → Res (Arr α)}
    (h : ∀ ks, inner' ks = Except.map (Arr.withSources f) (inner ks)) (a : Arr α) (d : List (Nat × Nat)) (lead : List Nat)
    (keys : List Key) :
    bcastFull inner' (a.withSources f) d lead keys = Except.map (Arr.withSources f) (bcastFull inner a d lead keys) := by
  unfold bcastFull
  rw [map_bind]
  congr 1
  funext lead'
  rw [map_bind, shape_withSources hf]
  congr 1
  funext sa
  rw [map_bind]
  congr 1
  funext sizes
  rw [map_bind]
  congr 1
  funext p
  have hsub : ∀ ak, bcastSub inner' (a.withSources f) ak = Except.map (Arr.withSources f) (bcastSub inner a ak) := by
    intro ak
    unfold bcastSub
    rw [map_bind]
    congr 1
    funext b
    split
    · rfl
    · exact h ak
  obtain ⟨ak, d'⟩ := p
  simp only
  rw [map_bind, hsub, bind_map]
  congr 1
  funext sub
  exact mkBcast_withSources hf sub _ _

theorem transposedFull_withSources {inner inner' : List Key → Res (Arr α)}
    (h : ∀ ks, inner' ks = Except.map (Arr.withSources f) (inner ks)) (axes : List Nat) (keys : List Key) :
    transposedFull inner' axes keys = Except.map (Arr.withSources f) (transposedFull inner axes keys) := by
  unfold transposedFull
  rw [map_bind]
  congr 1
  funext r
  rw [map_bind, h, bind_map]
  congr 1
  funext b
  exact mkTransposed_withSources hf b _

theorem stackFull_withSources {inner inner' : List Nat → List Key → Res (Arr α)}
    (h : ∀ i ks, inner' i ks = Except.map (Arr.withSources f) (inner i ks)) (ss : List Nat) (items : List Nat → Arr α)
    (keys : List Key) :
    stackFull inner' ss (fun i => (items i).withSources f) keys =
      Except.map (Arr.withSources f) (stackFull inner ss items keys) := by
  unfold stackFull
  simp only
  rw [map_bind]
  congr 1
  funext rs
  rw [map_bind]
  congr 1
  funext sel
  split
  · exact h _ _
  · rw [map_bind, mapM_withSources (Arr.withSources f)
      (fun i => if ¬ InB sel.shape i then .error PyErr.index else inner (sel.get i) (keys.drop ss.length)) _ ?_, bind_map]
    · congr 1
      funext u
      rw [← mkStack_withSources hf]
      congr 1
      funext i
      split
      · rw [h]
        cases inner (sel.get i) (keys.drop ss.length) <;> rfl
      · rfl
    · intro i
      split
      · rfl
      · exact h _ _

theorem mosaicMany_withSources [Inhabited α] {inner inner' : Nat → List Key → Res (Arr α)}
    (h : ∀ i ks, inner' i ks = Except.map (Arr.withSources f) (inner i ks)) (lens : List Nat) (axis : Nat) (keys : List Key)
    (is : List Int) (rev : Bool) :
    mosaicMany inner' lens axis keys is rev = Except.map (Arr.withSources f) (mosaicMany inner lens axis keys is rev) := by
  unfold mosaicMany
  rw [map_bind, mapM_withSources (Arr.withSources f) (fun g : Nat × List Int =>
    inner g.1 (keys.set axis (tileKey ((tileOffsets lens).getD g.1 0) g.2))) _ (fun g => h _ _), bind_map]
  congr 1
  funext tiles
  rw [← mkMosaic_withSources hf]
  cases rev <;> simp

theorem mosaicFull_withSources [Inhabited α] {inner inner' : Nat → List Key → Res (Arr α)}
    (h : ∀ i ks, inner' i ks = Except.map (Arr.withSources f) (inner i ks)) (tshape : Nat → Res (List Nat)) (n axis : Nat)
    (keys : List Key) :
    mosaicFull inner' tshape n axis keys = Except.map (Arr.withSources f) (mosaicFull inner tshape n axis keys) := by
  unfold mosaicFull
  simp only
  split
  · rw [map_bind, mapM_withSources (Arr.withSources f) (fun i => inner i (trimKeys keys)) _ (fun i => h _ _), bind_map]
    congr 1
    funext tiles
    rw [← mkMosaic_withSources hf]
  · rw [map_bind]
    congr 1
    funext lens
    unfold mosaicAxis
    split
    · exact h _ _
    · rw [map_bind]
      congr 1
      funext r
      exact mosaicMany_withSources hf h _ _ _ _ _
    · exact mosaicMany_withSources hf h _ _ _ _ _
    · exact mosaicMany_withSources hf h _ _ _ _ _
    · exact mosaicMany_withSources hf h _ _ _ _ _
    · split <;> rfl
    · rfl

/-- Indexing does not look at the data. -/
theorem getitem_withSources [Inhabited α] : ∀ (a : Arr α) (ks : List Key),
    (a.withSources f).getitem ks = Except.map (Arr.withSources f) (a.getitem ks)
  | .adapter o c stored, ks => by
    show arrayGetitem (adapterFull o (f c) stored) (slicedShape (f c).data.shape stored) ks = _
    rw [(hf c).1]
    unfold Arr.getitem
    refine arrayGetitem_withSources hf ?_ _ _
    intro ks
    unfold adapterFull
    rw [map_bind, (hf c).1]
    congr 1
    funext r
    exact mkAdapter_withSources hf o c r
  | .const s v dt, ks => by
    unfold Arr.withSources Arr.getitem
    cases slicedShape s ks <;> rfl
  | .newAxes a na, ks => by
    unfold Arr.withSources Arr.getitem
    rw [map_bind, shape_withSources hf]
    congr 1
    funext s
    exact newAxesGetitem_withSources hf (fun ks => getitem_withSources a ks) _ _ _
  | .bcast a d lead, ks => by
    have hs := shape_withSources hf (.bcast a d lead)
    unfold Arr.withSources at hs ⊢
    unfold Arr.getitem
    rw [hs]
    exact arrayGetitem_withSources hf (bcastFull_withSources hf (fun ks => getitem_withSources a ks) a d lead) _ _
  | .transposed a axes, ks => by
    have hs := shape_withSources hf (.transposed a axes)
    unfold Arr.withSources at hs ⊢
    unfold Arr.getitem
    rw [hs]
    exact arrayGetitem_withSources hf (transposedFull_withSources hf (fun ks => getitem_withSources a ks) axes) _ _
  | .stack ss items, ks => by
    have hs := shape_withSources hf (.stack ss items)
    unfold Arr.withSources at hs ⊢
    unfold Arr.getitem
    rw [hs]
    exact arrayGetitem_withSources hf (stackFull_withSources hf (fun i ks => getitem_withSources (items i) ks) ss items) _ _
  | .mosaic n tiles axis, ks => by
    have hs := shape_withSources hf (.mosaic n tiles axis)
    have ht : (fun i => ((tiles i).withSources f).shape) = fun i => (tiles i).shape := by
      funext i; exact shape_withSources hf (tiles i)
    unfold Arr.withSources at hs ⊢
    unfold Arr.getitem
    rw [hs, ht]
    exact arrayGetitem_withSources hf (mosaicFull_withSources hf (fun i ks => getitem_withSources (tiles i) ks) _ n axis) _ _
  | .asType a dt, ks => by
    unfold Arr.withSources Arr.getitem
    rw [getitem_withSources a ks, map_bind, bind_map]
    rfl
  | .maskVal a v, ks => by
    unfold Arr.withSources Arr.getitem
    rw [getitem_withSources a ks, map_bind, bind_map]
    rfl
  | .agg a axis k, ks => by
    have hs := shape_withSources hf (.agg a axis k)
    unfold Arr.withSources at hs ⊢
    unfold Arr.getitem
    rw [hs]
    refine arrayGetitem_withSources hf ?_ _ _
    intro ks
    unfold aggFull
    simp only [getitem_withSources a]
    rw [ map_bind, bind_map]
    rfl
  | .elem1 a op, ks => by
    unfold Arr.withSources Arr.getitem
    rw [shape_withSources hf]
    refine arrayGetitem_withSources hf ?_ _ _
    intro ks
    rw [getitem_withSources a, map_bind, bind_map]
    rfl
  | .elem2 a b op, ks => by
    unfold Arr.withSources Arr.getitem
    rw [shape_withSources hf]
    refine arrayGetitem_withSources hf ?_ _ _
    intro ks
    rw [getitem_withSources a, map_bind, bind_map]
    congr 1
    funext a'
    rw [getitem_withSources b, map_bind, bind_map]
    congr 1
    funext b'
    exact mkElem2_withSources hf a' b' op

end

end Biggus

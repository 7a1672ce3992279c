import Verif.Proofs.GetitemKept
import Verif.Proofs.Simple
import Verif.Proofs.Returns
/-
Indexing with keys that may contain `newaxis`: the guards only depend on the other keys.
-/
namespace Biggus

variable {α V : Type}

theorem dropNew_dropNew (fk : List Key) : dropNew (dropNew fk) = dropNew fk := by
  unfold dropNew; rw [List.filter_filter]; simp

theorem mem_dropNew_of {k : Key} {fk : List Key} (h : k ∈ fk) (hk : k.isNewaxis = false) : k ∈ dropNew fk := by
  unfold dropNew; rw [List.mem_filter]; simp [h, hk]

theorem containedKeys_dropNew (fk : List Key) : ∀ c ns, containedKeys c ns (dropNew fk) = containedKeys c ns fk := by
  induction fk with
  | nil => intro c ns; rfl
  | cons k fk ih =>
    intro c ns
    by_cases hk : k.isNewaxis = true
    · have : k = .newaxis := by cases k <;> simp_all [Key.isNewaxis]
      subst this
      have h1 : dropNew (Key.newaxis :: fk) = dropNew fk := by simp [dropNew, Key.isNewaxis]
      rw [h1, ih]
      cases c <;> cases ns <;> simp [containedKeys]
    · have hkn : k.isNewaxis = false := by simpa using hk
      have h1 : dropNew (k :: fk) = k :: dropNew fk := by simp [dropNew, hkn]
      rw [h1]
      cases c with
      | succ c => cases k <;> simp_all [containedKeys, Key.isNewaxis]
      | zero => cases ns <;> cases k <;> simp_all [containedKeys, Key.isNewaxis]

theorem naKeysOk_dropNew (fk : List Key) : ∀ seen c ns, naKeysOk seen c ns (dropNew fk) → naKeysOk seen c ns fk := by
  induction fk with
  | nil => intro seen c ns h; cases c <;> cases ns <;> simp [naKeysOk]
  | cons k fk ih =>
    intro seen c ns h
    by_cases hk : k.isNewaxis = true
    · have : k = .newaxis := by cases k <;> simp_all [Key.isNewaxis]
      subst this
      have h1 : dropNew (Key.newaxis :: fk) = dropNew fk := by simp [dropNew, Key.isNewaxis]
      rw [h1] at h
      have := ih _ _ _ h
      cases c <;> cases ns <;> simpa [naKeysOk] using this
    · have hkn : k.isNewaxis = false := by simpa using hk
      have h1 : dropNew (k :: fk) = k :: dropNew fk := by simp [dropNew, hkn]
      rw [h1] at h
      cases c with
      | succ c =>
        have : naKeysOk seen (c+1) ns (k :: dropNew fk) = (((∃ i, k = .int i) ∨ (∃ s, k = .slice s) ∨ (∃ l, k = .tuple l)) ∧
            (stretchesNew k = true → seen = false) ∧ naKeysOk (seen || k.isScalar) c ns (dropNew fk)) := by
          cases k <;> simp_all [naKeysOk, Key.isNewaxis]
        rw [this] at h
        have h2 : naKeysOk seen (c+1) ns (k :: fk) = (((∃ i, k = .int i) ∨ (∃ s, k = .slice s) ∨ (∃ l, k = .tuple l)) ∧
            (stretchesNew k = true → seen = false) ∧ naKeysOk (seen || k.isScalar) c ns fk) := by
          cases k <;> simp_all [naKeysOk, Key.isNewaxis]
        rw [h2]
        exact ⟨h.1, h.2.1, ih _ _ _ h.2.2⟩
      | zero =>
        cases ns with
        | nil => cases k <;> simp_all [naKeysOk, Key.isNewaxis]
        | cons n ns =>
          have : naKeysOk seen 0 (n :: ns) (k :: dropNew fk) = naKeysOk (seen || k.isScalar) n ns (dropNew fk) := by
            cases k <;> simp_all [naKeysOk, Key.isNewaxis]
          rw [this] at h
          have h2 : naKeysOk seen 0 (n :: ns) (k :: fk) = naKeysOk (seen || k.isScalar) n ns fk := by
            cases k <;> simp_all [naKeysOk, Key.isNewaxis]
          rw [h2]
          exact ih _ _ _ h

theorem keysOk_dropNew : ∀ (a : Arr α) (fk : List Key), a.keysOk (dropNew fk) → a.keysOk fk
  | .adapter _ _ _, _, h => h
  | .const _ _ _, fk, h => fun l hl => h l (mem_dropNew_of hl rfl)
  | .newAxes _ [], _, h => h
  | .newAxes a (c :: ns), fk, h => by
    unfold Arr.keysOk at h ⊢
    rw [containedKeys_dropNew] at h
    exact ⟨naKeysOk_dropNew _ _ _ _ h.1, h.2⟩
  | .bcast a d lead, fk, h => by unfold Arr.keysOk at h ⊢; rw [dropNew_dropNew] at h; exact h
  | .transposed a axes, fk, h => by unfold Arr.keysOk at h ⊢; rw [dropNew_dropNew] at h; exact h
  | .stack ss items, fk, h => by unfold Arr.keysOk at h ⊢; rw [dropNew_dropNew] at h; exact h
  | .mosaic n tiles axis, fk, h => by unfold Arr.keysOk at h ⊢; rw [dropNew_dropNew] at h; exact h
  | .asType a _, fk, h => keysOk_dropNew a fk h
  | .maskVal a _, fk, h => keysOk_dropNew a fk h
  | .agg a axis _, fk, h => by unfold Arr.keysOk at h ⊢; rw [dropNew_dropNew] at h; exact h
  | .elem1 a _, fk, h => by unfold Arr.keysOk at h ⊢; rw [dropNew_dropNew] at h; exact h
  | .elem2 a b _, fk, h => by unfold Arr.keysOk at h ⊢; rw [dropNew_dropNew] at h; exact h

theorem distinct_dropNew {fk : List Key} (h : ∀ x ∈ dropNew fk, x.distinct) : ∀ x ∈ fk, x.distinct := by
  intro x hx
  by_cases hk : x.isNewaxis = true
  · have : x = .newaxis := by cases x <;> simp_all [Key.isNewaxis]
    subst this
    trivial
  · exact h x (mem_dropNew_of hx (by simpa using hk))

theorem clean_dropNew (m : Mode α V) (nm : Bool) : ∀ (a : Arr α) (cut : Cut) (fk : List Key), a.clean m nm cut (dropNew fk) →
    a.clean m nm cut fk
  | .adapter _ _ _, _, fk, h => by unfold Arr.clean at h ⊢; rw [dropNew_dropNew] at h; exact h
  | .const _ _ _, _, fk, h => trivial
  | .newAxes _ [], _, _, h => h
  | .newAxes a (c :: ns), _, fk, h => by
    unfold Arr.clean at h ⊢
    rw [containedKeys_dropNew] at h
    exact h
  | .bcast a d lead, _, fk, h => by unfold Arr.clean at h ⊢; rw [dropNew_dropNew] at h; exact h
  | .transposed a axes, _, fk, h => by unfold Arr.clean at h ⊢; rw [dropNew_dropNew] at h; exact h
  | .stack ss items, _, fk, h => by unfold Arr.clean at h ⊢; rw [dropNew_dropNew] at h; exact h
  | .mosaic n tiles axis, _, fk, h => by unfold Arr.clean at h ⊢; rw [dropNew_dropNew] at h; exact h
  | .asType a _, cut, fk, h => clean_dropNew m nm a cut fk h
  | .maskVal a _, cut, fk, h => clean_dropNew m nm a cut fk h
  | .agg a axis _, _, fk, h => by
    unfold Arr.clean at h ⊢; rw [dropNew_dropNew] at h; exact ⟨h.1.imp id distinct_dropNew, h.2⟩
  | .elem1 a _, _, fk, h => by unfold Arr.clean at h ⊢; rw [dropNew_dropNew] at h; exact h
  | .elem2 a b _, _, fk, h => by
    unfold Arr.clean at h ⊢; rw [dropNew_dropNew] at h
    exact ⟨fun hc => (h.1 hc).imp id distinct_dropNew, h.2⟩

/-- Simple keys select something. -/
theorem resolve_dropNew {fk : List Key} : ∀ {s : List Nat} {σ : List Sel}, resolve (dropNew fk) s = .ok σ →
    (∀ k ∈ fk, k.isEllipsis = false) → ∃ τ, resolve fk s = .ok τ := by
  induction fk with
  | nil => intro s σ h _; exact ⟨σ, h⟩
  | cons k fk ih =>
    intro s σ h he
    by_cases hk : k.isNewaxis = true
    · have : k = .newaxis := by cases k <;> simp_all [Key.isNewaxis]
      subst this
      have h1 : dropNew (Key.newaxis :: fk) = dropNew fk := by simp [dropNew, Key.isNewaxis]
      rw [h1] at h
      obtain ⟨τ, hτ⟩ := ih h (fun k hk => he k (List.mem_cons_of_mem _ hk))
      refine ⟨.new :: τ, ?_⟩
      simp only [resolve, hτ, bind, Except.bind]; rfl
    · have hkn : k.isNewaxis = false := by simpa using hk
      have h1 : dropNew (k :: fk) = k :: dropNew fk := by simp [dropNew, hkn]
      rw [h1] at h
      obtain ⟨n, ns, x, τ, rfl, rfl, hx, hr⟩ := (resolve_cons_iff hkn).mp h
      obtain ⟨τ', hτ'⟩ := ih hr (fun k hk => he k (List.mem_cons_of_mem _ hk))
      exact ⟨x :: τ', (resolve_cons_iff hkn).mpr ⟨n, ns, x, τ', rfl, rfl, hx, hτ'⟩⟩

section
variable [Inhabited α] [Inhabited V]

/-- Indexing with supported keys that leave the expression evaluable. -/
theorem index_returns (m : Mode α V) (limit : Nat) (nm : Bool) {a : Arr α} {ks fk : List Key} {x r : NDA V} (hwf : a.WF)
    (hok : a.Ok m limit .whole) (hx : a.den m ≈ₐ x) (hf : expandKeys ks x.shape.length = .ok fk) (hk : a.keysOk fk)
    (hc : a.clean m nm .whole fk) (hr : npIndex x ks = .ok r) :
    ∃ b, a.getitem ks = .ok b ∧ b.WF ∧ b.Ok m limit .whole ∧ b.den m ≈ₐ r ∧ Kept m limit nm .whole a fk b := by
  obtain ⟨r', hr', hrr⟩ := npIndex_congr hx.symm hr
  rw [← hx.1] at hf
  obtain ⟨b, h1, h2, h3, _⟩ := getitem_ok m a hwf ks fk r' hf hk hr'
  obtain ⟨fk', σ, q1, q2, _⟩ := npIndex_ok_iff.mp hr'
  rw [hf] at q1
  cases q1
  have hkept := getitem_kept m limit nm a .whole hwf hok ks fk σ b hf q2 hk hc (fun h => by cases h) h1
  exact ⟨b, h1, h2, hkept.ok, h3.trans hrr.symm, hkept⟩

theorem simpleKeys_guards (m : Mode α V) {a : Arr α} {fwd : Bool} (nm : Bool) (hwf : a.WF) (hp : a.Plain m fwd false .whole)
    {fk : List Key} (h : List.Forall₂ (SimpleKey fwd false) (dropNew fk) (a.den m).shape) :
    a.keysOk fk ∧ a.clean m nm .whole fk := by
  obtain ⟨h1, h2⟩ := simple_ok m nm fwd a false .whole hwf hp _ h
  exact ⟨keysOk_dropNew _ _ h1, clean_dropNew _ _ _ _ _ h2⟩

end
end Biggus

import Verif.Proofs.Iter
import Verif.Proofs.SO13
/-!
# Selection rules
-/
namespace LieNN

open Spec

theorem SU2.mulL_nodup (a b : ℕ) : (SU2.mulL a b).Nodup := by
  unfold SU2.mulL
  refine List.Nodup.map (fun x y h => ?_) List.nodup_range
  simp at h; omega

theorem SU2.mulL_comm (a b : ℕ) : SU2.mulL a b = SU2.mulL b a := by
  unfold SU2.mulL
  rw [min_comm, max_comm]

theorem SO3.mulR_nodup (a b : ℕ) : (SO3.mulR a b).Nodup := by
  unfold SO3.mulR
  refine List.Nodup.map (fun x y h => ?_) List.nodup_range
  simp at h; omega

theorem SO3.mulR_comm (a b : ℕ) : SO3.mulR a b = SO3.mulR b a := by
  unfold SO3.mulR
  rw [min_comm, max_comm]

theorem SO3.mulR_zero (a : ℕ) : SO3.mulR a 0 = [a] := by
  unfold SO3.mulR
  simp

theorem SU2.selection : SelectionRule (fun _ : ℕ => True) SU2.dim 0 SU2.mul := by
  refine ⟨fun x y _ _ => ⟨_, SU2.mul_eq x y, SU2.mulL_nodup x y, fun _ _ => trivial, SU2.mulL_sum x y⟩,
    ?_, trivial, rfl, fun x _ => ⟨?_, ?_⟩⟩
  · intro x y _ _ L L' h h'
    rw [SU2.mul_eq] at h h'
    cases h; cases h'
    rw [SU2.mulL_comm]
  · rw [SU2.mul_eq, SL2C.mulL_zero_right]
  · rw [SU2.mul_eq, SL2C.mulL_zero_left]

theorem SO3.selection : SelectionRule (fun l : ℤ => 0 ≤ l) (fun l => SO3.dim l.toNat) 0
    (fun l₁ l₂ => .ok (SO3.mul l₁.toNat l₂.toNat)) := by
  refine ⟨fun x y hx hy => ⟨_, rfl, ?_, ?_, ?_⟩, ?_, le_refl _, rfl, fun x hx => ⟨?_, ?_⟩⟩
  · rw [SO3.mul_eq']
    exact (SO3.mulR_nodup _ _).map fun a b h => by simpa using h
  · intro z hz
    rw [SO3.mul_eq'] at hz
    obtain ⟨k, _, rfl⟩ := List.mem_map.1 hz
    omega
  · rw [SO3.mul_eq', List.map_map]
    exact SO3.mulR_sum x.toNat y.toNat
  · intro x y _ _ L L' h h'
    simp only [SO3.mul_eq'] at h h'
    cases h; cases h'
    rw [SO3.mulR_comm]
  · simp only [SO3.mul_eq', Int.toNat_zero, SO3.mulR_zero]
    simp; omega
  · simp only [SO3.mul_eq', Int.toNat_zero]
    rw [SO3.mulR_comm, SO3.mulR_zero]
    simp; omega

theorem O3.selection : SelectionRule (fun r : O3 => r.p = 1 ∨ r.p = -1) O3.dim ⟨0, 1⟩
    (fun r₁ r₂ => .ok (O3.mul r₁ r₂)) := by
  refine ⟨fun x y hx hy => ⟨_, rfl, ?_, ?_, ?_⟩, ?_, Or.inl rfl, rfl, fun x hx => ⟨?_, ?_⟩⟩
  · rw [O3.mul_eq]
    exact (SO3.mulR_nodup _ _).map fun a b h => by simpa using h
  · intro z hz
    rw [O3.mul_eq] at hz
    obtain ⟨k, _, rfl⟩ := List.mem_map.1 hz
    simp only
    rcases hx with h | h <;> rcases hy with h' | h' <;> rw [h, h'] <;> simp
  · rw [O3.mul_eq, List.map_map]
    exact SO3.mulR_sum x.l y.l
  · intro x y _ _ L L' h h'
    simp only [O3.mul_eq] at h h'
    cases h; cases h'
    rw [SO3.mulR_comm, mul_comm]
  · simp only [O3.mul_eq, SO3.mulR_zero]
    simp
  · simp only [O3.mul_eq]
    rw [SO3.mulR_comm, SO3.mulR_zero]
    simp

theorem Z2.selection : SelectionRule (fun p : ℤ => p = 1 ∨ p = -1) (fun _ => 1) 1
    (fun p₁ p₂ => .ok (Z2.mul p₁ p₂)) := by
  refine ⟨fun x y hx hy => ⟨_, rfl, ?_, ?_, ?_⟩, ?_, Or.inl rfl, rfl, fun x hx => ⟨?_, ?_⟩⟩
  · simp [Z2.mul]
  · intro z hz
    simp only [Z2.mul, List.mem_singleton] at hz
    subst hz
    rcases hx with h | h <;> rcases hy with h' | h' <;> rw [h, h'] <;> simp
  · simp [Z2.mul]
  · intro x y _ _ L L' h h'
    simp only [Z2.mul] at h h'
    cases h; cases h'
    rw [mul_comm]
  · simp [Z2.mul]
  · simp [Z2.mul]

theorem SL2C.mulL_comm_perm (x y : SL2C) : SL2C.mulL x y = SL2C.mulL y x := by
  unfold SL2C.mulL
  rw [SU2.mulL_comm x.l, SU2.mulL_comm x.k]

theorem SL2C.mulL_product (x y : SL2C) : SL2C.mulL x y =
    ((SU2.mulL x.l y.l).product (SU2.mulL x.k y.k)).map fun p => ⟨p.1, p.2⟩ := by
  unfold SL2C.mulL List.product
  rw [List.map_flatMap]
  refine List.flatMap_congr fun l _ => ?_
  rw [List.map_map]
  rfl

theorem SL2C.selection : SelectionRule (fun _ : SL2C => True) SL2C.dim ⟨0, 0⟩ SL2C.mul := by
  refine ⟨fun x y _ _ => ⟨_, SL2C.mul_eq x y, ?_, fun _ _ => trivial, SL2C.mulL_sum x y⟩,
    ?_, trivial, rfl, fun x _ => ⟨?_, ?_⟩⟩
  · rw [SL2C.mulL_product]
    exact ((SU2.mulL_nodup _ _).product (SU2.mulL_nodup _ _)).map
      fun a b h => by simpa [Prod.ext_iff] using h
  · intro x y _ _ L L' h h'
    rw [SL2C.mul_eq] at h h'
    cases h; cases h'
    rw [SL2C.mulL_comm_perm]
  · rw [SL2C.mul_eq]; simp [SL2C.mulL, SL2C.mulL_zero_right]
  · rw [SL2C.mul_eq]; simp [SL2C.mulL, SL2C.mulL_zero_left]

theorem SO13.mul_eq {x y : ℕ × ℕ} (hx : (x.1 + x.2) % 2 = 0) (hy : (y.1 + y.2) % 2 = 0) :
    SO13.mul x y = .ok ((SL2C.mulL ⟨x.1, x.2⟩ ⟨y.1, y.2⟩).map fun r => (r.l, r.k)) := by
  unfold SO13.mul
  rw [SL2C.mul_eq]
  refine LieNN.mapM_ok (g := fun r : SL2C => (r.l, r.k)) fun r hr => SO13.make_nat ?_
  obtain ⟨h1, h2⟩ := SL2C.mem_mulL.1 hr
  obtain ⟨p, q, r, e1, e2, e3⟩ := SU2.mem_mulL.1 h1
  obtain ⟨p', q', r', e1', e2', e3'⟩ := SU2.mem_mulL.1 h2
  simp only at e1 e2 e3 e1' e2' e3'
  omega

theorem SO13.selection : SelectionRule (fun r : ℕ × ℕ => (r.1 + r.2) % 2 = 0)
    (fun r => (⟨r.1, r.2⟩ : SL2C).dim) (0, 0) SO13.mul := by
  refine ⟨fun x y hx hy => ⟨_, SO13.mul_eq hx hy, ?_, ?_, ?_⟩, ?_, rfl, rfl, fun x hx => ⟨?_, ?_⟩⟩
  · obtain ⟨L, h, hn, _⟩ := SL2C.selection.total ⟨x.1, x.2⟩ ⟨y.1, y.2⟩ trivial trivial
    rw [SL2C.mul_eq] at h
    cases h
    exact hn.map fun a b h => by
      obtain ⟨a, a'⟩ := a
      obtain ⟨b, b'⟩ := b
      simpa using h
  · intro z hz
    obtain ⟨r, hr, rfl⟩ := List.mem_map.1 hz
    obtain ⟨h1, h2⟩ := SL2C.mem_mulL.1 hr
    obtain ⟨p, q, r, e1, e2, e3⟩ := SU2.mem_mulL.1 h1
    obtain ⟨p', q', r', e1', e2', e3'⟩ := SU2.mem_mulL.1 h2
    simp only at e1 e2 e3 e1' e2' e3' ⊢
    omega
  · rw [List.map_map]
    exact SL2C.mulL_sum ⟨x.1, x.2⟩ ⟨y.1, y.2⟩
  · intro x y hx hy L L' h h'
    rw [SO13.mul_eq hx hy] at h
    rw [SO13.mul_eq hy hx] at h'
    cases h; cases h'
    rw [SL2C.mulL_comm_perm]
  · rw [SO13.mul_eq hx rfl]; simp [SL2C.mulL, SL2C.mulL_zero_right]
  · rw [SO13.mul_eq rfl hx]; simp [SL2C.mulL, SL2C.mulL_zero_left]

theorem IrProduct.mul_eq {α β : Type} {mul₁ : α → α → Py (List α)} {mul₂ : β → β → Py (List β)}
    {x y : α × β} {L₁ : List α} {L₂ : List β} (h₁ : mul₁ x.1 y.1 = .ok L₁) (h₂ : mul₂ x.2 y.2 = .ok L₂) :
    IrProduct.mul mul₁ mul₂ x y = .ok (L₁.product L₂) := by
  unfold IrProduct.mul
  rw [h₁, SU2.ok_bind', LieNN.mapM_ok (g := fun r₃ => L₂.map fun r₄ => (r₃, r₄)), SU2.ok_bind']
  · rfl
  · intro a _
    rw [h₂]
    rfl

theorem sum_product {α β : Type} (f : α → ℕ) (g : β → ℕ) (L₁ : List α) (L₂ : List β) :
    ((L₁.product L₂).map (IrProduct.dim f g)).sum = (L₁.map f).sum * (L₂.map g).sum := by
  induction L₁ with
  | nil => simp [List.product]
  | cons a L ih =>
    have : (a :: L).product L₂ = L₂.map (fun b => (a, b)) ++ L.product L₂ := rfl
    rw [this, List.map_append, List.sum_append, ih, List.map_cons, List.sum_cons, add_mul, List.map_map,
      ← List.sum_map_mul_left (f := g) (r := f a)]
    rfl

theorem IrProduct.selection {α β : Type} {v₁ : α → Prop} {v₂ : β → Prop} {d₁ : α → ℕ} {d₂ : β → ℕ}
    {t₁ : α} {t₂ : β} {mul₁ : α → α → Py (List α)} {mul₂ : β → β → Py (List β)}
    (h₁ : SelectionRule v₁ d₁ t₁ mul₁) (h₂ : SelectionRule v₂ d₂ t₂ mul₂) :
    SelectionRule (fun r : α × β => v₁ r.1 ∧ v₂ r.2) (IrProduct.dim d₁ d₂) (t₁, t₂)
      (IrProduct.mul mul₁ mul₂) := by
  refine ⟨?_, ?_, ⟨h₁.unit.1, h₂.unit.1⟩, ?_, ?_⟩
  · rintro x y ⟨hx, hx'⟩ ⟨hy, hy'⟩
    obtain ⟨L₁, e₁, n₁, s₁, q₁⟩ := h₁.total _ _ hx hy
    obtain ⟨L₂, e₂, n₂, s₂, q₂⟩ := h₂.total _ _ hx' hy'
    refine ⟨_, IrProduct.mul_eq e₁ e₂, n₁.product n₂, ?_, ?_⟩
    · intro z hz
      have := List.mem_product.1 (show (z.1, z.2) ∈ L₁.product L₂ from hz)
      exact ⟨s₁ _ this.1, s₂ _ this.2⟩
    · rw [sum_product, q₁, q₂]
      unfold IrProduct.dim
      ring
  · rintro x y ⟨hx, hx'⟩ ⟨hy, hy'⟩ L L' h h'
    obtain ⟨L₁, e₁, -⟩ := h₁.total _ _ hx hy
    obtain ⟨L₂, e₂, -⟩ := h₂.total _ _ hx' hy'
    obtain ⟨L₁', e₁', -⟩ := h₁.total _ _ hy hx
    obtain ⟨L₂', e₂', -⟩ := h₂.total _ _ hy' hx'
    rw [IrProduct.mul_eq e₁ e₂] at h
    rw [IrProduct.mul_eq e₁' e₂'] at h'
    cases h; cases h'
    exact (h₁.comm _ _ hx hy _ _ e₁ e₁').product (h₂.comm _ _ hx' hy' _ _ e₂ e₂')
  · unfold IrProduct.dim
    rw [h₁.unit.2.1, h₂.unit.2.1]
  · rintro x ⟨hx, hx'⟩
    obtain ⟨a, b⟩ := h₁.unit.2.2 _ hx
    obtain ⟨a', b'⟩ := h₂.unit.2.2 _ hx'
    exact ⟨IrProduct.mul_eq (x := x) (y := (t₁, t₂)) a a', IrProduct.mul_eq (x := (t₁, t₂)) (y := x) b b'⟩

theorem IrProduct.strictTotal {α β : Type} {v₁ : α → Prop} {v₂ : β → Prop} {lt₁ : α → α → Prop}
    {lt₂ : β → β → Prop} (h₁ : StrictTotal v₁ lt₁) (h₂ : StrictTotal v₂ lt₂) :
    StrictTotal (fun r : α × β => v₁ r.1 ∧ v₂ r.2) (IrProduct.lt lt₁ lt₂) := by
  refine ⟨?_, ?_, ?_⟩
  · rintro x (⟨_, h⟩ | ⟨_, h⟩)
    · exact h₂.irrefl _ h
    · exact h₁.irrefl _ h
  · rintro x y z (⟨a, h⟩ | ⟨a, h⟩) (⟨b, k⟩ | ⟨b, k⟩)
    · exact Or.inl ⟨a.trans b, h₂.trans _ _ _ h k⟩
    · exact Or.inr ⟨a ▸ b, a ▸ k⟩
    · exact Or.inr ⟨b ▸ a, b ▸ h⟩
    · have := h₁.trans _ _ _ h k
      refine Or.inr ⟨fun e => h₁.irrefl z.1 ?_, this⟩
      rwa [e] at this
  · rintro x y ⟨hx, hx'⟩ ⟨hy, hy'⟩ hne
    by_cases e : x.1 = y.1
    · have : x.2 ≠ y.2 := fun e' => hne (Prod.ext e e')
      exact (h₂.total _ _ hx' hy' this).imp (fun h => Or.inl ⟨e, h⟩) (fun h => Or.inl ⟨e.symm, h⟩)
    · exact (h₁.total _ _ hx hy e).imp (fun h => Or.inr ⟨e, h⟩) (fun h => Or.inr ⟨Ne.symm e, h⟩)

end LieNN

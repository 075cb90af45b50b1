import Verif.Props.Semisimple
import Verif.Props.GroupProduct
import Verif.Proofs.ProductComplete
import Verif.Proofs.Irreducible
import Verif.Spec.ProductComplete
import Verif.Model.GroupProduct3
/-!
# C99: the irreps of a product are the `TabulatedIrrepProduct`s
-/
namespace LieNN.Props

open Matrix NormedSpace Module LieNN LieNN.Spec LieNN.Highest LieNN.Semi

variable {n h n₁ h₁ n₂ h₂ n₃ h₃ d e : ℕ}

/-! ## The parts of a representation of a product -/

theorem leftPart_allGens_X (r : Rep (n₁ + n₂) (h₁ + h₂) d) (a : Fin n₁) :
    (leftPart r).allGens (Fin.castAdd h₁ a) = r.X (Fin.castAdd n₂ a) := allGens_left _ _

theorem leftPart_allGens_H (r : Rep (n₁ + n₂) (h₁ + h₂) d) (a : Fin h₁) :
    (leftPart r).allGens (Fin.natAdd n₁ a) = r.H (Fin.castAdd h₂ a) := allGens_right _ _

theorem rightPart_allGens_X (r : Rep (n₁ + n₂) (h₁ + h₂) d) (a : Fin n₂) :
    (rightPart r).allGens (Fin.castAdd h₂ a) = r.X (Fin.natAdd n₁ a) := allGens_left _ _

theorem rightPart_allGens_H (r : Rep (n₁ + n₂) (h₁ + h₂) d) (a : Fin h₂) :
    (rightPart r).allGens (Fin.natAdd n₂ a) = r.H (Fin.natAdd h₁ a) := allGens_right _ _

theorem forall_gens {p : Matrix (Fin d) (Fin d) ℂ → Prop} {r : Rep n h d} :
    (∀ a, p (r.allGens a)) ↔ (∀ a, p (r.X a)) ∧ ∀ a, p (r.H a) := by
  refine ⟨fun H => ⟨fun a => allGens_left r a ▸ H _, fun a => allGens_right r a ▸ H _⟩, fun H a => ?_⟩
  refine Fin.addCases (fun a => ?_) (fun a => ?_) a
  · rw [allGens_left]; exact H.1 a
  · rw [allGens_right]; exact H.2 a

theorem forall_parts {p : Matrix (Fin d) (Fin d) ℂ → Prop} {r : Rep (n₁ + n₂) (h₁ + h₂) d} :
    (∀ a, p (r.allGens a)) ↔ (∀ a, p ((leftPart r).allGens a)) ∧ ∀ a, p ((rightPart r).allGens a) := by
  rw [forall_gens, forall_gens, forall_gens]
  constructor
  · rintro ⟨h1, h2⟩
    exact ⟨⟨fun a => h1 _, fun a => h2 _⟩, fun a => h1 _, fun a => h2 _⟩
  · rintro ⟨⟨h1, h2⟩, h3, h4⟩
    exact ⟨fun a => Fin.addCases h1 h3 a, fun a => Fin.addCases h2 h4 a⟩

theorem invariant_parts {r : Rep (n₁ + n₂) (h₁ + h₂) d} {W : Submodule ℂ (Fin d → ℂ)} :
    Invariant r.allGens W ↔ Invariant (leftPart r).allGens W ∧ Invariant (rightPart r).allGens W :=
  forall_parts (p := fun M => ∀ w ∈ W, M *ᵥ w ∈ W)

section
variable {rel₁ : ∀ {d : ℕ}, Rep n₁ h₁ d → Prop} {rel₂ : ∀ {d : ℕ}, Rep n₂ h₂ d → Prop}

theorem _root_.LieNN.Spec.OfProduct.comm {r : Rep (n₁ + n₂) (h₁ + h₂) d} (H : OfProduct rel₁ rel₂ r) (a : Fin (n₁ + h₁)) (b : Fin (n₂ + h₂)) :
    (leftPart r).allGens a * (rightPart r).allGens b = (rightPart r).allGens b * (leftPart r).allGens a := by
  refine Fin.addCases (fun a => ?_) (fun a => ?_) a <;> refine Fin.addCases (fun b => ?_) (fun b => ?_) b
  · rw [leftPart_allGens_X, rightPart_allGens_X, H.xx]
  · rw [leftPart_allGens_X, rightPart_allGens_H, H.xh]
  · rw [leftPart_allGens_H, rightPart_allGens_X, H.hx]
  · rw [leftPart_allGens_H, rightPart_allGens_H, H.hh]
end

theorem product_left (r₁ : Rep n₁ h₁ d) (r₂ : Rep n₂ h₂ e) (a) :
    (leftPart (r₁.tabulatedProduct r₂)).allGens a = kron (r₁.allGens a) 1 := by
  refine Fin.addCases (fun a => ?_) (fun a => ?_) a
  · rw [leftPart_allGens_X, allGens_left]; simp [Rep.tabulatedProduct]
  · rw [leftPart_allGens_H, allGens_right]; simp [Rep.tabulatedProduct]

theorem product_right (r₁ : Rep n₁ h₁ d) (r₂ : Rep n₂ h₂ e) (a) :
    (rightPart (r₁.tabulatedProduct r₂)).allGens a = kron 1 (r₂.allGens a) := by
  refine Fin.addCases (fun a => ?_) (fun a => ?_) a
  · rw [rightPart_allGens_X, allGens_left]; simp [Rep.tabulatedProduct]
  · rw [rightPart_allGens_H, allGens_right]; simp [Rep.tabulatedProduct]

/-- The embedding at an index of the second factor. -/
def atRight (d : ℕ) {e : ℕ} (v : Fin e) : Matrix (Fin (d * e)) (Fin d) ℂ :=
  fun x u => if x = finProdFinEquiv (u, v) then 1 else 0

/-- The embedding at an index of the first factor. -/
def atLeft (e : ℕ) {d : ℕ} (u : Fin d) : Matrix (Fin (d * e)) (Fin e) ℂ :=
  fun x v => if x = finProdFinEquiv (u, v) then 1 else 0

theorem mul_atRight {k : ℕ} (M : Matrix (Fin k) (Fin (d * e)) ℂ) (v : Fin e) : M * atRight d v = fun x u => M x (finProdFinEquiv (u, v)) := by
  ext x u
  simp [Matrix.mul_apply, atRight]

theorem mul_atLeft {k : ℕ} (M : Matrix (Fin k) (Fin (d * e)) ℂ) (u : Fin d) : M * atLeft e u = fun x v => M x (finProdFinEquiv (u, v)) := by
  ext x v
  simp [Matrix.mul_apply, atLeft]

theorem kron_atRight (x : Matrix (Fin d) (Fin d) ℂ) (v : Fin e) : kron x 1 * atRight d v = atRight d v * x := by
  rw [mul_atRight]
  ext w u
  obtain ⟨⟨u', v'⟩, rfl⟩ := finProdFinEquiv.surjective w
  rw [kron_apply, Matrix.mul_apply]
  simp only [atRight, EmbeddingLike.apply_eq_iff_eq, Prod.mk.injEq, Matrix.one_apply]
  by_cases hv : v' = v <;> simp [hv]

theorem kron_atLeft (y : Matrix (Fin e) (Fin e) ℂ) (u : Fin d) : kron 1 y * atLeft e u = atLeft e u * y := by
  rw [mul_atLeft]
  ext w v
  obtain ⟨⟨u', v'⟩, rfl⟩ := finProdFinEquiv.surjective w
  rw [kron_apply, Matrix.mul_apply]
  simp only [atLeft, EmbeddingLike.apply_eq_iff_eq, Prod.mk.injEq, Matrix.one_apply]
  by_cases hv : u' = u <;> simp [hv]

theorem transpose_atRight (v : Fin e) : (atRight d v)ᵀ * atRight d v = 1 := by
  ext u u'
  simp [Matrix.mul_apply, atRight, Matrix.one_apply, eq_comm]

theorem transpose_atLeft (u : Fin d) : (atLeft e u)ᵀ * atLeft e u = 1 := by
  ext v v'
  simp [Matrix.mul_apply, atLeft, Matrix.one_apply, eq_comm]

/-- The embedding of the first summand. -/
def inlMat (d e : ℕ) : Matrix (Fin (d + e)) (Fin d) ℂ := fun x u => if x = Fin.castAdd e u then 1 else 0

/-- The embedding of the second summand. -/
def inrMat (d e : ℕ) : Matrix (Fin (d + e)) (Fin e) ℂ := fun x u => if x = Fin.natAdd d u then 1 else 0

theorem mul_inlMat {k : ℕ} (M : Matrix (Fin k) (Fin (d + e)) ℂ) : M * inlMat d e = fun x u => M x (Fin.castAdd e u) := by
  ext x u
  simp [Matrix.mul_apply, inlMat]

theorem mul_inrMat {k : ℕ} (M : Matrix (Fin k) (Fin (d + e)) ℂ) : M * inrMat d e = fun x u => M x (Fin.natAdd d u) := by
  ext x u
  simp [Matrix.mul_apply, inrMat]

theorem dsum_inlMat (x : Matrix (Fin d) (Fin d) ℂ) (y : Matrix (Fin e) (Fin e) ℂ) : dsum x y * inlMat d e = inlMat d e * x := by
  rw [mul_inlMat]
  ext i u
  rw [Matrix.mul_apply]
  refine Fin.addCases (fun i => ?_) (fun i => ?_) i
  · simp [inlMat]
  · have : ∀ j, Fin.natAdd d i ≠ Fin.castAdd e j := fun j h' => by
      have := congrArg Fin.val h'
      simp at this
      omega
    simp [inlMat, this]

theorem dsum_inrMat (x : Matrix (Fin d) (Fin d) ℂ) (y : Matrix (Fin e) (Fin e) ℂ) : dsum x y * inrMat d e = inrMat d e * y := by
  rw [mul_inrMat]
  ext i u
  rw [Matrix.mul_apply]
  refine Fin.addCases (fun i => ?_) (fun i => ?_) i
  · have : ∀ j, Fin.castAdd e i ≠ Fin.natAdd d j := fun j h' => by
      have := congrArg Fin.val h'
      simp at this
      omega
    simp [inrMat, this]
  · simp [inrMat]

/-! ## The general statements -/

section
variable {T₁ : Table n₁ h₁} {T₂ : Table n₂ h₂} {ok₁ : T₁.Ir → Prop} {ok₂ : T₂.Ir → Prop}
  {rel₁ : ∀ {d : ℕ}, Rep n₁ h₁ d → Prop} {rel₂ : ∀ {d : ℕ}, Rep n₂ h₂ d → Prop}

theorem exists_label_left (H₁ : CompleteTable T₁ ok₁ rel₁) {r : Rep n₁ h₁ d} (hr : rel₁ r) {d₂ d₁ : ℕ}
    {x : Fin (n₁ + h₁) → Matrix (Fin d₁) (Fin d₁) ℂ} (hx : IrreducibleFamily x) (h2 : 0 < d₂) {Q : Matrix (Fin d) (Fin (d₁ * d₂)) ℂ}
    {P : Matrix (Fin (d₁ * d₂)) (Fin d) ℂ} (hPQ : P * Q = 1) (hQ : ∀ a, r.allGens a * Q = Q * kron (x a) 1) :
    ∃ i, ok₁ i ∧ Equivalent x (T₁.rep i).allGens := by
  obtain ⟨s, hb, rfl⟩ := exists_block r (V := Q * atRight d₁ ⟨0, h2⟩) (P := (atRight d₁ ⟨0, h2⟩)ᵀ * P) (Y := x)
    (by rw [Matrix.mul_assoc, ← Matrix.mul_assoc P, hPQ, Matrix.one_mul, transpose_atRight])
    (fun a => by rw [← Matrix.mul_assoc, hQ, Matrix.mul_assoc, kron_atRight, Matrix.mul_assoc])
  exact H₁.label (H₁.sub _ _ hb.inv hb.X hb.H hb.A hr) hx

theorem exists_label_right (H₂ : CompleteTable T₂ ok₂ rel₂) {r : Rep n₂ h₂ d} (hr : rel₂ r) {d₂ d₁ : ℕ}
    {y : Fin (n₂ + h₂) → Matrix (Fin d₂) (Fin d₂) ℂ} (hy : IrreducibleFamily y) (h1 : 0 < d₁) {Q : Matrix (Fin d) (Fin (d₁ * d₂)) ℂ}
    {P : Matrix (Fin (d₁ * d₂)) (Fin d) ℂ} (hPQ : P * Q = 1) (hQ : ∀ a, r.allGens a * Q = Q * kron 1 (y a)) :
    ∃ i, ok₂ i ∧ Equivalent y (T₂.rep i).allGens := by
  obtain ⟨s, hb, rfl⟩ := exists_block r (V := Q * atLeft d₂ ⟨0, h1⟩) (P := (atLeft d₂ ⟨0, h1⟩)ᵀ * P) (Y := y)
    (by rw [Matrix.mul_assoc, ← Matrix.mul_assoc P, hPQ, Matrix.one_mul, transpose_atLeft])
    (fun a => by rw [← Matrix.mul_assoc, hQ, Matrix.mul_assoc, kron_atLeft, Matrix.mul_assoc])
  exact H₂.label (H₂.sub _ _ hb.inv hb.X hb.H hb.A hr) hy

/-- Tensoring labels of the factors. -/
theorem equivalent_product {r : Rep (n₁ + n₂) (h₁ + h₂) d} {d₁ d₂ e₁ e₂ : ℕ} {x : Fin (n₁ + h₁) → Matrix (Fin d₁) (Fin d₁) ℂ}
    {y : Fin (n₂ + h₂) → Matrix (Fin d₂) (Fin d₂) ℂ} {Q : Matrix (Fin d) (Fin (d₁ * d₂)) ℂ} {P : Matrix (Fin (d₁ * d₂)) (Fin d) ℂ}
    (hQP : Q * P = 1) (hPQ : P * Q = 1) (hQx : ∀ a, (leftPart r).allGens a * Q = Q * kron (x a) 1)
    (hQy : ∀ a, (rightPart r).allGens a * Q = Q * kron 1 (y a)) {r₁ : Rep n₁ h₁ e₁} {r₂ : Rep n₂ h₂ e₂}
    (E₁ : Equivalent x r₁.allGens) (E₂ : Equivalent y r₂.allGens) : Equivalent r.allGens (r₁.tabulatedProduct r₂).allGens := by
  obtain ⟨Q₁, P₁, a1, a2, a3⟩ := E₁
  obtain ⟨Q₂, P₂, b1, b2, b3⟩ := E₂
  refine ⟨Q * kron Q₁ Q₂, kron P₁ P₂ * P, ?_, ?_, ?_⟩
  · rw [Matrix.mul_assoc, ← Matrix.mul_assoc (kron Q₁ Q₂), kron_mul, a1, b1, kron_one, Matrix.one_mul, hQP]
  · rw [Matrix.mul_assoc, ← Matrix.mul_assoc P, hPQ, Matrix.one_mul, kron_mul, a2, b2, kron_one]
  · have k1 : ∀ a, (leftPart r).allGens a * (Q * kron Q₁ Q₂) = Q * kron Q₁ Q₂ * (leftPart (r₁.tabulatedProduct r₂)).allGens a := by
      intro a
      rw [product_left, ← Matrix.mul_assoc, hQx, Matrix.mul_assoc, Matrix.mul_assoc, kron_mul, kron_mul, a3, Matrix.one_mul, Matrix.mul_one]
    have k2 : ∀ a, (rightPart r).allGens a * (Q * kron Q₁ Q₂) = Q * kron Q₁ Q₂ * (rightPart (r₁.tabulatedProduct r₂)).allGens a := by
      intro a
      rw [product_right, ← Matrix.mul_assoc, hQy, Matrix.mul_assoc, Matrix.mul_assoc, kron_mul, kron_mul, b3, Matrix.one_mul, Matrix.mul_one]
    intro a
    refine Fin.addCases (fun a => ?_) (fun a => ?_) a <;> refine Fin.addCases (fun a => ?_) (fun a => ?_) a
    · have := k1 (Fin.castAdd _ a)
      rw [leftPart_allGens_X, leftPart_allGens_X] at this
      rwa [allGens_left, allGens_left]
    · have := k2 (Fin.castAdd _ a)
      rw [rightPart_allGens_X, rightPart_allGens_X] at this
      rwa [allGens_left, allGens_left]
    · have := k1 (Fin.natAdd _ a)
      rw [leftPart_allGens_H, leftPart_allGens_H] at this
      rwa [allGens_right, allGens_right]
    · have := k2 (Fin.natAdd _ a)
      rw [rightPart_allGens_H, rightPart_allGens_H] at this
      rwa [allGens_right, allGens_right]

/-- C99: `group_product` of two representations of the classes is a representation of the product of the classes. -/
theorem C99_group_product (H₁ : CompleteTable T₁ ok₁ rel₁) (H₂ : CompleteTable T₂ ok₂ rel₂) {r₁ : Rep n₁ h₁ d} {r₂ : Rep n₂ h₂ e}
    (hd : 0 < d) (he : 0 < e) (i₁ : rel₁ r₁) (i₂ : rel₂ r₂) : OfProduct rel₁ rel₂ (r₁.groupProduct r₂) := by
  have hl : ∀ a, (leftPart (r₁.groupProduct r₂)).X a = kron (r₁.X a) 1 := fun a => by simp [leftPart, Rep.groupProduct]
  have hl' : ∀ a, (leftPart (r₁.groupProduct r₂)).H a = kron (r₁.H a) 1 := fun a => by simp [leftPart, Rep.groupProduct]
  have hr : ∀ a, (rightPart (r₁.groupProduct r₂)).X a = kron 1 (r₂.X a) := fun a => by simp [rightPart, Rep.groupProduct]
  have hr' : ∀ a, (rightPart (r₁.groupProduct r₂)).H a = kron 1 (r₂.H a) := fun a => by simp [rightPart, Rep.groupProduct]
  have comm : ∀ (x : Matrix (Fin d) (Fin d) ℂ) (y : Matrix (Fin e) (Fin e) ℂ),
      kron x (1 : Matrix (Fin e) (Fin e) ℂ) * kron (1 : Matrix (Fin d) (Fin d) ℂ) y =
        kron (1 : Matrix (Fin d) (Fin d) ℂ) y * kron x (1 : Matrix (Fin e) (Fin e) ℂ) :=
    fun x y => by rw [kron_mul, kron_mul, Matrix.one_mul, Matrix.one_mul, Matrix.mul_one, Matrix.mul_one]
  refine ⟨(C28_group_product _ _).2.2.2.1, fun a b => ?_, fun a b => ?_, fun a b => ?_, fun a b => ?_,
    H₁.sum (⟨0, he⟩ : Fin e) (s := fun _ => r₁) (atRight d) ?_ (fun k a => ?_) (fun k a => ?_) (fun _ => ?_) fun _ => i₁,
    H₂.sum (⟨0, hd⟩ : Fin d) (s := fun _ => r₂) (atLeft e) ?_ (fun k a => ?_) (fun k a => ?_) (fun _ => ?_) fun _ => i₂⟩
  · have := comm (r₁.X a) (r₂.X b)
    rwa [← hl, ← hr] at this
  · have := comm (r₁.X a) (r₂.H b)
    rwa [← hl, ← hr'] at this
  · have := comm (r₁.H a) (r₂.X b)
    rwa [← hl', ← hr] at this
  · have := comm (r₁.H a) (r₂.H b)
    rwa [← hl', ← hr'] at this
  · intro M N hMN
    ext x w
    obtain ⟨⟨u, v⟩, rfl⟩ := finProdFinEquiv.surjective w
    have := hMN v
    rw [mul_atRight, mul_atRight] at this
    exact congrFun (congrFun this x) u
  · rw [hl, kron_atRight]
  · rw [hl', kron_atRight]
  · funext a b c
    exact (C28_group_product r₁ r₂).2.1 a b c
  · intro M N hMN
    ext x w
    obtain ⟨⟨u, v⟩, rfl⟩ := finProdFinEquiv.surjective w
    have := hMN u
    rw [mul_atLeft, mul_atLeft] at this
    exact congrFun (congrFun this x) v
  · rw [hr, kron_atLeft]
  · rw [hr', kron_atLeft]
  · funext a b c
    exact (C28_group_product r₁ r₂).2.2.1 a b c

/-- C99: if the labels of two tables are all the irreps of two classes of representations, then the `TabulatedIrrepProduct`s of the
labels are all the irreps of the product of the classes. -/
theorem C99_product (H₁ : CompleteTable T₁ ok₁ rel₁) (H₂ : CompleteTable T₂ ok₂ rel₂) :
    CompleteTable (T₁.product T₂) (fun i => ok₁ i.1 ∧ ok₂ i.2) (OfProduct rel₁ rel₂) where
  sub := by
    intro d e r s V P hPV hX hH hA hr
    have cancel : ∀ {M N : Matrix (Fin e) (Fin e) ℂ}, V * M = V * N → M = N := fun {M N} h' => by
      have := congrArg (P * ·) h'
      simpa only [← Matrix.mul_assoc, hPV, Matrix.one_mul] using this
    have two : ∀ {x y : Matrix (Fin d) (Fin d) ℂ} {x' y' : Matrix (Fin e) (Fin e) ℂ}, x * V = V * x' → y * V = V * y' → x * y = y * x →
        x' * y' = y' * x' := fun {x y x' y'} h1 h2 h3 => cancel (by
      rw [← Matrix.mul_assoc, ← Matrix.mul_assoc, ← h1, ← h2, Matrix.mul_assoc, Matrix.mul_assoc, ← h1, ← h2, ← Matrix.mul_assoc,
        ← Matrix.mul_assoc, h3])
    exact ⟨hA ▸ hr.zero, fun a b => two (hX _) (hX _) (hr.xx a b), fun a b => two (hX _) (hH _) (hr.xh a b),
      fun a b => two (hH _) (hX _) (hr.hx a b), fun a b => two (hH _) (hH _) (hr.hh a b),
      H₁.sub V P hPV (fun a => hX _) (fun a => hH _) (by unfold leftPart; rw [hA]) hr.left,
      H₂.sub V P hPV (fun a => hX _) (fun a => hH _) (by unfold rightPart; rw [hA]) hr.right⟩
  sum := by
    intro d ι k₀ e r s V hV hX hH hA hr
    have two : ∀ {x y : Matrix (Fin d) (Fin d) ℂ} {x' y' : ∀ k, Matrix (Fin (e k)) (Fin (e k)) ℂ}, (∀ k, x * V k = V k * x' k) →
        (∀ k, y * V k = V k * y' k) → (∀ k, x' k * y' k = y' k * x' k) → x * y = y * x := fun {x y x' y'} h1 h2 h3 => hV _ _ fun k => by
      rw [Matrix.mul_assoc, Matrix.mul_assoc, h1, h2, ← Matrix.mul_assoc, ← Matrix.mul_assoc, h1, h2, Matrix.mul_assoc,
        Matrix.mul_assoc, h3]
    exact ⟨hA k₀ ▸ (hr k₀).zero, fun a b => two (hX · _) (hX · _) fun k => (hr k).xx a b,
      fun a b => two (hX · _) (hH · _) fun k => (hr k).xh a b, fun a b => two (hH · _) (hX · _) fun k => (hr k).hx a b,
      fun a b => two (hH · _) (hH · _) fun k => (hr k).hh a b,
      H₁.sum k₀ (s := fun k => leftPart (s k)) V hV (fun k a => hX k _) (fun k a => hH k _) (fun k => by unfold leftPart; rw [hA k])
        fun k => (hr k).left,
      H₂.sum k₀ (s := fun k => rightPart (s k)) V hV (fun k a => hX k _) (fun k a => hH k _) (fun k => by unfold rightPart; rw [hA k])
        fun k => (hr k).right⟩
  semisimple := by
    intro d r hr
    have := semisimple_append hr.comm (H₁.semisimple hr.left) (H₂.semisimple hr.right)
    intro W hW
    obtain ⟨W', h1, h2⟩ := this W (invariant_append.2 (invariant_parts.1 hW))
    exact ⟨W', invariant_parts.2 (invariant_append.1 h1), h2⟩
  label := by
    intro d r hr hirr
    obtain ⟨d₁, d₂, x, y, hx, hy, Q, P, hQP, hPQ, hQx, hQy⟩ := split_irreducible hirr.1 hr.comm fun W hW hW' =>
      hirr.2 W (invariant_parts.2 ⟨hW, hW'⟩)
    obtain ⟨i, hi, Q₁, P₁, a1, a2, a3⟩ := exists_label_left H₁ hr.left hx hy.1 hPQ hQx
    obtain ⟨j, hj, Q₂, P₂, b1, b2, b3⟩ := exists_label_right H₂ hr.right hy hx.1 hPQ hQy
    exact ⟨(i, j), ⟨hi, hj⟩, equivalent_product hQP hPQ hQx hQy ⟨Q₁, P₁, a1, a2, a3⟩ ⟨Q₂, P₂, b1, b2, b3⟩⟩
  pos := fun i => Nat.mul_pos (H₁.pos i.1) (H₂.pos i.2)
  own := by
    rintro ⟨i, j⟩ ⟨hi, hj⟩
    have := C99_group_product H₁ H₂ (H₁.pos i) (H₂.pos j) (H₁.own i hi) (H₂.own j hj)
    rwa [← C28_tabulated_product] at this
end

section
variable {T : Table n h} {ok : T.Ir → Prop} {rel : ∀ {d : ℕ}, Rep n h d → Prop}

/-- C99: the class is closed under `direct_sum`. -/
theorem C99_direct_sum (H : CompleteTable T ok rel) {r : Rep n h d} {s : Rep n h e} (hr : rel r) (hs : rel s) (hA : r.A = s.A) :
    rel (r.directSum s) := by
  refine H.sum (ι := Bool) true (e := fun b => cond b d e) (s := fun b => match b with | true => r | false => s)
    (fun b => match b with | true => inlMat d e | false => inrMat d e) ?_ ?_ ?_ ?_ ?_
  · intro M N hMN
    ext x y
    refine Fin.addCases (fun y => ?_) (fun y => ?_) y
    · have h1 : M * inlMat d e = N * inlMat d e := hMN true
      rw [mul_inlMat, mul_inlMat] at h1
      exact congrFun (congrFun h1 x) y
    · have h1 : M * inrMat d e = N * inrMat d e := hMN false
      rw [mul_inrMat, mul_inrMat] at h1
      exact congrFun (congrFun h1 x) y
  · rintro (_ | _) a
    · exact dsum_inrMat _ _
    · exact dsum_inlMat _ _
  · rintro (_ | _) a
    · exact dsum_inrMat _ _
    · exact dsum_inlMat _ _
  · rintro (_ | _)
    · exact hA
    · rfl
  · rintro (_ | _)
    · exact hs
    · exact hr

/-- C99: in a complete table with Schur's lemma the labels are irreducible, and an irreducible representation of the class has
exactly one label. -/
theorem C99_unique (H : CompleteTable T ok rel) (hT : Schur T) :
    (∀ i, ok i → IrreducibleFamily (T.rep i).allGens) ∧
    ∀ {d : ℕ} {r : Rep n h d}, rel r → IrreducibleFamily r.allGens → ∃! i, ok i ∧ Equivalent r.allGens (T.rep i).allGens := by
  classical
  have hpos := H.pos
  refine ⟨fun i hi => irreducible_of_semisimple (H.semisimple (H.own i hi)) ((finrank_schur hT hpos i i).trans (if_pos rfl)),
    fun hr hirr => ?_⟩
  obtain ⟨i, hi, hE⟩ := H.label hr hirr
  refine ⟨i, ⟨hi, hE⟩, fun j hj => ?_⟩
  by_contra hne
  have h1 := (hE.symm.trans hj.2).intertwiner (hpos i)
  have h2 := finrank_schur hT hpos i j
  rw [if_neg (fun h' => hne h'.symm)] at h2
  exact h1 (Submodule.finrank_eq_zero.1 h2)

/-- C99: every representation of the class is a `ReducedRep` of labels. -/
theorem C99_reduced (H : CompleteTable T ok rel) (hn : n ≠ 0) (hd : 0 < d) {r : Rep n h d} (hr : rel r) :
    ∃ R : ReducedRep T, Acts R r ∧ ∀ m ∈ R.irreps, ok m.ir := by
  obtain ⟨R, h1, h2⟩ := C93_general hn hd ok (H.semisimple hr) fun s V P hb hirr =>
    H.label (H.sub V P hb.inv hb.X hb.H hb.A hr) hirr
  exact ⟨R, h1, fun m hm => (h2 m hm).2⟩
end

/-! ## The tables -/

/-- Representations with the structure constants of `SU2`. -/
def OfSU2 {d : ℕ} (r : Rep 3 0 d) : Prop := r.A = SU2.algebra ∧ IsRep r

/-- Representations with the structure constants of `SL2C`. -/
def OfSL2C {d : ℕ} (r : Rep 6 0 d) : Prop := r.A = SL2C.algebra ∧ IsRep r

/-- Representations with the structure constants of `SO3`, that are one where `SO3(1)` is. -/
def OfSO3 {d : ℕ} (r : Rep 3 0 d) : Prop := r.A = SU2.algebra ∧ IsRep r ∧ KernelSO3 r

/-- The same with an involution that commutes with the generators. -/
def OfO3 {d : ℕ} (r : Rep 3 1 d) : Prop :=
  r.A = SU2.algebra ∧ IsRep r ∧ KernelSO3 (⟨r.A, r.X, Fin.elim0⟩ : Rep 3 0 d) ∧ r.H 0 * r.H 0 = 1 ∧ ∀ a, r.H 0 * r.X a = r.X a * r.H 0

/-- An involution. -/
def OfZ2 {d : ℕ} (r : Rep 0 1 d) : Prop := r.H 0 * r.H 0 = 1

theorem isRep_sum {ι : Type} {e : ι → ℕ} {r : Rep n h d} {s : ∀ k, Rep n h (e k)} (V : ∀ k, Matrix (Fin d) (Fin (e k)) ℂ)
    (hV : ∀ M N : Matrix (Fin d) (Fin d) ℂ, (∀ k, M * V k = N * V k) → M = N) (hX : ∀ k a, r.X a * V k = V k * (s k).X a)
    (hA : ∀ k, r.A = (s k).A) (hs : ∀ k, IsRep (s k)) : IsRep r := by
  intro i j
  refine hV _ _ fun k => ?_
  rw [Matrix.sub_mul, Matrix.mul_assoc, Matrix.mul_assoc, hX, hX, ← Matrix.mul_assoc, ← Matrix.mul_assoc, hX, hX, Matrix.mul_assoc,
    Matrix.mul_assoc, ← Matrix.mul_sub, hs k i j, Matrix.sum_mul, Matrix.mul_sum]
  refine Finset.sum_congr rfl fun c _ => ?_
  rw [Matrix.smul_mul, Matrix.mul_smul, hX, hA k]

theorem kernel_sum {ι : Type} {e : ι → ℕ} {r : Rep 3 0 d} {s : ∀ k, Rep 3 0 (e k)} (V : ∀ k, Matrix (Fin d) (Fin (e k)) ℂ)
    (hV : ∀ M N : Matrix (Fin d) (Fin d) ℂ, (∀ k, M * V k = N * V k) → M = N) (hX : ∀ k a, r.X a * V k = V k * (s k).X a)
    (hs : ∀ k, KernelSO3 (s k)) : KernelSO3 r := by
  intro c hc
  rw [expMap_zero]
  congr 1
  refine hV _ _ fun k => ?_
  rw [expMap_intertwine (r := s k) (s := r) (Q := V k) (hX k) (fun a => a.elim0) (hs k c hc) (expMap_zero r _ _), Matrix.one_mul, Matrix.mul_one]

theorem square_sum {ι : Type} {e : ι → ℕ} {x y : Matrix (Fin d) (Fin d) ℂ} {x' y' : ∀ k, Matrix (Fin (e k)) (Fin (e k)) ℂ}
    (V : ∀ k, Matrix (Fin d) (Fin (e k)) ℂ) (hV : ∀ M N : Matrix (Fin d) (Fin d) ℂ, (∀ k, M * V k = N * V k) → M = N)
    (hx : ∀ k, x * V k = V k * x' k) (hy : ∀ k, y * V k = V k * y' k) :
    ((∀ k, x' k * y' k = 1) → x * y = 1) ∧ ((∀ k, x' k * y' k = y' k * x' k) → x * y = y * x) := by
  refine ⟨fun h1 => hV _ _ fun k => ?_, fun h1 => hV _ _ fun k => ?_⟩
  · rw [Matrix.mul_assoc, hy, ← Matrix.mul_assoc, hx, Matrix.mul_assoc, h1, Matrix.one_mul, Matrix.mul_one]
  · rw [Matrix.mul_assoc, Matrix.mul_assoc, hx, hy, ← Matrix.mul_assoc, ← Matrix.mul_assoc, hx, hy, Matrix.mul_assoc,
      Matrix.mul_assoc, h1]

theorem square_sub {x y : Matrix (Fin d) (Fin d) ℂ} {x' y' : Matrix (Fin e) (Fin e) ℂ} {V : Matrix (Fin d) (Fin e) ℂ}
    {P : Matrix (Fin e) (Fin d) ℂ} (hPV : P * V = 1) (hx : x * V = V * x') (hy : y * V = V * y') :
    (x * y = 1 → x' * y' = 1) ∧ (x * y = y * x → x' * y' = y' * x') := by
  have cancel : ∀ {M N : Matrix (Fin e) (Fin e) ℂ}, V * M = V * N → M = N := fun {M N} h' => by
    have := congrArg (P * ·) h'
    simpa only [← Matrix.mul_assoc, hPV, Matrix.one_mul] using this
  refine ⟨fun h1 => cancel ?_, fun h1 => cancel ?_⟩
  · rw [← Matrix.mul_assoc, ← hx, Matrix.mul_assoc, ← hy, ← Matrix.mul_assoc, h1, Matrix.one_mul, Matrix.mul_one]
  · rw [← Matrix.mul_assoc, ← Matrix.mul_assoc, ← hx, ← hy, Matrix.mul_assoc, Matrix.mul_assoc, ← hx, ← hy, ← Matrix.mul_assoc,
      ← Matrix.mul_assoc, h1]

theorem kernel_so3 (l : ℕ) : KernelSO3 (SO3.rep l) := by
  intro c hc
  obtain ⟨ρ, hρ, -⟩ := C90_so3 l
  have := hρ c 1 (by rw [hc]; congr 1; exact (map_one (ofRealMat 3)).symm)
  rw [this, map_one]
  congr 1
  exact map_one (ofRealMat _)

/-- C99: `SU2`. -/
theorem C99_su2 : CompleteTable SU2.table (fun _ => True) OfSU2 where
  sub := fun V P h1 h2 h3 h4 hr => ⟨h4.trans hr.1, Block.isRep ⟨h1, h2, h3, h4⟩ hr.2⟩
  sum := by
    intro d ι k₀ e r s V h1 h2 h3 h4 hs
    exact ⟨(h4 k₀).trans (hs k₀).1, isRep_sum V h1 h2 h4 fun k => (hs k).2⟩
  semisimple := fun hr => semisimple_allGens.2 (C93_su2_semisimple hr.1 hr.2)
  label := fun hr hirr => by
    obtain ⟨j, hj, -⟩ := C92_su2 hr.1 hr.2 (irreducible_allGens.1 hirr)
    exact ⟨j, trivial, equivalent_allGens (s := SU2.rep j) hj⟩
  pos := su2_fine.good.pos
  own := fun j _ => ⟨rfl, SU2.isRep j⟩

/-- C99: `SL2C`. -/
theorem C99_sl2c : CompleteTable SL2C.table (fun _ => True) OfSL2C where
  sub := fun V P h1 h2 h3 h4 hr => ⟨h4.trans hr.1, Block.isRep ⟨h1, h2, h3, h4⟩ hr.2⟩
  sum := by
    intro d ι k₀ e r s V h1 h2 h3 h4 hs
    exact ⟨(h4 k₀).trans (hs k₀).1, isRep_sum V h1 h2 h4 fun k => (hs k).2⟩
  semisimple := fun hr => semisimple_allGens.2 (C93_sl2c_semisimple hr.1 hr.2)
  label := fun hr hirr => by
    obtain ⟨j, hj, -⟩ := C92_sl2c hr.1 hr.2 (irreducible_allGens.1 hirr)
    exact ⟨j, trivial, equivalent_allGens (s := SL2C.rep j) hj⟩
  pos := sl2c_fine.good.pos
  own := fun j _ => ⟨rfl, SL2C.isRep j⟩

/-- C99: `SO3`. -/
theorem C99_so3 : CompleteTable SO3.table (fun _ => True) OfSO3 where
  sub := fun V P h1 h2 h3 h4 hr => ⟨h4.trans hr.1, Block.isRep ⟨h1, h2, h3, h4⟩ hr.2.1,
    fun c hc => Block.exp_one ⟨h1, h2, h3, h4⟩ (hr.2.2 c hc)⟩
  sum := by
    intro d ι k₀ e r s V h1 h2 h3 h4 hs
    exact ⟨(h4 k₀).trans (hs k₀).1, isRep_sum V h1 h2 h4 fun k => (hs k).2.1,
    kernel_sum V h1 h2 fun k => (hs k).2.2⟩
  semisimple := fun hr => semisimple_allGens.2 (C93_su2_semisimple hr.1 hr.2.1)
  label := fun hr hirr => by
    obtain ⟨l, hl⟩ := exists_so3_label hr.1 hr.2.1 (irreducible_allGens.1 hirr) hr.2.2
    exact ⟨l, trivial, equivalent_allGens (s := SO3.rep l) hl⟩
  pos := so3_fine.good.pos
  own := fun l _ => ⟨rfl, so3_fine.isRep l, kernel_so3 l⟩

/-- C99: `O3`. -/
theorem C99_o3 : CompleteTable O3.table (fun s : O3 => s.p = 1 ∨ s.p = -1) OfO3 where
  sub := fun {d e r s} V P h1 h2 h3 h4 hr => ⟨h4.trans hr.1, Block.isRep ⟨h1, h2, h3, h4⟩ hr.2.1,
    fun c hc => Block.exp_one (r := (⟨r.A, r.X, Fin.elim0⟩ : Rep 3 0 d)) (s := (⟨s.A, s.X, Fin.elim0⟩ : Rep 3 0 e))
      ⟨h1, h2, fun a => a.elim0, h4⟩ (hr.2.2.1 c hc),
    (square_sub h1 (h3 0) (h3 0)).1 hr.2.2.2.1, fun a => (square_sub h1 (h3 0) (h2 a)).2 (hr.2.2.2.2 a)⟩
  sum := by
    intro d ι k₀ e r s V h1 h2 h3 h4 hs
    exact ⟨(h4 k₀).trans (hs k₀).1, isRep_sum V h1 h2 h4 fun k => (hs k).2.1,
    kernel_sum (r := (⟨r.A, r.X, Fin.elim0⟩ : Rep 3 0 d)) (s := fun k => (⟨(s k).A, (s k).X, Fin.elim0⟩ : Rep 3 0 (e k))) V h1 h2
      fun k => (hs k).2.2.1,
    (square_sum V h1 (h3 · 0) (h3 · 0)).1 fun k => (hs k).2.2.2.1,
    fun a => (square_sum V h1 (h3 · 0) (h2 · a)).2 fun k => (hs k).2.2.2.2 a⟩
  semisimple := fun hr => weyl_involution (A := SU2.algebra) reductive_su2 (hr.1 ▸ hr.2.1) hr.2.2.2.1 hr.2.2.2.2
  label := fun {d r} hr hirr => by
    obtain ⟨p, hp, hH⟩ := scalar_of_square hr.2.2.2.1 hr.2.2.2.2 hirr
    obtain ⟨l, hl⟩ := exists_so3_label (r := (⟨r.A, r.X, Fin.elim0⟩ : Rep 3 0 d)) hr.1 hr.2.1 (irreducible_of_scalar hH hirr) hr.2.2.1
    exact ⟨⟨l, p⟩, hp, equivalent_withScalar (s := O3.rep ⟨l, p⟩) hH rfl hl⟩
  pos := o3_fine.good.pos
  own := fun (s : O3) hs => by
    have hH : (O3.rep s).H 0 = (s.p : ℂ) • 1 := rfl
    refine ⟨rfl, o3_fine.isRep s, kernel_so3 s.l, ?_, fun a => ?_⟩
    · refine Eq.trans (b := (O3.rep s).H 0 * (O3.rep s).H 0) rfl ?_
      rw [hH, Matrix.smul_mul, Matrix.one_mul, smul_smul]
      rcases hs with h' | h' <;> rw [h'] <;> simp <;> rfl
    · refine Eq.trans (b := (O3.rep s).H 0 * (O3.rep s).X a) rfl (Eq.trans (b := (O3.rep s).X a * (O3.rep s).H 0) ?_ rfl)
      rw [hH, Matrix.smul_mul, Matrix.one_mul, Matrix.mul_smul, Matrix.mul_one]

/-- C99: `Z2`. -/
theorem C99_z2 : CompleteTable Z2.table (fun p : ℤ => p = 1 ∨ p = -1) OfZ2 where
  sub := fun V P h1 h2 h3 h4 hr => (square_sub h1 (h3 0) (h3 0)).1 hr
  sum := by
    intro d ι k₀ e r s V h1 h2 h3 h4 hs
    exact (square_sum V h1 (h3 · 0) (h3 · 0)).1 hs
  semisimple := fun {d r} hr => weyl_involution (A := fun a => a.elim0) (g := fun a => a.elim0)
    ⟨fun _ _ _ _ _ c => c.elim0, fun _ _ _ _ _ _ _ c => c.elim0, fun _ _ _ _ c => c.elim0⟩ (fun a => a.elim0) hr fun a => a.elim0
  label := fun hr hirr => by
    obtain ⟨p, hp, -⟩ := C92_z2 hr hirr
    exact ⟨p, hp⟩
  pos := z2_fine.good.pos
  own := fun (p : ℤ) hp => by
    have hH : (Z2.rep p).H 0 = (p : ℂ) • 1 := rfl
    refine Eq.trans (b := (Z2.rep p).H 0 * (Z2.rep p).H 0) rfl ?_
    rw [hH, Matrix.smul_mul, Matrix.one_mul, smul_smul]
    rcases hp with h' | h' <;> rw [h'] <;> simp <;> rfl

/-- C99: a table of labels of `SUN` in which the accepted ones occur. -/
theorem C99_sun {N d₀ : ℕ} (h2 : 2 ≤ N) {S₀ : List ℤ} (hm : SUN.make S₀ = .ok S₀) (hl : S₀.length = N)
    (hd : SUN.dim (SUN.defining N) = .ok (d₀ : ℤ))
    {pinv : Matrix (Fin (N ^ 2 - 1)) (Fin (d₀ * d₀)) ℂ → Matrix (Fin (d₀ * d₀)) (Fin (N ^ 2 - 1)) ℂ}
    (hpinv : PinvOK pinv (SUN.defining N)) {T : Table (N ^ 2 - 1) 0} (hpos : ∀ i, 0 < T.dim i)
    (hT : ∀ S, SUN.make S = .ok S → S.length = N → ∃ i, SUN.IsLabel N S (T.rep i)) (ok : T.Ir → Prop)
    (hok : ∀ i, (∃ S, SUN.IsLabel N S (T.rep i)) → ok i)
    (hown : ∀ i, ok i → IsRep (T.rep i) ∧ ∃ F, ∀ fuel ≥ F, SUN.sunAlgebra fuel d₀ (N ^ 2 - 1) pinv S₀ = some (.ok (T.rep i).A)) :
    CompleteTable T ok
      fun r => (∃ F, ∀ fuel ≥ F, SUN.sunAlgebra fuel d₀ (N ^ 2 - 1) pinv S₀ = some (.ok r.A)) ∧ IsRep r where
  sub := fun V P h1 h2 h3 h4 hr => ⟨h4 ▸ hr.1, Block.isRep ⟨h1, h2, h3, h4⟩ hr.2⟩
  sum := by
    intro d ι k₀ e r s V h1 h2 h3 h4 hs
    exact ⟨(h4 k₀) ▸ (hs k₀).1, isRep_sum V h1 h2 h4 fun k => (hs k).2⟩
  semisimple := fun hr => semisimple_allGens.2 (C93_sun_semisimple h2 hm hl hd hpinv hr.1 hr.2)
  label := fun {d s} hr hirr => by
    obtain ⟨S, ⟨e', t, hS, hE⟩, -⟩ := C92_sun h2 (r := s) hm hl hd pinv hpinv hr.1 hr.2 (irreducible_allGens.1 hirr)
    obtain ⟨i, hi⟩ := hT S hS.m hS.l
    exact ⟨i, hok i ⟨S, hi⟩, equivalent_allGens (hE.trans (label_unique hS hi))⟩
  pos := hpos
  own := fun i hi => ⟨(hown i hi).2, (hown i hi).1⟩

/-- C99: what `exp_map` computes on the rotations and on the orthogonal matrices. -/
theorem C99_computes : (∀ {d : ℕ} {r : Rep 3 0 d} {ρ : specialOrthogonalGroup (Fin 3) ℝ →* Matrix (Fin d) (Fin d) ℂ},
      r.A = SU2.algebra → IsRep r → ComputesSO3 r ρ → OfSO3 r) ∧
    ∀ {d : ℕ} {r : Rep 3 1 d} {ρ : orthogonalGroup (Fin 3) ℝ →* Matrix (Fin d) (Fin d) ℂ},
      r.A = SU2.algebra → IsRep r → ComputesO3 r ρ → OfO3 r :=
  ⟨fun hA hr hρ => ⟨hA, hr, hρ.kernel⟩, fun hA hr hρ => ⟨hA, hr, hρ.rotations.choose_spec.kernel, hρ.sq, hρ.comm⟩⟩

/-! ## Three factors -/

section
variable {d₁ d₂ d₃ : ℕ}

theorem kron_kron {a b c a' b' c' : ℕ} (x : Matrix (Fin a) (Fin a') ℂ) (y : Matrix (Fin b) (Fin b') ℂ) (z : Matrix (Fin c) (Fin c') ℂ)
    (i : Fin (a * b * c)) (j : Fin (a' * b' * c')) :
    kron (kron x y) z i j = kron x (kron y z) (Fin.cast (Nat.mul_assoc a b c) i) (Fin.cast (Nat.mul_assoc a' b' c') j) := by
  have h1 : ∀ {a b c : ℕ} (i : Fin (a * b * c)), (Fin.cast (Nat.mul_assoc a b c) i).divNat = i.divNat.divNat := fun {a b c} i => by
    apply Fin.ext
    exact (congrArg (i.1 / ·) (Nat.mul_comm b c)).trans (Nat.div_div_eq_div_mul _ _ _).symm
  have h2 : ∀ {a b c : ℕ} (i : Fin (a * b * c)), (Fin.cast (Nat.mul_assoc a b c) i).modNat.divNat = i.divNat.modNat := fun {a b c} i => by
    apply Fin.ext
    exact Nat.mod_mul_left_div_self _ _ _
  have h3 : ∀ {a b c : ℕ} (i : Fin (a * b * c)), (Fin.cast (Nat.mul_assoc a b c) i).modNat.modNat = i.modNat := fun {a b c} i => by
    apply Fin.ext
    change i.1 % (b * c) % c = i.1 % c
    exact Nat.mod_mul_left_mod _ _ _
  unfold kron
  rw [h1, h1, h2, h2, h3, h3, mul_assoc]

theorem cast_castAdd₂ {a b c : ℕ} (i : Fin a) : Fin.cast (Nat.add_assoc a b c) (Fin.castAdd c (Fin.castAdd b i)) = Fin.castAdd (b + c) i :=
  Fin.ext rfl

theorem cast_natAdd_castAdd {a b c : ℕ} (i : Fin b) :
    Fin.cast (Nat.add_assoc a b c) (Fin.castAdd c (Fin.natAdd a i)) = Fin.natAdd a (Fin.castAdd c i) := Fin.ext rfl

theorem cast_natAdd₂ {a b c : ℕ} (i : Fin c) :
    Fin.cast (Nat.add_assoc a b c) (Fin.natAdd (a + b) i) = Fin.natAdd a (Fin.natAdd b i) := Fin.ext (Nat.add_assoc _ _ _)

/-- C99: `group_product` of three arguments does not depend on the bracketing, and on labels computes the arrays that it computes
on the representations. -/
theorem C99_three (r₁ : Rep n₁ h₁ d₁) (r₂ : Rep n₂ h₂ d₂) (r₃ : Rep n₃ h₃ d₃) :
    (∀ a i j, (r₁.groupProduct3 r₂ r₃).X a i j = (r₁.groupProduct (r₂.groupProduct r₃)).X (Fin.cast (Nat.add_assoc _ _ _) a)
      (Fin.cast (Nat.mul_assoc _ _ _) i) (Fin.cast (Nat.mul_assoc _ _ _) j)) ∧
    (∀ a i j, (r₁.groupProduct3 r₂ r₃).H a i j = (r₁.groupProduct (r₂.groupProduct r₃)).H (Fin.cast (Nat.add_assoc _ _ _) a)
      (Fin.cast (Nat.mul_assoc _ _ _) i) (Fin.cast (Nat.mul_assoc _ _ _) j)) ∧
    (∀ a b c, (r₁.groupProduct3 r₂ r₃).A a b c = (r₁.groupProduct (r₂.groupProduct r₃)).A (Fin.cast (Nat.add_assoc _ _ _) a)
      (Fin.cast (Nat.add_assoc _ _ _) b) (Fin.cast (Nat.add_assoc _ _ _) c)) ∧
    r₁.tabulatedProduct3 r₂ r₃ = r₁.groupProduct3 r₂ r₃ ∧
    (IsRep r₁ → IsRep r₂ → IsRep r₃ → IsRep (r₁.groupProduct3 r₂ r₃)) := by
  refine ⟨fun a i j => ?_, fun a i j => ?_, fun a b c => ?_, ?_, fun h1 h2 h3 =>
    (C28_group_product _ _).1 ((C28_group_product _ _).1 h1 h2) h3⟩
  · refine Fin.addCases (fun a => ?_) (fun a => ?_) a
    · refine Fin.addCases (fun a => ?_) (fun a => ?_) a
      · rw [cast_castAdd₂]
        simp only [Rep.groupProduct3, Rep.groupProduct, Fin.addCases_left]
        rw [kron_kron, kron_one]
      · rw [cast_natAdd_castAdd]
        simp only [Rep.groupProduct3, Rep.groupProduct, Fin.addCases_left, Fin.addCases_right]
        rw [kron_kron]
    · rw [cast_natAdd₂]
      simp only [Rep.groupProduct3, Rep.groupProduct, Fin.addCases_right]
      rw [← kron_one (m := d₁) (p := d₂), kron_kron]
  · refine Fin.addCases (fun a => ?_) (fun a => ?_) a
    · refine Fin.addCases (fun a => ?_) (fun a => ?_) a
      · rw [cast_castAdd₂]
        simp only [Rep.groupProduct3, Rep.groupProduct, Fin.addCases_left]
        rw [kron_kron, kron_one]
      · rw [cast_natAdd_castAdd]
        simp only [Rep.groupProduct3, Rep.groupProduct, Fin.addCases_left, Fin.addCases_right]
        rw [kron_kron]
    · rw [cast_natAdd₂]
      simp only [Rep.groupProduct3, Rep.groupProduct, Fin.addCases_right]
      rw [← kron_one (m := d₁) (p := d₂), kron_kron]
  · refine Fin.addCases (fun a => Fin.addCases (fun a => ?_) (fun a => ?_) a) (fun a => ?_) a <;>
    refine Fin.addCases (fun b => Fin.addCases (fun b => ?_) (fun b => ?_) b) (fun b => ?_) b <;>
    refine Fin.addCases (fun c => Fin.addCases (fun c => ?_) (fun c => ?_) c) (fun c => ?_) c <;>
    simp only [Rep.groupProduct3, Rep.groupProduct, cast_castAdd₂, cast_natAdd_castAdd, cast_natAdd₂, Fin.addCases_left, Fin.addCases_right]
  · unfold Rep.tabulatedProduct3 Rep.groupProduct3
    rw [C28_tabulated_product, C28_tabulated_product]
end

/-- C99: the labels of `group_product` of three labels are all the irreps of the product of three classes. -/
theorem C99_product3 {T₁ : Table n₁ h₁} {T₂ : Table n₂ h₂} {T₃ : Table n₃ h₃} {ok₁ : T₁.Ir → Prop} {ok₂ : T₂.Ir → Prop}
    {ok₃ : T₃.Ir → Prop} {rel₁ : ∀ {d : ℕ}, Rep n₁ h₁ d → Prop} {rel₂ : ∀ {d : ℕ}, Rep n₂ h₂ d → Prop}
    {rel₃ : ∀ {d : ℕ}, Rep n₃ h₃ d → Prop} (H₁ : CompleteTable T₁ ok₁ rel₁) (H₂ : CompleteTable T₂ ok₂ rel₂)
    (H₃ : CompleteTable T₃ ok₃ rel₃) {r : Rep (n₁ + n₂ + n₃) (h₁ + h₂ + h₃) d} (hr : OfProduct (OfProduct rel₁ rel₂) rel₃ r)
    (hirr : IrreducibleFamily r.allGens) : ∃ i₁ i₂ i₃, ok₁ i₁ ∧ ok₂ i₂ ∧ ok₃ i₃ ∧
      Equivalent r.allGens ((T₁.rep i₁).groupProduct3 (T₂.rep i₂) (T₃.rep i₃)).allGens ∧
      (Table.product3 T₁ T₂ T₃).rep (Table.groupProduct3 T₁ T₂ T₃ i₁ i₂ i₃) = (T₁.rep i₁).groupProduct3 (T₂.rep i₂) (T₃.rep i₃) := by
  obtain ⟨i, ⟨⟨hi₁, hi₂⟩, hi₃⟩, hE⟩ := (C99_product (C99_product H₁ H₂) H₃).label hr hirr
  have h3 := (C99_three (T₁.rep i.1.1) (T₂.rep i.1.2) (T₃.rep i.2)).2.2.2.1
  refine ⟨i.1.1, i.1.2, i.2, hi₁, hi₂, hi₃, ?_, h3⟩
  rw [← h3]
  exact hE

/-! ## Cases -/

/-- Case: an irreducible representation of `SU2 × SU2` is that of two spins, in exactly one way. -/
example {r : Rep (3 + 3) (0 + 0) d} (hr : OfProduct OfSU2 OfSU2 r) (hirr : IrreducibleFamily r.allGens) :
    ∃! i : ℕ × ℕ, (True ∧ True) ∧ Equivalent r.allGens ((SU2.rep i.1).tabulatedProduct (SU2.rep i.2)).allGens :=
  (C99_unique (C99_product C99_su2 C99_su2) (C84_product su2_fine su2_fine).good.schur).2 hr hirr

/-- Case: the class has members that are no products, such as the sum of two products. -/
example : ∃ R : ReducedRep (SU2.table.product SU2.table),
    Acts R (((SU2.rep 1).groupProduct (SU2.rep 0)).directSum ((SU2.rep 0).groupProduct (SU2.rep 1))) := by
  have h : ∀ j k : ℕ, OfProduct OfSU2 OfSU2 ((SU2.rep j).groupProduct (SU2.rep k)) := fun j k =>
    C99_group_product C99_su2 C99_su2 (C99_su2.pos j) (C99_su2.pos k) (C99_su2.own j trivial) (C99_su2.own k trivial)
  obtain ⟨R, hR, -⟩ := C99_reduced (C99_product C99_su2 C99_su2) (by norm_num) (by decide)
    (C99_direct_sum (C99_product C99_su2 C99_su2) (h 1 0) (h 0 1) rfl)
  exact ⟨R, hR⟩

/-- Case: three factors with discrete parts. -/
example {r : Rep (3 + 0 + 3) (0 + 1 + 1) d} (hd : 0 < d) (hr : OfProduct (OfProduct OfSO3 OfZ2) OfO3 r) :
    ∃ R : ReducedRep (Table.product3 SO3.table Z2.table O3.table), Acts R r := by
  obtain ⟨R, h1, -⟩ := C99_reduced (C99_product (C99_product C99_so3 C99_z2) C99_o3) (by norm_num) hd hr
  exact ⟨R, h1⟩

/-- Case: the hypotheses of the last one hold. -/
example : OfProduct (OfProduct OfSO3 OfZ2) OfO3 ((SO3.rep 2).groupProduct3 (Z2.rep (-1)) (O3.rep ⟨1, -1⟩)) :=
  C99_group_product (C99_product C99_so3 C99_z2) C99_o3 ((C99_product C99_so3 C99_z2).pos ((2 : ℕ), (-1 : ℤ))) (C99_o3.pos ⟨1, -1⟩)
    (C99_group_product C99_so3 C99_z2 (C99_so3.pos (2 : ℕ)) (C99_z2.pos (-1 : ℤ)) (C99_so3.own (2 : ℕ) trivial)
      (C99_z2.own (-1 : ℤ) (Or.inr rfl))) (C99_o3.own ⟨1, -1⟩ (Or.inr rfl))

end LieNN.Props

import Mathlib.Topology.Instances.Matrix
import Verif.Proofs.Exp
import Verif.Proofs.TFArray
import Verif.Spec.TensorFront
/-!
# Tensor products of group elements and intertwiners
-/
namespace LieNN.TFront

open Matrix NormedSpace LieNN.Spec
open scoped Matrix.Norms.Operator

variable {m : ℕ} {δ : Fin m → ℕ}

/-- The tensor product of the matrices `M i`, with tuples as indices. -/
def tens (M : ∀ i, Matrix (Fin (δ i)) (Fin (δ i)) ℂ) : Matrix (∀ i, Fin (δ i)) (∀ i, Fin (δ i)) ℂ :=
  Matrix.of fun q p => ∏ i, M i (q i) (p i)

theorem tens_one : tens (fun i => (1 : Matrix (Fin (δ i)) (Fin (δ i)) ℂ)) = 1 := by
  ext q p
  rw [tens, Matrix.of_apply]
  simp only [Matrix.one_apply]
  by_cases h : q = p
  · subst h; simp
  · rw [if_neg h]
    obtain ⟨i, hi⟩ := Function.ne_iff.1 h
    exact Finset.prod_eq_zero (Finset.mem_univ i) (by rw [if_neg hi])

theorem tens_mul (M N : ∀ i, Matrix (Fin (δ i)) (Fin (δ i)) ℂ) :
    tens M * tens N = tens fun i => M i * N i := by
  ext q p
  simp only [Matrix.mul_apply, tens, Matrix.of_apply]
  rw [Finset.prod_univ_sum, Fintype.piFinset_univ]
  exact Finset.sum_congr rfl fun r _ => (Finset.prod_mul_distrib).symm

theorem tens_pow (M : ∀ i, Matrix (Fin (δ i)) (Fin (δ i)) ℂ) (k : ℕ) :
    tens M ^ k = tens fun i => M i ^ k := by
  induction k with
  | zero => simp only [pow_zero]; exact tens_one.symm
  | succ k ih => rw [pow_succ, ih, tens_mul]; simp only [pow_succ]

/-- A matrix on the axis `i`, the identity on the others. -/
noncomputable def emb (i : Fin m) (M : Matrix (Fin (δ i)) (Fin (δ i)) ℂ) :
    Matrix (∀ i, Fin (δ i)) (∀ i, Fin (δ i)) ℂ :=
  tens (Function.update (fun _ => 1) i M)

theorem emb_apply (i : Fin m) (M : Matrix (Fin (δ i)) (Fin (δ i)) ℂ) (q p : ∀ i, Fin (δ i)) :
    emb i M q p = M (q i) (p i) * if ∀ j, j ≠ i → q j = p j then 1 else 0 := by
  rw [emb, tens, Matrix.of_apply, ← Finset.mul_prod_erase _ _ (Finset.mem_univ i)]
  congr 1
  · simp
  · by_cases h : ∀ j, j ≠ i → q j = p j
    · rw [if_pos h]
      refine Finset.prod_eq_one fun j hj => ?_
      have hj := (Finset.mem_erase.1 hj).1
      rw [Function.update_of_ne hj, h j hj, Matrix.one_apply_eq]
    · rw [if_neg h]
      push Not at h
      obtain ⟨j, hj, hq⟩ := h
      refine Finset.prod_eq_zero (Finset.mem_erase.2 ⟨hj, Finset.mem_univ j⟩) ?_
      rw [Function.update_of_ne hj, Matrix.one_apply_ne hq]

/-- `emb i` as a ring homomorphism. -/
noncomputable def embHom (i : Fin m) :
    Matrix (Fin (δ i)) (Fin (δ i)) ℂ →+* Matrix (∀ i, Fin (δ i)) (∀ i, Fin (δ i)) ℂ where
  toFun := emb i
  map_one' := by rw [emb, ← tens_one]; congr 1; exact Function.update_eq_self _ _
  map_mul' A B := by
    rw [emb, emb, emb, tens_mul]
    congr 1
    funext j
    by_cases hj : j = i
    · subst hj; simp
    · simp [Function.update_of_ne hj]
  map_zero' := by ext q p; rw [emb_apply]; simp
  map_add' A B := by ext q p; simp only [emb_apply, Matrix.add_apply, add_mul]

theorem exp_emb (i : Fin m) (M : Matrix (Fin (δ i)) (Fin (δ i)) ℂ) : exp (emb i M) = emb i (exp M) := by
  have hc : Continuous (embHom i : Matrix (Fin (δ i)) (Fin (δ i)) ℂ → _) := by
    refine continuous_matrix fun q p => ?_
    show Continuous fun M : Matrix (Fin (δ i)) (Fin (δ i)) ℂ => emb i M q p
    simp only [emb_apply]
    exact (continuous_id.matrix_elem _ _).mul continuous_const
  exact (map_exp (embHom i) hc M).symm

theorem exp_sum_emb (Y : ∀ i, Matrix (Fin (δ i)) (Fin (δ i)) ℂ) (s : Finset (Fin m)) :
    exp (∑ i ∈ s, emb i (Y i)) = tens fun i => if i ∈ s then exp (Y i) else 1 := by
  induction s using Finset.induction_on with
  | empty => simp [tens_one]
  | insert i s hi ih =>
    have hcomm : ∀ j ∈ s, Commute (emb i (Y i)) (emb j (Y j)) := by
      intro j hj
      have hij : j ≠ i := fun h => hi (h ▸ hj)
      show _ * _ = _ * _
      rw [emb, emb, tens_mul, tens_mul]
      congr 1
      funext a
      by_cases ha : a = i
      · subst ha; simp [Function.update_of_ne (Ne.symm hij)]
      · simp [Function.update_of_ne ha]
    rw [Finset.sum_insert hi, Matrix.exp_add_of_commute _ _ (Commute.sum_right _ _ _ hcomm), ih, exp_emb,
      emb, tens_mul]
    congr 1
    funext a
    by_cases ha : a = i
    · subst ha; simp [hi]
    · simp [ha]

/-- The exponential of the Leibniz sum is the tensor product of the exponentials. -/
theorem exp_leibniz (Y : ∀ i, Matrix (Fin (δ i)) (Fin (δ i)) ℂ) :
    exp (∑ i, emb i (Y i)) = tens fun i => exp (Y i) := by
  rw [exp_sum_emb]; simp

section
variable {ι κ : Type} [Fintype ι] [DecidableEq ι] [Fintype κ] [DecidableEq κ]

theorem exp_intertwine' {X : Matrix ι ι ℂ} {Y : Matrix κ κ ℂ}
    {Q : Matrix κ ι ℂ} (h : Y * Q = Q * X) : exp Y * Q = Q * exp X := by
  have hpow : ∀ k : ℕ, Y ^ k * Q = Q * X ^ k := by
    intro k
    induction k with
    | zero => simp
    | succ k ih => rw [pow_succ, Matrix.mul_assoc, h, ← Matrix.mul_assoc, ih, Matrix.mul_assoc, ← pow_succ]
  have hX := exp_series_hasSum_exp' (𝕂 := ℂ) X
  have hY := exp_series_hasSum_exp' (𝕂 := ℂ) Y
  have h1 := hX.map (⟨⟨fun M : Matrix ι ι ℂ => Q * M, by simp⟩, fun a b => Matrix.mul_add _ _ _⟩ :
    Matrix ι ι ℂ →+ Matrix κ ι ℂ)
    (show Continuous fun M : Matrix ι ι ℂ => Q * M from continuous_const.matrix_mul continuous_id)
  have h2 := hY.map (⟨⟨fun M : Matrix κ κ ℂ => M * Q, by simp⟩, fun a b => Matrix.add_mul _ _ _⟩ :
    Matrix κ κ ℂ →+ Matrix κ ι ℂ)
    (show Continuous fun M : Matrix κ κ ℂ => M * Q from continuous_id.matrix_mul continuous_const)
  refine h2.unique ?_
  have e : ((fun M : Matrix κ κ ℂ => M * Q) ∘ fun n : ℕ => ((n.factorial : ℂ)⁻¹ • Y ^ n)) =
      ((fun M : Matrix ι ι ℂ => Q * M) ∘ fun n : ℕ => ((n.factorial : ℂ)⁻¹ • X ^ n)) := by
    funext k
    simp [hpow]
  have h3 : HasSum ((fun M : Matrix ι ι ℂ => Q * M) ∘
    fun n : ℕ => ((n.factorial : ℂ)⁻¹ • X ^ n)) (Q * exp X) := h1
  rw [← e] at h3
  exact h3

end

variable {D : ℕ}

/-- `A` intertwines the transposed matrices. -/
def Twist (A : Matrix (∀ i, Fin (δ i)) (Fin D) ℂ) (S : Matrix (Fin D) (Fin D) ℂ)
    (M : ∀ i, Matrix (Fin (δ i)) (Fin (δ i)) ℂ) : Prop := A * Sᵀ = (tens M)ᵀ * A

theorem Twist.mul {A : Matrix (∀ i, Fin (δ i)) (Fin D) ℂ} {S S' : Matrix (Fin D) (Fin D) ℂ}
    {M M' : ∀ i, Matrix (Fin (δ i)) (Fin (δ i)) ℂ} (h : Twist A S M) (h' : Twist A S' M') :
    Twist A (S * S') fun i => M i * M' i := by
  unfold Twist at *
  rw [← tens_mul, Matrix.transpose_mul, Matrix.transpose_mul, ← Matrix.mul_assoc, h', Matrix.mul_assoc,
    h, ← Matrix.mul_assoc]

theorem Twist.one {A : Matrix (∀ i, Fin (δ i)) (Fin D) ℂ} : Twist A 1 fun _ => 1 := by
  unfold Twist
  rw [tens_one]; simp

theorem Twist.pow {A : Matrix (∀ i, Fin (δ i)) (Fin D) ℂ} {S : Matrix (Fin D) (Fin D) ℂ}
    {M : ∀ i, Matrix (Fin (δ i)) (Fin (δ i)) ℂ} (h : Twist A S M) (k : ℕ) :
    Twist A (S ^ k) fun i => M i ^ k := by
  induction k with
  | zero => simp only [pow_zero]; exact Twist.one
  | succ k ih => simp only [pow_succ]; exact ih.mul h

theorem Twist.inv {A : Matrix (∀ i, Fin (δ i)) (Fin D) ℂ} {S : Matrix (Fin D) (Fin D) ℂ}
    {M : ∀ i, Matrix (Fin (δ i)) (Fin (δ i)) ℂ} (h : Twist A S M) (hS : IsUnit S) (hM : ∀ i, IsUnit (M i)) :
    Twist A S⁻¹ fun i => (M i)⁻¹ := by
  have hS' := (Matrix.isUnit_iff_isUnit_det _).1 hS
  have h1 : tens M * tens (fun i => (M i)⁻¹) = 1 := by
    rw [tens_mul, ← tens_one]
    congr 1
    funext i
    exact Matrix.mul_nonsing_inv _ ((Matrix.isUnit_iff_isUnit_det _).1 (hM i))
  unfold Twist at *
  have h2 : (tens fun i => (M i)⁻¹)ᵀ * (tens M)ᵀ = 1 := by
    rw [← Matrix.transpose_mul, h1, Matrix.transpose_one]
  calc A * S⁻¹ᵀ = ((tens fun i => (M i)⁻¹)ᵀ * (tens M)ᵀ) * (A * S⁻¹ᵀ) := by rw [h2, Matrix.one_mul]
    _ = (tens fun i => (M i)⁻¹)ᵀ * ((tens M)ᵀ * A) * S⁻¹ᵀ := by simp only [Matrix.mul_assoc]
    _ = (tens fun i => (M i)⁻¹)ᵀ * A * (S⁻¹ * S)ᵀ := by
      rw [← h, Matrix.transpose_mul]; simp only [Matrix.mul_assoc]
    _ = _ := by rw [Matrix.nonsing_inv_mul _ hS', Matrix.transpose_one, Matrix.mul_one]

theorem matrixPower_inv {d : ℕ} {M P : Matrix (Fin d) (Fin d) ℂ} {k : ℤ} (h : matrixPower M k = .ok P) :
    (0 ≤ k ∧ P = M ^ k.toNat) ∨ (¬ 0 ≤ k ∧ IsUnit M ∧ P = M⁻¹ ^ (-k).toNat) := by
  unfold matrixPower at h
  split_ifs at h with h1 h2
  · exact .inl ⟨h1, (Except.ok.inj h).symm⟩
  · exact .inr ⟨h1, h2, (Except.ok.inj h).symm⟩

theorem Twist.matrixPower {A : Matrix (∀ i, Fin (δ i)) (Fin D) ℂ} {S : Matrix (Fin D) (Fin D) ℂ}
    {M : ∀ i, Matrix (Fin (δ i)) (Fin (δ i)) ℂ} (h : Twist A S M) {k : ℤ} {S' : Matrix (Fin D) (Fin D) ℂ}
    {M' : ∀ i, Matrix (Fin (δ i)) (Fin (δ i)) ℂ} (hS : LieNN.matrixPower S k = .ok S')
    (hM : ∀ i, LieNN.matrixPower (M i) k = .ok (M' i)) : Twist A S' M' := by
  by_cases hk : 0 ≤ k
  · obtain rfl : S' = S ^ k.toNat := by
      rcases matrixPower_inv hS with h1 | h1
      · exact h1.2
      · exact absurd hk h1.1
    obtain rfl : M' = fun i => M i ^ k.toNat := by
      funext i
      rcases matrixPower_inv (hM i) with h1 | h1
      · exact h1.2
      · exact absurd hk h1.1
    exact h.pow _
  · obtain ⟨hu, rfl⟩ : IsUnit S ∧ S' = S⁻¹ ^ (-k).toNat := by
      rcases matrixPower_inv hS with h1 | h1
      · exact absurd h1.1 hk
      · exact h1.2
    have hM' : ∀ i, IsUnit (M i) ∧ M' i = (M i)⁻¹ ^ (-k).toNat := by
      intro i
      rcases matrixPower_inv (hM i) with h1 | h1
      · exact absurd h1.1 hk
      · exact h1.2
    obtain rfl : M' = fun i => (M i)⁻¹ ^ (-k).toNat := funext fun i => (hM' i).2
    exact (h.inv hu fun i => (hM' i).1).pow _

variable {n h : ℕ}

/-- An intertwiner of the generators intertwines the group elements. -/
theorem twist_expMap {A : Matrix (∀ i, Fin (δ i)) (Fin D) ℂ} {S : Rep n h D} {R : ∀ i, Rep n h (δ i)}
    (hX : ∀ a, A * (S.X a)ᵀ = (∑ i, emb i ((R i).X a))ᵀ * A)
    (hH : ∀ a, Twist A (S.H a) fun i => (R i).H a) {c : Fin n → ℂ} {k : Fin h → ℤ}
    {DS : Matrix (Fin D) (Fin D) ℂ} {DR : ∀ i, Matrix (Fin (δ i)) (Fin (δ i)) ℂ}
    (hS : S.expMap c k = .ok DS) (hR : ∀ i, (R i).expMap c k = .ok (DR i)) : Twist A DS DR := by
  unfold Rep.expMap at hS hR
  have key : ∀ (L : List (Fin h)) (DS : Matrix (Fin D) (Fin D) ℂ) (DR : ∀ i, Matrix (Fin (δ i)) (Fin (δ i)) ℂ),
      L.foldr (fun i out => do
        let o ← out
        let p ← matrixPower (S.H i) (k i)
        pure (p * o)) (.ok (exp (∑ a, c a • S.X a))) = (.ok DS : Py _) →
      (∀ j, L.foldr (fun i out => do
        let o ← out
        let p ← matrixPower ((R j).H i) (k i)
        pure (p * o)) (.ok (exp (∑ a, c a • (R j).X a))) = (.ok (DR j) : Py _)) → Twist A DS DR := by
    intro L
    induction L with
    | nil =>
      intro DS DR h1 h2
      obtain rfl : exp (∑ a, c a • S.X a) = DS := Except.ok.inj h1
      obtain rfl : (fun j => exp (∑ a, c a • (R j).X a)) = DR := funext fun j => Except.ok.inj (h2 j)
      unfold Twist
      rw [← exp_leibniz, ← Matrix.exp_transpose, ← Matrix.exp_transpose]
      refine (exp_intertwine' ?_).symm
      have e : ∀ i, emb i (∑ a, c a • (R i).X a) = ∑ a, c a • emb i ((R i).X a) := by
        intro i
        ext q p
        simp only [emb_apply, Matrix.sum_apply, Matrix.smul_apply, Finset.sum_mul, smul_eq_mul, mul_assoc]
      simp only [e]
      rw [Finset.sum_comm]
      simp only [Matrix.transpose_sum, Matrix.transpose_smul, Matrix.sum_mul, Matrix.mul_sum,
        Matrix.smul_mul, Matrix.mul_smul, ← Finset.smul_sum]
      refine Finset.sum_congr rfl fun a _ => ?_
      rw [hX a, Matrix.transpose_sum, Matrix.sum_mul]
    | cons a L ih =>
      intro DS DR h1 h2
      rw [List.foldr_cons] at h1
      obtain ⟨o, ho, h1⟩ := IArr.bind_ok_inv h1
      obtain ⟨P, hP, h1⟩ := IArr.bind_ok_inv h1
      obtain rfl : P * o = DS := Except.ok.inj h1
      have h3 : ∀ j, ∃ o P, L.foldr (fun i out => do
        let o ← out
        let p ← matrixPower ((R j).H i) (k i)
        pure (p * o)) (.ok (exp (∑ a, c a • (R j).X a))) = (.ok o : Py _) ∧
        matrixPower ((R j).H a) (k a) = .ok P ∧ P * o = DR j := by
        intro j
        have h2 := h2 j
        rw [List.foldr_cons] at h2
        obtain ⟨o, ho, h2⟩ := IArr.bind_ok_inv h2
        obtain ⟨P, hP, h2⟩ := IArr.bind_ok_inv h2
        exact ⟨o, P, ho, hP, Except.ok.inj h2⟩
      choose o' P' ho' hP' hDR using h3
      obtain rfl : (fun j => P' j * o' j) = DR := funext hDR
      exact ((hH a).matrixPower hP hP').mul (ih o o' ho ho')
  exact key _ _ _ hS hR

end LieNN.TFront

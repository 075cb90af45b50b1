import Verif.Proofs.TFExp
import Verif.Spec.Orthogonal
import Verif.Proofs.ReducedSpec
import Verif.Proofs.TFArray
/-!
# Group elements of orthogonal representations; the arrays of reduced tensor products
-/
namespace LieNN

open Matrix NormedSpace LieNN.Spec

section
variable {n h d : ℕ}

theorem orth_pow {M : Matrix (Fin d) (Fin d) ℂ} (hM : Mᵀ * M = 1) (k : ℕ) : (M ^ k)ᵀ * M ^ k = 1 := by
  induction k with
  | zero => simp
  | succ k ih =>
    rw [pow_succ, Matrix.transpose_mul, Matrix.mul_assoc, ← Matrix.mul_assoc _ _ M, ih, Matrix.one_mul, hM]

theorem orth_matrixPower {M : Matrix (Fin d) (Fin d) ℂ} (hM : Mᵀ * M = 1) (k : ℤ) :
    ∃ P, matrixPower M k = .ok P ∧ Pᵀ * P = 1 := by
  unfold matrixPower
  have hu : IsUnit M := ⟨⟨M, Mᵀ, mul_eq_one_comm.1 hM, hM⟩, rfl⟩
  by_cases hk : 0 ≤ k
  · exact ⟨_, by rw [if_pos hk], orth_pow hM _⟩
  · refine ⟨_, by rw [if_neg hk, if_pos hu], orth_pow ?_ _⟩
    rw [Matrix.inv_eq_left_inv hM, Matrix.transpose_transpose]
    exact mul_eq_one_comm.1 hM

/-- The group elements of an orthogonal representation exist for all parameters and are orthogonal. -/
theorem Spec.Orthogonal.expMap {R : Rep n h d} (hR : Spec.Orthogonal R) (c : Fin n → ℂ) (k : Fin h → ℤ) :
    ∃ D, R.expMap c k = .ok D ∧ Dᵀ * D = 1 := by
  unfold Rep.expMap
  generalize List.finRange h = L
  induction L with
  | nil =>
    refine ⟨_, rfl, ?_⟩
    rw [← Matrix.exp_transpose]
    have : (∑ a, c a • R.X a)ᵀ = -∑ a, c a • R.X a := by
      rw [Matrix.transpose_sum, ← Finset.sum_neg_distrib]
      refine Finset.sum_congr rfl fun a _ => ?_
      rw [Matrix.transpose_smul, hR.X a, smul_neg]
    rw [this, ← Matrix.exp_add_of_commute _ _ (Commute.neg_left (Commute.refl (∑ a, c a • R.X a))), neg_add_cancel, exp_zero]
  | cons a L ih =>
    obtain ⟨D, h1, h2⟩ := ih
    obtain ⟨P, h3, h4⟩ := orth_matrixPower (hR.H a) (k a)
    refine ⟨P * D, ?_, ?_⟩
    · rw [List.foldr_cons, h1]
      show (matrixPower (R.H a) (k a) >>= fun p => _) = _
      rw [h3]
      rfl
    · rw [Matrix.transpose_mul, Matrix.mul_assoc, ← Matrix.mul_assoc _ P, h4, Matrix.one_mul, h2]

end

variable {n h : ℕ} {T : Table n h}

theorem dsum_transpose' {m n p q : ℕ} (A : Matrix (Fin m) (Fin n) ℂ) (B : Matrix (Fin p) (Fin q) ℂ) :
    (dsum A B)ᵀ = dsum Aᵀ Bᵀ := by
  apply dsum_ext <;> intros <;> simp

theorem diagMat_transpose (Y : T.Mats) (l : List (MulIr T)) :
    (diagMat Y l)ᵀ = diagMat (fun i => (Y i)ᵀ) l := by
  induction l with
  | nil => ext i; exact Fin.elim0 i
  | cons m l ih =>
    rw [diagMat, diagMat]
    refine (dsum_transpose' _ _).trans ?_
    rw [kron_transpose, ih, Matrix.transpose_one]

theorem diagMat_mul' (Y Z : T.Mats) (l : List (MulIr T)) :
    diagMat Y l * diagMat Z l = diagMat (fun i => Y i * Z i) l := by
  induction l with
  | nil => ext i; exact Fin.elim0 i
  | cons m l ih =>
    rw [diagMat, diagMat, diagMat]
    refine (dsum_mul _ _ _ _).trans ?_
    rw [kron_mul, ih, Matrix.one_mul]

theorem diagMat_neg' (Y : T.Mats) (l : List (MulIr T)) :
    diagMat (fun i => -Y i) l = -diagMat Y l := by
  induction l with
  | nil => ext i; exact Fin.elim0 i
  | cons m l ih =>
    rw [diagMat, diagMat, ih]
    have : kron (1 : Matrix (Fin m.mul) (Fin m.mul) ℂ) (-Y m.ir) = -kron 1 (Y m.ir) := by
      ext i j; simp [kron]
    rw [this]
    exact dsum_neg _ _

theorem actsG_unique {r : ReducedRep T} {d : ℕ} {R R' : Rep n h d} (h1 : ActsG r R) (h2 : ActsG r R') :
    R.X = R'.X ∧ R.H = R'.H := by
  constructor
  · rcases Nat.eq_zero_or_pos n with hn | hn
    · subst hn; funext a; exact Fin.elim0 a
    · have := List.ofFn_injective (Except.ok.inj ((h1.1 (by omega)).symm.trans (h2.1 (by omega))))
      funext a
      have := congrFun this a
      simpa using this
  · have := List.ofFn_injective (Except.ok.inj (h1.2.symm.trans h2.2))
    funext a
    have := congrFun this a
    simpa using this

/-- A direct sum of orthogonal irreps, in the standard basis, is orthogonal. -/
theorem orth_of_table (hT : ∀ i, Spec.Orthogonal (T.rep i)) {r : ReducedRep T} (hne : r.irreps ≠ [])
    (hmul : ∀ m ∈ r.irreps, m.mul ≠ 0) (hQ : r.Q = none) {R : Rep n h r.dim} (hR : ActsG r R) :
    Spec.Orthogonal R := by
  have hq : r.q = .ok 1 := by
    obtain ⟨A, l, Q⟩ := r
    obtain rfl : Q = none := hQ
    rfl
  have hA : ActsG r (blockRep r.A r.irreps (1 : Matrix (Fin r.dim) (Fin r.dim) ℂ)) :=
    ⟨fun hn => r.continuousGenerators_ok hn hne hmul hq isUnit_one,
      r.discreteGenerators_ok hne hmul hq isUnit_one⟩
  obtain ⟨e1, e2⟩ := actsG_unique hR hA
  constructor
  · intro a
    rw [e1]
    simp only [blockRep, inv_one, Matrix.mul_one, Matrix.one_mul]
    refine (diagMat_transpose _ _).trans ?_
    rw [← diagMat_neg']
    congr 1
    funext i
    exact (hT i).X a
  · intro a
    rw [e2]
    simp only [blockRep, inv_one, Matrix.mul_one, Matrix.one_mul]
    refine (congrArg (· * _) (diagMat_transpose _ _)).trans ?_
    refine (diagMat_mul' _ _ _).trans ?_
    rw [← diagMat_one]
    congr 1
    funext i
    exact (hT i).H a

namespace TFront

variable {m : ℕ} {δ : Fin m → ℕ}

theorem sum_box_fin {M : Type*} [AddCommMonoid M] (f : (Fin m → ℕ) → M) :
    ∑ q ∈ box δ, f q = ∑ q : ∀ i, Fin (δ i), f fun i => q i := by
  symm
  refine Finset.sum_bij (fun (q : ∀ i, Fin (δ i)) _ i => (q i : ℕ)) ?_ ?_ ?_ ?_
  · intro q _
    rw [box, Fintype.mem_piFinset]
    exact fun i => Finset.mem_range.2 (q i).2
  · intro q _ q' _ he
    funext i
    exact Fin.ext (congrFun he i)
  · intro q hq
    rw [box, Fintype.mem_piFinset] at hq
    exact ⟨fun i => ⟨q i, Finset.mem_range.1 (hq i)⟩, Finset.mem_univ _, rfl⟩
  · intro q _; rfl

theorem mem_box_fin (q : ∀ i, Fin (δ i)) : (fun i => (q i : ℕ)) ∈ box δ := by
  rw [box, Fintype.mem_piFinset]
  exact fun i => Finset.mem_range.2 (q i).2

/-- The array of a result as a matrix. -/
def arrMat (δ : Fin m → ℕ) (x : RepArray T m) : Matrix (∀ i, Fin (δ i)) (Fin x.rep.dim) ℂ :=
  Matrix.of fun p z => (x.array fun i => p i).getD z 0

theorem tensor_X (R : ∀ i, Rep n h (δ i)) (a : Fin n) (q p : ∀ i, Fin (δ i)) :
    (tensorRep Finset.univ fun i => NRep.of (R i)).X a (fun i => q i) (fun i => p i) =
      (∑ i, emb i ((R i).X a)) q p := by
  rw [Matrix.sum_apply]
  show ∑ i, (NRep.of (R i)).X a (q i) (p i) *
    (if ∀ j, j ≠ i → (q j : ℕ) = (p j : ℕ) then 1 else 0) = _
  refine Finset.sum_congr rfl fun i _ => ?_
  rw [emb_apply]
  simp only [NRep.of]
  rw [dif_pos ⟨(q i).2, (p i).2⟩]
  simp only [Fin.val_inj]

theorem tensor_H (R : ∀ i, Rep n h (δ i)) (a : Fin h) (q p : ∀ i, Fin (δ i)) :
    (tensorRep Finset.univ fun i => NRep.of (R i)).H a (fun i => q i) (fun i => p i) =
      tens (fun i => (R i).H a) q p := by
  rw [tens, Matrix.of_apply]
  show (∏ i, (NRep.of (R i)).H a (q i) (p i)) * (if _ then _ else _) = _
  rw [if_pos (by simp), mul_one]
  refine Finset.prod_congr rfl fun i _ => ?_
  simp only [NRep.of]
  rw [dif_pos ⟨(q i).2, (p i).2⟩]

/-- The array intertwines the group elements. -/
theorem twist_arr [LinearOrder T.Ir] {R : ∀ i, Rep n h (δ i)} {G : Set (SignedPerm m)} {x : RepArray T m}
    (hx : IsReducedArray δ (fun i => NRep.of (R i)) G x) {S : Rep n h x.rep.dim} (hS : ActsG x.rep S)
    {c : Fin n → ℂ} {k : Fin h → ℤ} {DS : Matrix (Fin x.rep.dim) (Fin x.rep.dim) ℂ}
    {DR : ∀ i, Matrix (Fin (δ i)) (Fin (δ i)) ℂ}
    (h1 : S.expMap c k = .ok DS) (h2 : ∀ i, (R i).expMap c k = .ok (DR i)) : Twist (arrMat δ x) DS DR := by
  obtain ⟨S', hS', hX, hH⟩ := hx.acts
  obtain ⟨e1, e2⟩ := actsG_unique hS hS'
  refine twist_expMap (S := S) (R := R) ?_ ?_ h1 h2
  · intro a
    ext p z
    have := hX a _ (mem_box_fin p) z
    rw [sum_box_fin] at this
    simp only [tensor_X] at this
    rw [e1]
    simpa [Matrix.mul_apply, arrMat] using this
  · intro a
    show _ * _ = _ * _
    ext p z
    have := hH a _ (mem_box_fin p) z
    rw [sum_box_fin] at this
    simp only [tensor_H] at this
    rw [e2]
    simpa [Matrix.mul_apply, arrMat] using this

end TFront

end LieNN

import Verif.Proofs.UnitaryExp
import Verif.Proofs.GroupRep
import Verif.Spec.Rep
/-!
# Homomorphisms into unitary and orthogonal groups, and their kernels
-/
namespace LieNN

open Matrix NormedSpace Spec

variable {n h b d : ℕ}

/-- The determinant of the exponential of a traceless anti-hermitian matrix. -/
theorem det_exp_skew {N : ℕ} {Y : Matrix (Fin N) (Fin N) ℂ} (hY : Yᴴ = -Y) (ht : Y.trace = 0) : (exp Y).det = 1 := by
  have hA : ((-Complex.I) • Y).IsHermitian := by
    show ((-Complex.I) • Y)ᴴ = _
    rw [conjTranspose_smul, hY]
    simp
  set A := (-Complex.I) • Y with hAd
  have hYA : Y = Complex.I • A := by
    rw [hAd, smul_smul]
    simp
  set V : Matrix (Fin N) (Fin N) ℂ := hA.eigenvectorUnitary.1 with hV
  set D : Fin N → ℝ := hA.eigenvalues with hD
  have hVV : V * Vᴴ = 1 := Unitary.mul_star_self_of_mem hA.eigenvectorUnitary.2
  have hVV' : Vᴴ * V = 1 := Unitary.star_mul_self_of_mem hA.eigenvectorUnitary.2
  have hinv : V⁻¹ = Vᴴ := inv_eq_right_inv hVV
  have hVu : IsUnit V := ⟨⟨V, Vᴴ, hVV, hVV'⟩, rfl⟩
  have hspec : A = V * diagonal (fun i => (D i : ℂ)) * Vᴴ := hA.spectral_theorem
  have hE : Y = V * diagonal (fun i => Complex.I * (D i : ℂ)) * V⁻¹ := by
    rw [hYA, hspec, hinv, ← Matrix.smul_mul, ← Matrix.mul_smul, ← diagonal_smul]
    rfl
  have htr : ∑ i, Complex.I * (D i : ℂ) = 0 := by
    rw [hE, hinv, trace_mul_cycle, hVV', one_mul, trace_diagonal] at ht
    exact ht
  rw [hE, Matrix.exp_conj _ _ hVu, Matrix.exp_diagonal, hinv, det_mul, det_mul, mul_right_comm, ← det_mul, hVV, det_one,
    one_mul, det_diagonal]
  simp only [Pi.coe_exp, ← Complex.exp_eq_exp_ℂ]
  rw [← Complex.exp_sum, htr, Complex.exp_zero]

theorem expMap_zero (r : Rep n 0 d) (c : Fin n → ℂ) (k : Fin 0 → ℤ) : r.expMap c k = .ok (exp (∑ a, c a • r.X a)) := rfl

/-- The adjoint representation. -/
def adRep (A : Fin n → Fin n → Fin n → ℂ) : Rep n 0 n := ⟨A, fun b => Matrix.of fun c a => A b a c, Fin.elim0⟩

/-- Conjugation by the matrices of a representation acts on the generators through the structure constants. -/
theorem conj_gens {r : Rep n 0 d} (hr : IsRep r) (c : Fin n → ℂ) (a : Fin n) :
    exp (∑ b, c b • r.X b) * r.X a = ∑ b, exp (∑ b, c b • (adRep r.A).X b) b a • (r.X b * exp (∑ b, c b • r.X b)) := by
  set T : Matrix (Fin d) (Fin (n * d)) ℂ := Matrix.of fun i p => r.X p.divNat i p.modNat with hT
  have hTa : ∀ i (b : Fin n) (j : Fin d), T i (finProdFinEquiv (b, j)) = r.X b i j := by
    intro i b j
    simp only [hT, of_apply]
    have := (finProdFinEquiv).symm_apply_apply (b, j)
    rw [finProdFinEquiv_symm_apply] at this
    rw [(Prod.mk.inj this).1, (Prod.mk.inj this).2]
  have hk : ∀ (M : Matrix (Fin n) (Fin n) ℂ) (N : Matrix (Fin d) (Fin d) ℂ) i (a : Fin n) (j : Fin d),
      (T * kron M N) i (finProdFinEquiv (a, j)) = ∑ b, M b a * (r.X b * N) i j := by
    intro M N i a j
    rw [mul_apply, ← finProdFinEquiv.sum_comp, Fintype.sum_prod_type]
    refine Finset.sum_congr rfl fun b _ => ?_
    rw [mul_apply, Finset.mul_sum]
    refine Finset.sum_congr rfl fun k _ => ?_
    rw [hTa, kron_apply]
    ring
  have hX : ∀ b, r.X b * T = T * ((adRep r.A).tensorProduct r).X b := by
    intro b
    ext i p
    obtain ⟨⟨a, j⟩, rfl⟩ := finProdFinEquiv.surjective p
    rw [show ((adRep r.A).tensorProduct r).X b = kron ((adRep r.A).X b) 1 + kron 1 (r.X b) from rfl]
    rw [Matrix.mul_add, Matrix.add_apply, hk, hk, mul_apply]
    simp only [hTa, Matrix.mul_one]
    have h1 : ∑ b', (1 : Matrix (Fin n) (Fin n) ℂ) b' a * (r.X b' * r.X b) i j = (r.X a * r.X b) i j := by
      rw [Finset.sum_eq_single a (fun b _ hb => by rw [one_apply_ne hb, zero_mul]) (by simp), one_apply_eq, one_mul]
    rw [← mul_apply, h1]
    have := congrFun (congrFun (hr b a) i) j
    rw [Matrix.sub_apply, Matrix.sum_apply] at this
    rw [← sub_eq_iff_eq_add, this]
    rfl
  have h1 := expMap_tensorProduct (r₁ := adRep r.A) (r₂ := r) (c := c) (k := Fin.elim0) rfl rfl
  have h2 := expMap_intertwine (r := (adRep r.A).tensorProduct r) (s := r) (c := c) (k := Fin.elim0) hX
    (fun a => a.elim0) h1 rfl
  ext i j
  have := congrFun (congrFun h2 i) (finProdFinEquiv (a, j))
  rw [hk, mul_apply] at this
  simp only [hTa] at this
  rw [mul_apply, Matrix.sum_apply]
  exact this

/-- When the matrices of a faithful representation are equal, those of another one commute with its generators. -/
theorem commute_of_one {r : Rep n 0 d} {s : Rep n 0 b} (hr : IsRep r) (hs : IsRep s) (hA : r.A = s.A)
    (hli : LinearIndependent ℂ s.X) {c : Fin n → ℂ} (h1 : exp (∑ b, c b • s.X b) = 1) (a : Fin n) :
    exp (∑ b, c b • r.X b) * r.X a = r.X a * exp (∑ b, c b • r.X b) := by
  have e := conj_gens hs c a
  rw [h1, Matrix.one_mul] at e
  simp only [Matrix.mul_one] at e
  have hd : ∀ b, exp (∑ b, c b • (adRep s.A).X b) b a = if b = a then 1 else 0 := by
    have hz : ∑ b, (exp (∑ b, c b • (adRep s.A).X b) b a - if b = a then 1 else 0) • s.X b = 0 := by
      simp only [sub_smul, Finset.sum_sub_distrib, ← e, ite_smul, one_smul, zero_smul, Finset.sum_ite_eq',
        Finset.mem_univ, if_true, sub_self]
    intro b
    exact sub_eq_zero.1 (Fintype.linearIndependent_iff.1 hli _ hz b)
  rw [conj_gens hr c a, hA]
  simp only [hd, ite_smul, one_smul, zero_smul, Finset.sum_ite_eq', Finset.mem_univ, if_true]

/-- The homomorphism into a group that contains the matrices of the representation. -/
theorem Spec.PolyOf.homInto {base : Rep n h b} {r : Rep n h d} {e : ℕ} (hp : PolyOf base r e) {M : Type}
    [Monoid M] (φ : M →* Matrix (Fin b) (Fin b) ℂ)
    (onto : ∀ U, ∃ (c : Fin n → ℝ) (k : Fin h → ℤ), base.expMap (fun a => (c a : ℂ)) k = .ok (φ U))
    {K : Type} [Monoid K] (ψ : K →* Matrix (Fin d) (Fin d) ℂ) (hψ : Function.Injective ψ)
    (hm : ∀ (c : Fin n → ℝ) (k : Fin h → ℤ) g, r.expMap (fun a => (c a : ℂ)) k = .ok g → ∃ x, ψ x = g) :
    ∃! ρ : M →* K, ∀ (c : Fin n → ℝ) (k : Fin h → ℤ) U, base.expMap (fun a => (c a : ℂ)) k = .ok (φ U) →
        r.expMap (fun a => (c a : ℂ)) k = .ok (ψ (ρ U)) := by
  obtain ⟨P, ρ, -, h1, h2⟩ := hp.hom φ onto
  have hx : ∀ U, ∃ x, ψ x = ρ U := by
    intro U
    obtain ⟨c, k, hc⟩ := onto U
    exact hm c k _ (h2 c k U hc)
  choose f hf using hx
  refine ⟨⟨⟨f, hψ (by rw [hf, map_one, map_one])⟩, fun U V => hψ (by rw [map_mul, hf, hf, hf, map_mul])⟩,
    fun c k U hc => ?_, fun ρ' hρ' => ?_⟩
  · rw [h2 c k U hc]
    exact congrArg _ (hf U).symm
  · ext U
    apply hψ
    obtain ⟨c, k, hc⟩ := onto U
    have h3 := hρ' c k U hc
    rw [h2 c k U hc] at h3
    exact (Except.ok.inj h3).symm.trans (hf U).symm

/-- Real matrices as complex ones. -/
noncomputable def ofRealMat (d : ℕ) : Matrix (Fin d) (Fin d) ℝ →* Matrix (Fin d) (Fin d) ℂ :=
  (Complex.ofRealHom.mapMatrix : Matrix (Fin d) (Fin d) ℝ →+* Matrix (Fin d) (Fin d) ℂ)

theorem ofRealMat_injective (d : ℕ) : Function.Injective (ofRealMat d) := by
  intro A B hAB
  ext i j
  exact Complex.ofReal_injective (congrFun (congrFun hAB i) j)

/-- The matrices of a real representation are real. -/
theorem real_expMap {r : Rep n h d} (hX : ∀ a, (r.X a).map (starRingEnd ℂ) = r.X a)
    (hH : ∀ a, (r.H a).map (starRingEnd ℂ) = r.H a) {c : Fin n → ℝ} {k : Fin h → ℤ} {g : Matrix (Fin d) (Fin d) ℂ}
    (hg : r.expMap (fun a => (c a : ℂ)) k = .ok g) : ofRealMat d (g.map Complex.re) = g := by
  have h1 := expMap_conjugate (r := r) (c := fun a => (c a : ℂ)) (fun a => Complex.ofReal_im _) hg
  have e : r.conjugate = r := by
    ext a i j
    · rfl
    · exact congrFun (congrFun (hX a) i) j
    · exact congrFun (congrFun (hH a) i) j
  rw [e, hg] at h1
  have h2 := Except.ok.inj h1
  ext i j
  have := congrFun (congrFun h2 i) j
  rw [map_apply] at this
  exact Complex.conj_eq_iff_re.1 this.symm

theorem ofRealMat_star (A : Matrix (Fin d) (Fin d) ℝ) : ofRealMat d (star A) = (ofRealMat d A)ᴴ := by
  ext i j
  change ((A j i : ℝ) : ℂ) = star ((A j i : ℝ) : ℂ)
  rw [Complex.star_def, Complex.conj_ofReal]

/-- A complex matrix with real entries that is unitary is orthogonal. -/
theorem orthogonal_iff_unitary {A : Matrix (Fin d) (Fin d) ℝ} :
    A ∈ orthogonalGroup (Fin d) ℝ ↔ ofRealMat d A * (ofRealMat d A)ᴴ = 1 := by
  rw [mem_orthogonalGroup_iff, ← ofRealMat_star, ← map_mul, ← map_one (ofRealMat d)]
  exact (ofRealMat_injective d).eq_iff.symm

theorem det_ofRealMat (A : Matrix (Fin d) (Fin d) ℝ) : (ofRealMat d A).det = (A.det : ℂ) :=
  (RingHom.map_det Complex.ofRealHom A).symm

/-- Three matrices with the brackets of `su(2)` are independent unless they vanish. -/
theorem su2_indep {X : Fin 3 → Matrix (Fin d) (Fin d) ℂ} (h01 : X 0 * X 1 - X 1 * X 0 = X 2)
    (h12 : X 1 * X 2 - X 2 * X 1 = X 0) (h20 : X 2 * X 0 - X 0 * X 2 = X 1) (h0 : X 1 ≠ 0) : LinearIndependent ℂ X := by
  have n0 : X 0 ≠ 0 := fun h => h0 (by rw [← h20, h, Matrix.mul_zero, Matrix.zero_mul, sub_zero])
  have n2 : X 2 ≠ 0 := fun h => h0 (by rw [← h20, h, Matrix.mul_zero, Matrix.zero_mul, sub_zero])
  have aux : ∀ {A B C : Matrix (Fin d) (Fin d) ℂ}, A * B - B * A = C → C * A - A * C = B → A ≠ 0 →
      ∀ x y z : ℂ, x • A + y • B + z • C = 0 → x = 0 := by
    intro A B C hAB hCA hA x y z h
    have b1 : y • C - z • B = 0 := by
      have e : A * (x • A + y • B + z • C) - (x • A + y • B + z • C) * A = y • (A * B - B * A) - z • (C * A - A * C) := by
        simp only [Matrix.mul_add, Matrix.add_mul, Matrix.mul_smul, Matrix.smul_mul, smul_sub]
        abel
      rw [h, Matrix.mul_zero, Matrix.zero_mul, sub_zero, hAB, hCA] at e
      exact e.symm
    have b2 : y • B + z • C = 0 := by
      have e : A * (y • C - z • B) - (y • C - z • B) * A = -(y • (C * A - A * C)) - z • (A * B - B * A) := by
        simp only [Matrix.mul_sub, Matrix.sub_mul, Matrix.mul_smul, Matrix.smul_mul, smul_sub]
        abel
      rw [b1, Matrix.mul_zero, Matrix.zero_mul, sub_zero, hAB, hCA] at e
      rw [← neg_eq_zero, neg_add, ← sub_eq_add_neg]
      exact e.symm
    rw [add_assoc, b2, add_zero] at h
    exact (smul_eq_zero.1 h).resolve_right hA
  rw [Fintype.linearIndependent_iff]
  intro g hg
  rw [Fin.sum_univ_three] at hg
  have e0 := aux h01 h20 n0 _ _ _ hg
  have e1 := aux h12 h01 h0 (g 1) (g 2) (g 0) (by rw [← hg]; abel)
  have e2 := aux h20 h12 n2 (g 2) (g 0) (g 1) (by rw [← hg]; abel)
  intro i
  fin_cases i <;> assumption

end LieNN

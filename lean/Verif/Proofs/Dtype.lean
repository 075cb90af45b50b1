import Verif.Spec.Dtype
import Verif.Proofs.RepOps
import Verif.Proofs.Jax
/-!
# Arrays with dtypes: closure of the exactly representable numbers
-/
namespace LieNN.Dt

open Matrix Jax Spec

/-- The numbers of a dtype, as a subring. -/
noncomputable def sub : Dtype → Subring ℂ
  | .int => (Int.castRingHom ℂ).range
  | .float => Complex.ofRealHom.range
  | .complex => ⊤

theorem mem_sub {t : Dtype} {z : ℂ} : z ∈ sub t ↔ Holds t z := by
  cases t
  · constructor
    · rintro ⟨k, rfl⟩; exact ⟨k, rfl⟩
    · rintro ⟨k, rfl⟩; exact ⟨k, rfl⟩
  · constructor
    · rintro ⟨x, rfl⟩; exact Complex.ofReal_im x
    · intro hz; exact ⟨z.re, Complex.ext rfl (by simpa using (show z.im = 0 from hz).symm)⟩
  · exact ⟨fun _ => trivial, fun _ => trivial⟩

theorem int_le_float : sub .int ≤ sub .float := by
  rintro _ ⟨k, rfl⟩; exact ⟨(k : ℝ), by simp⟩

theorem sub_left (a b : Dtype) : sub a ≤ sub (promote a b) := by
  cases a <;> cases b <;> first | exact le_refl _ | exact le_top | exact int_le_float

theorem sub_right (a b : Dtype) : sub b ≤ sub (promote a b) := by
  cases a <;> cases b <;> first | exact le_refl _ | exact le_top | exact int_le_float

theorem store_of_mem {t : Dtype} {z : ℂ} (hz : z ∈ sub t) : store t z = z := by
  cases t
  · obtain ⟨k, rfl⟩ := hz
    simp [store]
  · obtain ⟨x, rfl⟩ := hz
    simp [store]
  · rfl

theorem storeM_of_mem {t : Dtype} {p q : ℕ} {M : Matrix (Fin p) (Fin q) ℂ} (hM : ∀ i j, M i j ∈ sub t) :
    storeM t M = M := by
  funext i j; exact store_of_mem (hM i j)

theorem one_mem_mat (t : Dtype) {p : ℕ} (i j : Fin p) : (1 : Matrix (Fin p) (Fin p) ℂ) i j ∈ sub t := by
  rw [Matrix.one_apply]; split_ifs
  · exact one_mem _
  · exact zero_mem _

theorem mul_mem_mat {a b : Dtype} {p q r : ℕ} {M : Matrix (Fin p) (Fin q) ℂ} {N : Matrix (Fin q) (Fin r) ℂ}
    (hM : ∀ i j, M i j ∈ sub a) (hN : ∀ i j, N i j ∈ sub b) (i : Fin p) (j : Fin r) :
    (M * N) i j ∈ sub (promote a b) := by
  rw [Matrix.mul_apply]
  exact sum_mem fun l _ => mul_mem (sub_left a b (hM i l)) (sub_right a b (hN l j))

theorem kron_mem {a b : Dtype} {p q r s : ℕ} {M : Matrix (Fin p) (Fin q) ℂ} {N : Matrix (Fin r) (Fin s) ℂ}
    (hM : ∀ i j, M i j ∈ sub a) (hN : ∀ i j, N i j ∈ sub b) (i : Fin (p * r)) (j : Fin (q * s)) :
    kron M N i j ∈ sub (promote a b) :=
  mul_mem (sub_left a b (hM _ _)) (sub_right a b (hN _ _))

/-- The pseudo-inverse of a real matrix is real. -/
theorem pinv_mem {t : Dtype} {p q : ℕ} {Q : Matrix (Fin p) (Fin q) ℂ} {P : Matrix (Fin q) (Fin p) ℂ}
    (hP : IsPinv Q P) (hQ : ∀ i j, Q i j ∈ sub t) (i : Fin q) (j : Fin p) : P i j ∈ sub (invType t) := by
  have real : (∀ i j, Q i j ∈ sub .float) → P i j ∈ sub .float := by
    intro hQ
    have hc : Q.map (starRingEnd ℂ) = Q := by
      ext a b
      have := mem_sub.1 (hQ a b)
      exact Complex.conj_eq_iff_im.2 this
    have h2 : IsPinv Q (P.map (starRingEnd ℂ)) := by
      have key : ∀ {u v : ℕ} (M : Matrix (Fin u) (Fin v) ℂ), (M.map (starRingEnd ℂ))ᴴ = Mᴴ.map (starRingEnd ℂ) := by
        intro u v M; ext a b; simp [Matrix.conjTranspose_apply]
      constructor
      · conv_lhs => rw [← hc]
        rw [← Matrix.map_mul, ← Matrix.map_mul, hP.qpq, hc]
      · conv_lhs => rw [← hc]
        rw [← Matrix.map_mul, ← Matrix.map_mul, hP.pqp]
      · conv_lhs => rw [← hc]
        conv_rhs => rw [← hc]
        rw [← Matrix.map_mul, key, hP.qp_herm]
      · conv_lhs => rw [← hc]
        conv_rhs => rw [← hc]
        rw [← Matrix.map_mul, key, hP.pq_herm]
    have h3 := congrFun (congrFun (isPinv_unique hP h2) i) j
    exact mem_sub.2 (Complex.conj_eq_iff_im.1 h3.symm)
  cases t
  · exact real fun i j => int_le_float (hQ i j)
  · exact real hQ
  · trivial

theorem inv_mem {t : Dtype} {p : ℕ} {Q : Matrix (Fin p) (Fin p) ℂ} (hu : IsUnit Q)
    (hQ : ∀ i j, Q i j ∈ sub t) (i j : Fin p) : Q⁻¹ i j ∈ sub (invType t) :=
  pinv_mem (isPinv_of_inv hu) hQ i j

theorem getDtype_pair (a b : Dtype) : getDtype [a, b] = promote (promote .float a) b := rfl

theorem sub_get_left (a b : Dtype) : sub a ≤ sub (getDtype [a, b]) :=
  (sub_right .float a).trans (sub_left _ b)

theorem sub_get_right (a b : Dtype) : sub b ≤ sub (getDtype [a, b]) := sub_right _ b

theorem sub_get_eye (a b : Dtype) : sub .float ≤ sub (getDtype [a, b]) :=
  (sub_left .float a).trans (sub_left _ b)

theorem kron_mem_of {t : Dtype} {p q r s : ℕ} {M : Matrix (Fin p) (Fin q) ℂ} {N : Matrix (Fin r) (Fin s) ℂ}
    (hM : ∀ i j, M i j ∈ sub t) (hN : ∀ i j, N i j ∈ sub t) (i : Fin (p * r)) (j : Fin (q * s)) :
    kron M N i j ∈ sub t :=
  mul_mem (hM _ _) (hN _ _)

variable {n h d n₁ n₂ h₁ h₂ d₁ d₂ d' : ℕ}

theorem groupProduct_rep {r₁ : TRep n₁ h₁ d₁} {r₂ : TRep n₂ h₂ d₂} (w₁ : WellTyped r₁) (w₂ : WellTyped r₂) :
    (groupProduct r₁ r₂).rep = r₁.rep.groupProduct r₂.rep := by
  apply Rep.ext
  · funext i j k
    have e₁ : ∀ i j k, store (getDtype [r₁.tA, r₂.tA]) (r₁.rep.A i j k) = r₁.rep.A i j k :=
      fun i j k => store_of_mem (sub_get_left _ _ (mem_sub.2 (w₁.A i j k)))
    have e₂ : ∀ i j k, store (getDtype [r₁.tA, r₂.tA]) (r₂.rep.A i j k) = r₂.rep.A i j k :=
      fun i j k => store_of_mem (sub_get_right _ _ (mem_sub.2 (w₂.A i j k)))
    simp only [groupProduct, Rep.groupProduct, e₁, e₂]
  · have e₁ : ∀ a, storeM (getDtype [r₁.tX, r₂.tX]) (kron (r₁.rep.X a) (1 : Matrix (Fin d₂) (Fin d₂) ℂ)) = kron (r₁.rep.X a) 1 :=
      fun a => storeM_of_mem (kron_mem_of (fun i j => sub_get_left _ _ (mem_sub.2 (w₁.X a i j))) (one_mem_mat _))
    have e₂ : ∀ a, storeM (getDtype [r₁.tX, r₂.tX]) (kron (1 : Matrix (Fin d₁) (Fin d₁) ℂ) (r₂.rep.X a)) = kron 1 (r₂.rep.X a) :=
      fun a => storeM_of_mem (kron_mem_of (one_mem_mat _) (fun i j => sub_get_right _ _ (mem_sub.2 (w₂.X a i j))))
    simp only [groupProduct, Rep.groupProduct, e₁, e₂]
  · have e₁ : ∀ a, storeM (getDtype [r₁.tH, r₂.tH]) (kron (r₁.rep.H a) (1 : Matrix (Fin d₂) (Fin d₂) ℂ)) = kron (r₁.rep.H a) 1 :=
      fun a => storeM_of_mem (kron_mem_of (fun i j => sub_get_left _ _ (mem_sub.2 (w₁.H a i j))) (one_mem_mat _))
    have e₂ : ∀ a, storeM (getDtype [r₁.tH, r₂.tH]) (kron (1 : Matrix (Fin d₁) (Fin d₁) ℂ) (r₂.rep.H a)) = kron 1 (r₂.rep.H a) :=
      fun a => storeM_of_mem (kron_mem_of (one_mem_mat _) (fun i j => sub_get_right _ _ (mem_sub.2 (w₂.H a i j))))
    simp only [groupProduct, Rep.groupProduct, e₁, e₂]

theorem groupProduct_typed {r₁ : TRep n₁ h₁ d₁} {r₂ : TRep n₂ h₂ d₂} (w₁ : WellTyped r₁) (w₂ : WellTyped r₂) :
    WellTyped (groupProduct r₁ r₂) := by
  have e := groupProduct_rep w₁ w₂
  constructor
  · intro i j k
    rw [e, ← mem_sub]
    simp only [Rep.groupProduct]
    refine Fin.addCases (fun i => ?_) (fun i => ?_) i
    · rw [Fin.addCases_left]
      refine Fin.addCases (fun j => ?_) (fun j => ?_) j
      · rw [Fin.addCases_left]
        refine Fin.addCases (fun k => ?_) (fun k => ?_) k
        · rw [Fin.addCases_left]; exact sub_get_left _ _ (mem_sub.2 (w₁.A i j k))
        · rw [Fin.addCases_right]; exact zero_mem _
      · rw [Fin.addCases_right]; exact zero_mem _
    · rw [Fin.addCases_right]
      refine Fin.addCases (fun j => ?_) (fun j => ?_) j
      · rw [Fin.addCases_left]; exact zero_mem _
      · rw [Fin.addCases_right]
        refine Fin.addCases (fun k => ?_) (fun k => ?_) k
        · rw [Fin.addCases_left]; exact zero_mem _
        · rw [Fin.addCases_right]; exact sub_get_right _ _ (mem_sub.2 (w₂.A i j k))
  · intro a
    rw [e]
    simp only [Rep.groupProduct]
    refine Fin.addCases (fun a => ?_) (fun a => ?_) a
    · intro i j
      rw [Fin.addCases_left, ← mem_sub]
      exact kron_mem_of (fun i j => sub_get_left _ _ (mem_sub.2 (w₁.X a i j))) (one_mem_mat _) i j
    · intro i j
      rw [Fin.addCases_right, ← mem_sub]
      exact kron_mem_of (one_mem_mat _) (fun i j => sub_get_right _ _ (mem_sub.2 (w₂.X a i j))) i j
  · intro a
    rw [e]
    simp only [Rep.groupProduct]
    refine Fin.addCases (fun a => ?_) (fun a => ?_) a
    · intro i j
      rw [Fin.addCases_left, ← mem_sub]
      exact kron_mem_of (fun i j => sub_get_left _ _ (mem_sub.2 (w₁.H a i j))) (one_mem_mat _) i j
    · intro i j
      rw [Fin.addCases_right, ← mem_sub]
      exact kron_mem_of (one_mem_mat _) (fun i j => sub_get_right _ _ (mem_sub.2 (w₂.H a i j))) i j

theorem tabulatedProduct_rep {r₁ : TRep n₁ h₁ d₁} {r₂ : TRep n₂ h₂ d₂} (w₁ : WellTyped r₁) (w₂ : WellTyped r₂) :
    (tabulatedProduct r₁ r₂).rep = r₁.rep.tabulatedProduct r₂.rep := by
  apply Rep.ext
  · funext i j k
    have e₁ : ∀ i j k, store (getDtype [r₁.tA, r₂.tA]) (r₁.rep.A i j k) = r₁.rep.A i j k :=
      fun i j k => store_of_mem (sub_get_left _ _ (mem_sub.2 (w₁.A i j k)))
    have e₂ : ∀ i j k, store (getDtype [r₁.tA, r₂.tA]) (r₂.rep.A i j k) = r₂.rep.A i j k :=
      fun i j k => store_of_mem (sub_get_right _ _ (mem_sub.2 (w₂.A i j k)))
    simp only [tabulatedProduct, Rep.tabulatedProduct, e₁, e₂]
  · have e₁ : ∀ a, storeM (getDtype [r₁.tX, r₂.tX]) (kron (r₁.rep.X a) (1 : Matrix (Fin d₂) (Fin d₂) ℂ)) = kron (r₁.rep.X a) 1 :=
      fun a => storeM_of_mem (kron_mem_of (fun i j => sub_get_left _ _ (mem_sub.2 (w₁.X a i j))) (one_mem_mat _))
    have e₂ : ∀ a, storeM (getDtype [r₁.tX, r₂.tX]) (kron (1 : Matrix (Fin d₁) (Fin d₁) ℂ) (r₂.rep.X a)) = kron 1 (r₂.rep.X a) :=
      fun a => storeM_of_mem (kron_mem_of (one_mem_mat _) (fun i j => sub_get_right _ _ (mem_sub.2 (w₂.X a i j))))
    simp only [tabulatedProduct, Rep.tabulatedProduct, e₁, e₂]
  · have e₁ : ∀ a, storeM (getDtype [r₁.tH, r₂.tH]) (kron (r₁.rep.H a) (1 : Matrix (Fin d₂) (Fin d₂) ℂ)) = kron (r₁.rep.H a) 1 :=
      fun a => storeM_of_mem (kron_mem_of (fun i j => sub_get_left _ _ (mem_sub.2 (w₁.H a i j))) (one_mem_mat _))
    have e₂ : ∀ a, storeM (getDtype [r₁.tH, r₂.tH]) (kron (1 : Matrix (Fin d₁) (Fin d₁) ℂ) (r₂.rep.H a)) = kron 1 (r₂.rep.H a) :=
      fun a => storeM_of_mem (kron_mem_of (one_mem_mat _) (fun i j => sub_get_right _ _ (mem_sub.2 (w₂.H a i j))))
    simp only [tabulatedProduct, Rep.tabulatedProduct, e₁, e₂]

theorem tabulatedProduct_typed {r₁ : TRep n₁ h₁ d₁} {r₂ : TRep n₂ h₂ d₂} (w₁ : WellTyped r₁) (w₂ : WellTyped r₂) :
    WellTyped (tabulatedProduct r₁ r₂) := by
  have e := tabulatedProduct_rep w₁ w₂
  constructor
  · intro i j k
    rw [e, ← mem_sub]
    simp only [Rep.tabulatedProduct]
    split_ifs
    · exact sub_get_left _ _ (mem_sub.2 (w₁.A _ _ _))
    · exact zero_mem _
    · exact zero_mem _
    · exact zero_mem _
    · exact zero_mem _
    · exact sub_get_right _ _ (mem_sub.2 (w₂.A _ _ _))
  · intro a i j
    rw [e, ← mem_sub]
    simp only [Rep.tabulatedProduct]
    split_ifs
    · exact kron_mem_of (fun i j => sub_get_left _ _ (mem_sub.2 (w₁.X _ i j))) (one_mem_mat _) i j
    · exact kron_mem_of (one_mem_mat _) (fun i j => sub_get_right _ _ (mem_sub.2 (w₂.X _ i j))) i j
  · intro a i j
    rw [e, ← mem_sub]
    simp only [Rep.tabulatedProduct]
    split_ifs
    · exact kron_mem_of (fun i j => sub_get_left _ _ (mem_sub.2 (w₁.H _ i j))) (one_mem_mat _) i j
    · exact kron_mem_of (one_mem_mat _) (fun i j => sub_get_right _ _ (mem_sub.2 (w₂.H _ i j))) i j

theorem tensorProduct_typed {r₁ : TRep n h d₁} {r₂ : TRep n h d₂} (w₁ : WellTyped r₁) (w₂ : WellTyped r₂) :
    WellTyped (tensorProduct r₁ r₂) := by
  refine ⟨w₁.A, fun a i j => ?_, fun a i j => ?_⟩
  · rw [← mem_sub]
    show kron (r₁.rep.X a) 1 i j + kron 1 (r₂.rep.X a) i j ∈ _
    exact add_mem (sub_left _ _ (kron_mem (fun i j => mem_sub.2 (w₁.X a i j)) (one_mem_mat _) i j))
      (sub_right _ _ (kron_mem (one_mem_mat _) (fun i j => mem_sub.2 (w₂.X a i j)) i j))
  · rw [← mem_sub]
    exact kron_mem (fun i j => mem_sub.2 (w₁.H a i j)) (fun i j => mem_sub.2 (w₂.H a i j)) i j

theorem changeBasis_typed {r : TRep n h d} (w : WellTyped r) {t : Dtype} {Q : Matrix (Fin d') (Fin d) ℂ}
    {P : Matrix (Fin d) (Fin d') ℂ} (hP : IsPinv Q P) (hQ : ∀ i j, Holds t (Q i j)) :
    WellTyped (changeBasis r t Q P) := by
  have hQ' : ∀ i j, Q i j ∈ sub t := fun i j => mem_sub.2 (hQ i j)
  refine ⟨w.A, fun a i j => ?_, fun a i j => ?_⟩
  · rw [← mem_sub]
    exact mul_mem_mat (mul_mem_mat hQ' (fun i j => mem_sub.2 (w.X a i j))) (pinv_mem hP hQ') i j
  · rw [← mem_sub]
    exact mul_mem_mat (mul_mem_mat hQ' (fun i j => mem_sub.2 (w.H a i j))) (pinv_mem hP hQ') i j

theorem changeAlgebra_typed {r : TRep n h d} (w : WellTyped r) {t : Dtype} {Q : Matrix (Fin n₁) (Fin n) ℂ}
    {P : Matrix (Fin n) (Fin n₁) ℂ} (hP : IsPinv Q P) (hQ : ∀ i j, Holds t (Q i j)) :
    WellTyped (changeAlgebra r t Q P) := by
  have hQ' : ∀ i j, Q i j ∈ sub t := fun i j => mem_sub.2 (hQ i j)
  refine ⟨fun i j k => ?_, fun a i j => ?_, w.H⟩
  · rw [← mem_sub]
    dsimp only [changeAlgebra, Rep.changeAlgebra]
    refine sum_mem fun a _ => sum_mem fun b _ => sum_mem fun c _ => ?_
    refine mul_mem (sub_left _ _ (mul_mem (sub_left _ _ (mul_mem (hQ' _ _) (hQ' _ _))) (sub_right _ _ (mem_sub.2 (w.A _ _ _))))) ?_
    exact sub_right _ _ (pinv_mem hP hQ' _ _)
  · rw [← mem_sub]
    dsimp only [changeAlgebra, Rep.changeAlgebra]
    exact sum_mem fun b _ => mul_mem (sub_left _ _ (hQ' _ _)) (sub_right _ _ (mem_sub.2 (w.X _ _ _)))

theorem conj_mem {t : Dtype} {z : ℂ} (hz : Holds t z) : Holds t (starRingEnd ℂ z) := by
  cases t
  · obtain ⟨k, rfl⟩ := hz; exact ⟨k, by simp⟩
  · have : z.im = 0 := hz
    show (starRingEnd ℂ z).im = 0
    simp [this]
  · trivial

end LieNN.Dt

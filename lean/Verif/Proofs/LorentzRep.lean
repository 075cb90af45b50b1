import Verif.Proofs.Lorentz
import Verif.Proofs.SO13CG
/-!
# The labels of `SO13` are polynomial representations of the restricted Lorentz group
-/
namespace LieNN

open Matrix NormedSpace Spec SL2C

namespace SO13

/-- The generators before the basis is made real. -/
noncomputable def rep₀ (r : SL2C) : Rep 6 0 r.dim := ⟨SO13.algebra, X₀ r, Fin.elim0⟩

theorem X₀_phase (r : SL2C) (a : Fin 6) : X₀ r a = phase a • (SL2C.rep r).X a := by
  unfold X₀ SO13.boost phase
  split_ifs <;> simp

theorem isCG₀ {r₁ r₂ r₃ : SL2C} (h : r₃ ∈ SL2C.mulL r₁ r₂) : IsCG (rep₀ r₁) (rep₀ r₂) (rep₀ r₃) (ctC r₁ r₂ r₃) := by
  obtain ⟨h1, -⟩ := SL2C.isCG h
  refine ⟨fun a i j l => ?_, fun a => a.elim0⟩
  simp only [rep₀, X₀_phase, Matrix.smul_apply, smul_eq_mul]
  have := congrArg (phase a * ·) (h1 a i j l)
  simp only [mul_add, Finset.mul_sum] at this
  rw [← Finset.sum_congr rfl fun k _ => mul_left_comm (phase a) _ _, this]
  simp only [mul_assoc]

theorem polyOf_step {b : ℕ} {base : Rep 6 0 b} {r₁ r₂ r₃ : SL2C} {e₁ e₂ : ℕ} (h1 : PolyOf base (rep₀ r₁) e₁)
    (h2 : PolyOf base (rep₀ r₂) e₂) (h : r₃ ∈ SL2C.mulL r₁ r₂) : PolyOf base (rep₀ r₃) (e₁ + e₂) := by
  refine h1.of_cg h2 (isCG₀ h) fun c c' => ?_
  have := congrArg Complex.ofReal (SL2C.ctS_orth h h c c')
  push_cast at this
  simp only [ctC, Complex.conj_ofReal]
  rw [this]
  simp only [Fin.ext_iff, true_and]
  split_ifs <;> simp

/-- The four vector as a spinor with two indices. -/
noncomputable def sigmaT : Matrix (Fin (1 + 1) × Fin (1 + 1)) (Fin 4) ℂ := Matrix.of fun p =>
  (![![![-1, 0, -1, 0], ![0, -Complex.I, 0, 1]], ![![0, Complex.I, 0, 1], ![-1, 0, 1, 0]]] : Fin (1 + 1) → Fin (1 + 1) → Fin 4 → ℂ) p.1 p.2

theorem gens_one : SU2.gens 1 = ![!![0, 1 / 2; -1 / 2, 0], !![-Complex.I / 2, 0; 0, Complex.I / 2],
    !![0, Complex.I / 2; Complex.I / 2, 0]] := by
  funext a
  have h1 : ((1 : ℝ) / 2 * (1 / 2 + 1) - -(1 / 2) * (-(1 / 2) + 1)) = 1 := by norm_num
  have h2 : ((1 : ℝ) / 2 * (1 / 2 + 1) - (-(1 / 2) + 1) * (-(1 / 2) + 1 - 1)) = 1 := by norm_num
  have c2 : ∀ x y z : Matrix (Fin 2) (Fin 2) ℂ, ![x, y, z] 2 = z := fun _ _ _ => rfl
  ext i j
  fin_cases a <;> fin_cases i <;> fin_cases j <;>
    simp [-Matrix.cons_val, c2, Matrix.cons_val_zero, Matrix.cons_val_one, Matrix.of_apply, SU2.gens, SU2.raising, SU2.lowering, SU2.zGen] <;> norm_num [h1, h2] <;> ring

theorem sigmaT_mul : sigmaT * ((1 / 2 : ℂ) • sigmaTᴴ) = 1 := by
  ext ⟨i, i'⟩ ⟨j, j'⟩
  rw [mul_apply, Fin.sum_univ_four]
  fin_cases i <;> fin_cases i' <;> fin_cases j <;> fin_cases j' <;> simp [sigmaT] <;>
    first
    | linear_combination (-1 / 2) * Complex.I_mul_I
    | linear_combination (1 / 2) * Complex.I_mul_I
    | norm_num

theorem sigmaT_inter (a : Fin 6) : (phase a • Z 1 1 a) * sigmaT = sigmaT * fourVector.X a := by
  ext ⟨i, i'⟩ j
  rw [mul_apply, Fintype.sum_prod_type, mul_apply, Fin.sum_univ_four]
  have hsum : ∀ f : Fin (1 + 1) → ℂ, ∑ i, f i = f 0 + f 1 := Fin.sum_univ_two
  have h2 : starRingEnd ℂ 2 = 2 := map_ofNat _ 2
  simp only [hsum]
  fin_cases a <;> fin_cases i <;> fin_cases i' <;> fin_cases j <;>
    simp [phase, Z, Zl, Zr, gens_one, sigmaT, fourVector, fourVectorX, kroneckerMap_apply, h2] <;> ring_nf <;> simp

theorem X₀_B (r : SL2C) (a : Fin 6) : X₀ r a = (B r.l r.k)ᵀ * (phase a • Z r.l r.k a) * B r.l r.k := by
  rw [X₀_phase, rep_X, Matrix.mul_smul, Matrix.smul_mul]

theorem vector_inter (a : Fin 6) : (rep₀ ⟨1, 1⟩).X a * ((B 1 1)ᵀ * sigmaT) = (B 1 1)ᵀ * sigmaT * fourVector.X a := by
  change X₀ ⟨1, 1⟩ a * _ = _
  rw [X₀_B]
  calc (B 1 1)ᵀ * (phase a • Z 1 1 a) * B 1 1 * ((B 1 1)ᵀ * sigmaT) =
      (B 1 1)ᵀ * ((phase a • Z 1 1 a) * ((B 1 1 * (B 1 1)ᵀ) * sigmaT)) := by simp only [Matrix.mul_assoc]
    _ = _ := by rw [B_mul, Matrix.one_mul, sigmaT_inter, ← Matrix.mul_assoc]

theorem vector_inv : ((B 1 1)ᵀ * sigmaT) * (((1 / 2 : ℂ) • sigmaTᴴ) * B 1 1) = 1 := by
  calc (B 1 1)ᵀ * sigmaT * (((1 / 2 : ℂ) • sigmaTᴴ) * B 1 1) = (B 1 1)ᵀ * (sigmaT * ((1 / 2 : ℂ) • sigmaTᴴ)) * B 1 1 := by
        simp only [Matrix.mul_assoc]
    _ = 1 := by rw [sigmaT_mul, Matrix.mul_one, B_mul']

theorem polyOf_vector : PolyOf fourVector (rep₀ ⟨1, 1⟩) 1 :=
  (PolyOf.refl fourVector).image vector_inv vector_inter fun a => a.elim0

theorem gens_zero (a : Fin 3) : SU2.gens 0 a = 0 := by
  have := SU2.trace_eq_zero (j := 0) a
  ext i k
  have h1 : Matrix.trace (SU2.gens 0 a) = SU2.gens 0 a 0 0 := by
    rw [Matrix.trace]
    exact Fin.sum_univ_one _
  change SU2.gens 0 a i k = 0
  rw [Fin.fin_one_eq_zero i, Fin.fin_one_eq_zero k, ← h1]
  exact this

theorem X₀_trivial (a : Fin 6) : X₀ ⟨0, 0⟩ a = 0 := by
  rw [X₀_B]
  have : Z 0 0 a = 0 := by
    unfold Z Zl Zr
    simp [gens_zero]
  rw [this, smul_zero, Matrix.mul_zero, Matrix.zero_mul]

theorem polyOf_label (m : ℕ) : ∀ l k : ℕ, max l k = m → Even (l + k) → PolyOf fourVector (rep₀ ⟨l, k⟩) m := by
  induction m with
  | zero =>
    intro l k hm _
    obtain ⟨rfl, rfl⟩ : l = 0 ∧ k = 0 := by omega
    exact PolyOf.trivial _ X₀_trivial fun a => a.elim0
  | succ m ih =>
    intro l k hm he
    have he' : (l + k) % 2 = 0 := Nat.even_iff.1 he
    have step : ∀ l' k', max l' k' = m → (l' + k') % 2 = 0 → l ∈ SU2.mulL l' 1 → k ∈ SU2.mulL k' 1 →
        PolyOf fourVector (rep₀ ⟨l, k⟩) (m + 1) := fun l' k' h1 h2 h3 h4 =>
      polyOf_step (ih l' k' h1 (Nat.even_iff.2 h2)) polyOf_vector (SL2C.mem_mulL.2 ⟨h3, h4⟩)
    have up : ∀ j, j + 1 ∈ SU2.mulL j 1 := fun j => SU2.mem_mulL.2 ⟨1, j, 0, by omega, by omega, by omega⟩
    have down : 0 ∈ SU2.mulL 1 1 := SU2.mem_mulL.2 ⟨0, 0, 1, by omega, by omega, by omega⟩
    rcases l with - | l
    · rcases k with - | k
      · omega
      · exact step 1 k (by omega) (by omega) down (up k)
    · rcases k with - | k
      · exact step l 1 (by omega) (by omega) (up l) down
      · exact step l k (by omega) (by omega) (up l) (up k)

/-- The representation with the generators that `SO13.continuous_generators` returns. -/
theorem polyOf_twist {r : SL2C} (he : Even (r.l + r.k)) {W : Matrix (Fin r.dim) (Fin r.dim) ℂ}
    {X : Fin 6 → Matrix (Fin r.dim) (Fin r.dim) ℂ} (h : Twist phase W (SL2C.rep r).X X) :
    PolyOf fourVector (⟨SO13.algebra, X, Fin.elim0⟩ : Rep 6 0 r.dim) (max r.l r.k) := by
  refine (polyOf_label _ r.l r.k rfl he).image (T := W) h.right (fun a => ?_) fun a => a.elim0
  change X a * W = W * X₀ r a
  rw [h.eq, X₀_phase, Matrix.smul_mul, Matrix.mul_smul, Matrix.mul_assoc, h.left, Matrix.mul_one]

theorem twist_isRep {r : SL2C} {W : Matrix (Fin r.dim) (Fin r.dim) ℂ}
    {X : Fin 6 → Matrix (Fin r.dim) (Fin r.dim) ℂ} (h : Twist phase W (SL2C.rep r).X X) :
    IsRep (⟨SO13.algebra, X, Fin.elim0⟩ : Rep 6 0 r.dim) := by
  have hu : IsUnit W := ⟨⟨W, Wᴴ, h.right, h.left⟩, rfl⟩
  refine similar_bracket (W := W) hu (fun i => ?_) (X₀_bracket r)
  change X i = _
  rw [h.eq, X₀_phase, inv_eq_right_inv h.right, Matrix.mul_smul, Matrix.smul_mul]

/-- Only real combinations matter: the generators are independent over the reals. -/
theorem X₀_indep {r : SL2C} (h : r.l ≠ 0 ∨ r.k ≠ 0) {c : Fin 6 → ℝ} (hc : ∑ a, (c a : ℂ) • X₀ r a = 0) : c = 0 := by
  have key : ∀ {α β : Fin 3 → ℂ} {F G : Fin 3 → Matrix (Fin r.dim) (Fin r.dim) ℂ}, Su2Mats F → (∀ a b, F a * G b = G b * F a) →
      F 1 ≠ 0 → ∑ a, α a • F a + ∑ a, β a • G a = 0 → α = 0 := by
    intro α β F G hF hFG h0 hs
    have hi := su2_indep hF.h01 hF.h12 hF.h20 h0
    have hcom : ∀ b, (∑ a, α a • F a) * F b = F b * ∑ a, α a • F a := by
      intro b
      rw [eq_neg_of_add_eq_zero_left hs, Matrix.neg_mul, Matrix.mul_neg, Matrix.sum_mul, Matrix.mul_sum]
      congr 1
      refine Finset.sum_congr rfl fun a _ => ?_
      rw [Matrix.smul_mul, Matrix.mul_smul, hFG]
    have c0 := hcom 0
    have c1 := hcom 1
    rw [Fin.sum_univ_three] at c0 c1
    have e0 : α 2 • F 1 + (-α 1) • F 2 = 0 := by
      have : (α 0 • F 0 + α 1 • F 1 + α 2 • F 2) * F 0 - F 0 * (α 0 • F 0 + α 1 • F 1 + α 2 • F 2) =
          α 2 • (F 2 * F 0 - F 0 * F 2) - α 1 • (F 0 * F 1 - F 1 * F 0) := by
        simp only [Matrix.mul_add, Matrix.add_mul, Matrix.mul_smul, Matrix.smul_mul, smul_sub]
        abel
      rw [c0, sub_self, hF.h20, hF.h01] at this
      rw [neg_smul, ← sub_eq_add_neg, ← this]
    have e1 : α 0 • F 2 + (-α 2) • F 0 = 0 := by
      have : (α 0 • F 0 + α 1 • F 1 + α 2 • F 2) * F 1 - F 1 * (α 0 • F 0 + α 1 • F 1 + α 2 • F 2) =
          α 0 • (F 0 * F 1 - F 1 * F 0) - α 2 • (F 1 * F 2 - F 2 * F 1) := by
        simp only [Matrix.mul_add, Matrix.add_mul, Matrix.mul_smul, Matrix.smul_mul, smul_sub]
        abel
      rw [c1, sub_self, hF.h01, hF.h12] at this
      rw [neg_smul, ← sub_eq_add_neg, ← this]
    have i0 := Fintype.linearIndependent_iff.1 hi ![0, α 2, -α 1] (by rw [Fin.sum_univ_three]; simpa using e0)
    have i1 := Fintype.linearIndependent_iff.1 hi ![-α 2, 0, α 0] (by rw [Fin.sum_univ_three]; simpa [add_comm] using e1)
    funext a
    fin_cases a
    · simpa using i1 2
    · simpa using i0 2
    · simpa using i0 1
  have hs : ∑ a : Fin 3, ((c (Fin.castAdd 3 a) : ℂ) + Complex.I * c (Fin.natAdd 3 a)) • lm r a +
      ∑ a : Fin 3, ((c (Fin.castAdd 3 a) : ℂ) - Complex.I * c (Fin.natAdd 3 a)) • rm r a = 0 := by
    rw [← hc, show ∑ a : Fin 6, (c a : ℂ) • X₀ r a = ∑ a : Fin (3 + 3), (c a : ℂ) • X₀ r a from rfl, Fin.sum_univ_add,
      ← Finset.sum_add_distrib, ← Finset.sum_add_distrib]
    refine Finset.sum_congr rfl fun a _ => ?_
    rw [X₀_castAdd, X₀_natAdd]
    module
  have fin : (∀ a : Fin 3, c (Fin.castAdd 3 a) = 0 ∧ c (Fin.natAdd 3 a) = 0) → c = 0 := by
    intro h
    funext a
    refine Fin.addCases (m := 3) (n := 3) (fun a => (h a).1) (fun a => (h a).2) a
  have hB : ∀ M : Matrix (Fin (r.l + 1) × Fin (r.k + 1)) (Fin (r.l + 1) × Fin (r.k + 1)) ℂ,
      (B r.l r.k)ᵀ * M * B r.l r.k = 0 → M = 0 := by
    intro M hM
    calc M = (B r.l r.k * (B r.l r.k)ᵀ) * M * (B r.l r.k * (B r.l r.k)ᵀ) := by rw [B_mul, Matrix.one_mul, Matrix.mul_one]
      _ = B r.l r.k * ((B r.l r.k)ᵀ * M * B r.l r.k) * (B r.l r.k)ᵀ := by simp only [Matrix.mul_assoc]
      _ = 0 := by rw [hM, Matrix.mul_zero, Matrix.zero_mul]
  rcases h with h | h
  · have h0 : lm r 1 ≠ 0 := by
      intro e
      have := hB _ e
      apply SU2.gens_ne (j := r.l) (by omega)
      ext i j
      have := congrFun (congrFun this (i, 0)) (j, 0)
      simpa [Zl, kroneckerMap_apply] using this
    have e := key (su2Mats_lm r) (lm_rm r) h0 hs
    refine fin fun a => ?_
    have := congrFun e a
    have h1 := congrArg Complex.re this
    have h2 := congrArg Complex.im this
    simp [-Fin.natAdd_eq_addNat] at h1 h2
    exact ⟨h1, h2⟩
  · have h0 : rm r 1 ≠ 0 := by
      intro e
      have := hB _ e
      apply SU2.gens_ne (j := r.k) (by omega)
      ext i j
      have := congrFun (congrFun this (0, i)) (0, j)
      simpa [Zr, kroneckerMap_apply] using this
    have e := key (su2Mats_rm r) (fun a b => (lm_rm r b a).symm) h0 (by rw [add_comm]; exact hs)
    refine fin fun a => ?_
    have := congrFun e a
    have h1 := congrArg Complex.re this
    have h2 := congrArg Complex.im this
    simp [-Fin.natAdd_eq_addNat] at h1 h2
    exact ⟨h1, h2⟩

theorem twist_indep {r : SL2C} (h : r.l ≠ 0 ∨ r.k ≠ 0) {W : Matrix (Fin r.dim) (Fin r.dim) ℂ}
    {X : Fin 6 → Matrix (Fin r.dim) (Fin r.dim) ℂ} (hW : Twist phase W (SL2C.rep r).X X) {c : Fin 6 → ℝ}
    (hc : ∑ a, (c a : ℂ) • X a = 0) : c = 0 := by
  refine X₀_indep h ?_
  have : ∑ a, (c a : ℂ) • X₀ r a = Wᴴ * (∑ a, (c a : ℂ) • X a) * W := by
    rw [Matrix.mul_sum, Matrix.sum_mul]
    refine Finset.sum_congr rfl fun a _ => ?_
    rw [hW.eq, X₀_phase, Matrix.mul_smul, Matrix.smul_mul, Matrix.mul_smul, Matrix.smul_mul]
    congr 2
    calc (SL2C.rep r).X a = (Wᴴ * W) * (SL2C.rep r).X a * (Wᴴ * W) := by rw [hW.left, Matrix.one_mul, Matrix.mul_one]
      _ = _ := by simp only [Matrix.mul_assoc]
  rw [this, hc, Matrix.mul_zero, Matrix.zero_mul]

end SO13

variable {n b d : ℕ}

theorem exists_word (r : Rep n 0 d) : ∀ w : List ((Fin n → ℝ) × (Fin 0 → ℤ)), ∃ G, WordVal r w G
  | [] => ⟨1, .nil⟩
  | (_, _) :: w => by
    obtain ⟨G, hG⟩ := exists_word r w
    exact ⟨_, .cons (expMap_zero _ _ _) hG⟩

theorem wordVal_append {h : ℕ} {r : Rep n h d} {w w' : List ((Fin n → ℝ) × (Fin h → ℤ))} {G G' : Matrix (Fin d) (Fin d) ℂ}
    (hG : WordVal r w G) (hG' : WordVal r w' G') : WordVal r (w ++ w') (G * G') := by
  induction hG with
  | nil => rw [Matrix.one_mul]; exact hG'
  | cons hg _ ih => rw [Matrix.mul_assoc]; exact .cons hg ih

/-- Conjugation of the generators by a product of exponentials. -/
theorem conj_word {r : Rep n 0 d} (hr : IsRep r) {w : List ((Fin n → ℝ) × (Fin 0 → ℤ))} {G : Matrix (Fin d) (Fin d) ℂ}
    {D : Matrix (Fin n) (Fin n) ℂ} (hG : WordVal r w G) (hD : WordVal (adRep r.A) w D) (a : Fin n) :
    G * r.X a = ∑ b, D b a • (r.X b * G) := by
  induction hG generalizing D a with
  | nil =>
    rw [hD.nil_inv]
    simp [Matrix.one_apply, ite_smul]
  | @cons c k w g G hg hG ih =>
    obtain ⟨δ, D', hδ, hD', rfl⟩ := WordVal.cons_inv hD
    have e := conj_gens hr (fun a => (c a : ℂ))
    have hg' : exp (∑ b, (c b : ℂ) • r.X b) = g := Except.ok.inj hg
    have hδ' : exp (∑ b, (c b : ℂ) • (adRep r.A).X b) = δ := Except.ok.inj hδ
    simp only [hg', hδ'] at e
    rw [Matrix.mul_assoc, ih hD' a, Matrix.mul_sum]
    have : ∀ b, g * (D' b a • (r.X b * G)) = ∑ c, (δ c b * D' b a) • (r.X c * (g * G)) := by
      intro b
      rw [Matrix.mul_smul, ← Matrix.mul_assoc, e b, Matrix.sum_mul, Finset.smul_sum]
      refine Finset.sum_congr rfl fun c _ => ?_
      rw [Matrix.smul_mul, smul_smul, mul_comm, Matrix.mul_assoc]
    simp only [this]
    rw [Finset.sum_comm]
    refine Finset.sum_congr rfl fun c _ => ?_
    rw [mul_apply, Finset.sum_smul]

theorem wordVal_real {r : Rep n 0 d} (hX : ∀ a, (r.X a).map (starRingEnd ℂ) = r.X a)
    {w : List ((Fin n → ℝ) × (Fin 0 → ℤ))} {G : Matrix (Fin d) (Fin d) ℂ} (hG : WordVal r w G) : ∃ R, ofRealMat d R = G := by
  induction hG with
  | nil => exact ⟨1, map_one _⟩
  | cons hg _ ih =>
    obtain ⟨R, rfl⟩ := ih
    exact ⟨_, (map_mul _ _ _).trans (congrArg (· * _) (real_expMap hX (fun a => a.elim0) hg))⟩

/-- When a product is one in a representation that is faithful over the reals, it commutes with the generators in every other. -/
theorem commute_of_word {r : Rep n 0 d} {s : Rep n 0 b} (hr : IsRep r) (hs : IsRep s) (hA : r.A = s.A)
    (hre : ∀ a b c, (s.A a b c).im = 0) (hli : ∀ c : Fin n → ℝ, ∑ a, (c a : ℂ) • s.X a = 0 → c = 0)
    {w : List ((Fin n → ℝ) × (Fin 0 → ℤ))} {G : Matrix (Fin d) (Fin d) ℂ} (h1 : WordVal s w 1) (hG : WordVal r w G) (a : Fin n) :
    G * r.X a = r.X a * G := by
  obtain ⟨D, hD⟩ := exists_word (adRep s.A) w
  obtain ⟨R, rfl⟩ := wordVal_real (r := adRep s.A) (fun a => by
    ext i j
    exact Complex.conj_eq_iff_im.2 (hre _ _ _)) hD
  have hd : ∀ b, R b a = if b = a then 1 else 0 := by
    have e := conj_word hs h1 hD a
    rw [Matrix.one_mul] at e
    simp only [Matrix.mul_one] at e
    have hz : ∑ b, ((R b a - if b = a then 1 else 0 : ℝ) : ℂ) • s.X b = 0 := by
      have : ∀ b, ((R b a - if b = a then 1 else 0 : ℝ) : ℂ) = ofRealMat n R b a - if b = a then 1 else 0 := by
        intro b
        push_cast
        split_ifs <;> rfl
      simp only [this, sub_smul, Finset.sum_sub_distrib, ← e, ite_smul, one_smul, zero_smul, Finset.sum_ite_eq',
        Finset.mem_univ, if_true, sub_self]
    intro b
    exact sub_eq_zero.1 (congrFun (hli _ hz) b)
  rw [conj_word hr hG (hA ▸ hD) a]
  have : ∀ b, ofRealMat n R b a = if b = a then 1 else 0 := by
    intro b
    change ((R b a : ℝ) : ℂ) = _
    rw [hd]
    split_ifs <;> simp
  simp only [this, ite_smul, one_smul, zero_smul, Finset.sum_ite_eq', Finset.mem_univ, if_true]

namespace SO13

theorem algebra_real (a b c : Fin 6) : (SO13.algebra a b c).im = 0 := Complex.intCast_im _

/-- What commutes with the generators of the four vector is a multiple of one. -/
theorem fourVector_schur {G : Matrix (Fin 4) (Fin 4) ℂ} (hG : ∀ a, G * fourVector.X a = fourVector.X a * G) : ∃ z : ℂ, G = z • 1 := by
  set T : Matrix (Fin 4) (Fin 4) ℂ := (B 1 1)ᵀ * sigmaT with hT
  set T' : Matrix (Fin 4) (Fin 4) ℂ := ((1 / 2 : ℂ) • sigmaTᴴ) * B 1 1 with hT'
  have h1 : T * T' = 1 := vector_inv
  have h2 : T' * T = 1 := mul_eq_one_comm.1 h1
  have hi : ∀ a, X₀ ⟨1, 1⟩ a * T = T * fourVector.X a := vector_inter
  have hi' : ∀ a, fourVector.X a * T' = T' * X₀ ⟨1, 1⟩ a := by
    intro a
    calc fourVector.X a * T' = T' * T * fourVector.X a * T' := by rw [h2, Matrix.one_mul]
      _ = T' * (X₀ ⟨1, 1⟩ a * T) * T' := by rw [hi]; simp only [Matrix.mul_assoc]
      _ = T' * X₀ ⟨1, 1⟩ a * (T * T') := by simp only [Matrix.mul_assoc]
      _ = _ := by rw [h1, Matrix.mul_one]
  have hc : ∀ a, X₀ ⟨1, 1⟩ a * (T * G * T') = (T * G * T') * X₀ ⟨1, 1⟩ a := by
    intro a
    calc X₀ ⟨1, 1⟩ a * (T * G * T') = (X₀ ⟨1, 1⟩ a * T) * G * T' := by simp only [Matrix.mul_assoc]
      _ = T * (fourVector.X a * G) * T' := by rw [hi]; simp only [Matrix.mul_assoc]
      _ = T * G * (fourVector.X a * T') := by rw [← hG]; simp only [Matrix.mul_assoc]
      _ = _ := by rw [hi']; simp only [Matrix.mul_assoc]
  obtain ⟨z, hz⟩ := schur (Props.C64_irreducible ⟨1, 1⟩) (S := T * G * T') (fun a => by
    have hp := phase_unit a
    have e := hc a
    rw [X₀_phase, Matrix.smul_mul, Matrix.mul_smul] at e
    have := congrArg (star (phase a) • ·) e
    simpa only [smul_smul, hp, one_smul] using this)
  refine ⟨z, ?_⟩
  calc G = (T' * T) * G * (T' * T) := by rw [h2, Matrix.one_mul, Matrix.mul_one]
    _ = T' * (T * G * T') * T := by simp only [Matrix.mul_assoc]
    _ = z • 1 := by
      rw [hz, Matrix.mul_smul, Matrix.smul_mul]
      exact congrArg (z • ·) (by rw [Matrix.mul_one, h2])

theorem lorentz_scalar {L : Matrix (Fin 4) (Fin 4) ℝ} (hL : L ∈ lorentz) {z : ℂ} (h : ofRealMat 4 L = z • 1) : L = 1 := by
  obtain ⟨h1, -, h3⟩ := hL
  have e : L = L 0 0 • 1 := by
    apply ofRealMat_injective 4
    rw [h]
    have hz : z = (L 0 0 : ℂ) := by
      have := congrFun (congrFun h 0) 0
      rw [Matrix.smul_apply, one_apply_eq, smul_eq_mul, mul_one] at this
      exact this.symm
    ext i j
    rw [hz, Matrix.smul_apply]
    change _ = (((L 0 0 • (1 : Matrix (Fin 4) (Fin 4) ℝ)) i j : ℝ) : ℂ)
    rw [Matrix.smul_apply, one_apply, one_apply]
    split_ifs <;> simp
  have hc := lorentz_col h1
  have z1 : L 1 0 = 0 := by rw [e]; simp
  have z2 : L 2 0 = 0 := by rw [e]; simp
  have z3 : L 3 0 = 0 := by rw [e]; simp
  rw [z1, z2, z3] at hc
  have : L 0 0 = 1 := by nlinarith
  rw [e, this, one_smul]

theorem lorentz_inv {L : Matrix (Fin 4) (Fin 4) ℝ} (hL : L ∈ lorentz) : ∃ M ∈ lorentz, M * L = 1 ∧ L * M = 1 := by
  obtain ⟨h1, h2, h3⟩ := hL
  have ht : etaᵀ = eta := by rw [eta, diagonal_transpose]
  have e1 : eta * Lᵀ * eta * L = 1 := by
    rw [Matrix.mul_assoc, Matrix.mul_assoc, ← Matrix.mul_assoc Lᵀ, h1, eta_mul_eta]
  refine ⟨eta * Lᵀ * eta, ⟨?_, ?_, ?_⟩, e1, mul_eq_one_comm.1 e1⟩
  · rw [transpose_mul, transpose_mul, transpose_transpose, ht]
    calc eta * (L * eta) * eta * (eta * Lᵀ * eta) = eta * (L * eta * (eta * eta) * Lᵀ) * eta := by simp only [Matrix.mul_assoc]
      _ = eta := by rw [eta_mul_eta, Matrix.mul_one, lorentz_swap h1, eta_mul_eta, Matrix.one_mul]
  · have := congrArg Matrix.det e1
    rwa [det_mul, h2, mul_one, det_one] at this
  · have : (eta * Lᵀ * eta) 0 0 = L 0 0 := by
      rw [eta, mul_diagonal, diagonal_mul]
      simp
    rw [this]
    exact h3

end SO13
end LieNN

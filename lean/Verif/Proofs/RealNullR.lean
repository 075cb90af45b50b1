import Verif.Model.SU2Under
import Verif.Spec.SUNCG
import Verif.Proofs.Nullspace
import Verif.Proofs.Rational
/-!
# `nullspace` of a real matrix with rounding
-/
namespace LieNN.SUN

open Spec Finset Matrix

variable {m n : ℕ} {eigh : EighFn} {eps : ℝ} {rnd : ℝ → ℝ}

/-- A real vector as a complex one. -/
noncomputable def toC (x : Fin n → ℝ) : Vec n := WithLp.toLp 2 fun i => (x i : ℂ)

theorem toC_apply (x : Fin n → ℝ) (i : Fin n) : toC x i = (x i : ℂ) := rfl

theorem mapC_mulVec (A : Matrix (Fin m) (Fin n) ℝ) (x : Vec n) :
    A.map ((↑) : ℝ → ℂ) *ᵥ x.ofLp = 0 ↔ A *ᵥ (fun i => (x i).re) = 0 ∧ A *ᵥ (fun i => (x i).im) = 0 := by
  have e : ∀ k, (A.map ((↑) : ℝ → ℂ) *ᵥ x.ofLp) k =
      ⟨(A *ᵥ fun i => (x i).re) k, (A *ᵥ fun i => (x i).im) k⟩ := by
    intro k
    apply Complex.ext
    · simp [mulVec, dotProduct]
    · simp [mulVec, dotProduct]
  constructor
  · intro h
    constructor
    · funext k
      have := congrArg Complex.re (congrFun h k)
      rw [e] at this
      exact this
    · funext k
      have := congrArg Complex.im (congrFun h k)
      rw [e] at this
      exact this
  · rintro ⟨h1, h2⟩
    funext k
    rw [e, h1, h2]
    rfl

theorem inner_toC (x y : Fin n → ℝ) : inner ℂ (toC x) (toC y) = ((x ⬝ᵥ y : ℝ) : ℂ) := by
  rw [PiLp.inner_apply, dotProduct]
  push_cast
  refine sum_congr rfl fun i _ => ?_
  simp [toC_apply, mul_comm]

/-- The matrix of which the eigenvectors are computed. -/
theorem rndGram (A : Matrix (Fin m) (Fin n) ℝ) (hB : ∀ i j, rnd ((Aᵀ * A) i j) = (Aᵀ * A) i j) :
    ((Aᵀ * A).map rnd).map ((↑) : ℝ → ℂ) = (A.map ((↑) : ℝ → ℂ))ᴴ * A.map ((↑) : ℝ → ℂ) := by
  ext i j
  rw [Matrix.map_apply, Matrix.map_apply, hB, Matrix.mul_apply, Matrix.mul_apply]
  push_cast
  refine sum_congr rfl fun k _ => ?_
  rw [conjTranspose_apply, Matrix.map_apply, Matrix.map_apply, transpose_apply, RCLike.star_def, Complex.conj_ofReal]

/-- The projection on a line. -/
theorem nullProj_line (he : EighSpec eigh) (heps : 0 < eps) (A : Matrix (Fin m) (Fin n) ℝ)
    (hgap : Gap eps (A.map ((↑) : ℝ → ℂ))) {v : Fin n → ℝ} (hv : v ⬝ᵥ v = 1)
    (hk : ∀ x : Fin n → ℝ, A *ᵥ x = 0 ↔ ∃ c : ℝ, x = c • v) (i j : Fin n) :
    (nullProj eps (eigh n ((A.map ((↑) : ℝ → ℂ))ᴴ * A.map ((↑) : ℝ → ℂ))).1
      (eigh n ((A.map ((↑) : ℝ → ℂ))ᴴ * A.map ((↑) : ℝ → ℂ))).2 i j).re = v i * v j := by
  obtain ⟨ho, hev⟩ := eigh_spec_mul he (A.map ((↑) : ℝ → ℂ))
  have hsel := selSpan_eq_kernel eps heps ho hev hgap
  have hk' : ∀ x : Vec n, A.map ((↑) : ℝ → ℂ) *ᵥ x.ofLp = 0 ↔ ∃ c : ℂ, x = c • toC v := by
    intro x
    rw [mapC_mulVec, hk, hk]
    constructor
    · rintro ⟨⟨c, hc⟩, ⟨d, hd⟩⟩
      refine ⟨⟨c, d⟩, ?_⟩
      ext i
      rw [PiLp.smul_apply, toC_apply, smul_eq_mul]
      apply Complex.ext
      · have := congrFun hc i
        simpa using this
      · have := congrFun hd i
        simpa using this
    · rintro ⟨c, rfl⟩
      exact ⟨⟨c.re, by funext i; simp [toC_apply]⟩, ⟨c.im, by funext i; simp [toC_apply]⟩⟩
  have h1 := nullProj_mem (val := (eigh n ((A.map ((↑) : ℝ → ℂ))ᴴ * A.map ((↑) : ℝ → ℂ))).1)
    (vec := (eigh n ((A.map ((↑) : ℝ → ℂ))ᴴ * A.map ((↑) : ℝ → ℂ))).2) eps i
  rw [hsel] at h1
  obtain ⟨c, hc⟩ := (hk' _).1 h1
  have hvm : toC v ∈ selSpan eps (eigh n ((A.map ((↑) : ℝ → ℂ))ᴴ * A.map ((↑) : ℝ → ℂ))).1
      (eigh n ((A.map ((↑) : ℝ → ℂ))ᴴ * A.map ((↑) : ℝ → ℂ))).2 := by
    rw [hsel]
    exact (hk' _).2 ⟨1, (one_smul ℂ _).symm⟩
  have h2 := nullProj_inner eps ho i _ hvm
  rw [hc, inner_smul_right, inner_toC, hv, EuclideanSpace.inner_single_right, toC_apply, Complex.conj_ofReal] at h2
  have hcv : c = (v i : ℂ) := by simpa using h2.symm
  rw [hc, hcv, PiLp.smul_apply, toC_apply, smul_eq_mul, ← Complex.ofReal_mul, Complex.ofReal_re]

theorem nullProj_none (he : EighSpec eigh) (heps : 0 < eps) (A : Matrix (Fin m) (Fin n) ℝ)
    (hgap : Gap eps (A.map ((↑) : ℝ → ℂ))) (hk : ∀ x : Fin n → ℝ, A *ᵥ x = 0 → x = 0) (i j : Fin n) :
    (nullProj eps (eigh n ((A.map ((↑) : ℝ → ℂ))ᴴ * A.map ((↑) : ℝ → ℂ))).1
      (eigh n ((A.map ((↑) : ℝ → ℂ))ᴴ * A.map ((↑) : ℝ → ℂ))).2 i j).re = 0 := by
  obtain ⟨ho, hev⟩ := eigh_spec_mul he (A.map ((↑) : ℝ → ℂ))
  have hsel := selSpan_eq_kernel eps heps ho hev hgap
  have h1 := nullProj_mem (val := (eigh n ((A.map ((↑) : ℝ → ℂ))ᴴ * A.map ((↑) : ℝ → ℂ))).1)
    (vec := (eigh n ((A.map ((↑) : ℝ → ℂ))ᴴ * A.map ((↑) : ℝ → ℂ))).2) eps i
  rw [hsel] at h1
  exact congrFun (hk _ ((mapC_mulVec A _).1 h1).1) j

theorem gsReduceR_line {v : Fin n → ℝ} (hv : v ⬝ᵥ v = 1) (c : ℝ) : gsReduceR [v] (c • v) = 0 := by
  change c • v - (v ⬝ᵥ (c • v)) • v = 0
  rw [dotProduct_smul, hv, smul_eq_mul, mul_one, sub_self]

theorem gsRnd_stay (heps : 0 < eps) {v : Fin n → ℝ} (hv : v ⬝ᵥ v = 1) (cs : List ℝ) :
    gsRnd rnd eps (cs.map fun c => c • v) [v] = [v] := by
  induction cs with
  | nil => rfl
  | cons c cs ih =>
    rw [List.map_cons, gsRnd]
    simp only [gsReduceR_line hv, dotProduct_zero, Real.sqrt_zero]
    rw [if_neg (not_lt.2 heps.le), ih]

theorem gsRnd_first (heps : 0 < eps) {v : Fin n → ℝ} (hv : v ⬝ᵥ v = 1) (hr : ∀ i, rnd (v i) = v i) (pre : List ℝ)
    (hpre : ∀ c ∈ pre, c = 0) {c : ℝ} (hc : eps < c) (post : List ℝ) :
    gsRnd rnd eps ((pre ++ c :: post).map fun c => c • v) [] = [v] := by
  induction pre with
  | nil =>
    have e : gsReduceR [] (c • v) = c • v := rfl
    have hn : Real.sqrt ((c • v) ⬝ᵥ (c • v)) = c := by
      rw [dotProduct_smul, smul_dotProduct, hv, smul_eq_mul, smul_eq_mul, mul_one, Real.sqrt_mul_self (by linarith)]
    rw [List.nil_append, List.map_cons, gsRnd]
    simp only [e, hn]
    rw [if_pos hc, List.nil_append]
    have : (fun i => rnd ((c • v) i / c)) = v := by
      funext i
      rw [Pi.smul_apply, smul_eq_mul, mul_div_cancel_left₀ _ (by linarith), hr]
    rw [this]
    exact gsRnd_stay heps hv post
  | cons d pre ih =>
    have hd : d = 0 := hpre d (by simp)
    subst hd
    have e : gsReduceR [] ((0 : ℝ) • v) = 0 := zero_smul ℝ v
    rw [List.cons_append, List.map_cons, gsRnd]
    simp only [e, dotProduct_zero, Real.sqrt_zero]
    rw [if_neg (not_lt.2 heps.le)]
    exact ih fun c hc => hpre c (by simp [hc])

/-- The null space is a line, and its first component that does not vanish is positive and above the
tolerance. -/
theorem nullRnd_one (he : EighSpec eigh) (heps : 0 < eps) (A : Matrix (Fin m) (Fin n) ℝ)
    (hB : ∀ i j, rnd ((Aᵀ * A) i j) = (Aᵀ * A) i j) (hgap : Gap eps (A.map ((↑) : ℝ → ℂ)))
    {v : Fin n → ℝ} (hv : v ⬝ᵥ v = 1) (hk : ∀ x : Fin n → ℝ, A *ᵥ x = 0 ↔ ∃ c : ℝ, x = c • v)
    (hr : ∀ i, rnd (v i) = v i) (hr2 : ∀ i j, rnd (v i * v j) = v i * v j) {i₀ : Fin n}
    (h0 : ∀ i < i₀, v i = 0) (hi : eps < v i₀) : nullRnd rnd eigh eps m n A = [v] := by
  unfold nullRnd
  simp only [rndGram A hB, nullProj_line he heps A hgap hv hk, hr2]
  have e : (List.ofFn fun i j => v i * v j) = (List.ofFn v).map fun c => c • v := by
    rw [List.map_ofFn]
    rfl
  rw [e]
  have hlen : (i₀ : ℕ) < (List.ofFn v).length := by rw [List.length_ofFn]; exact i₀.2
  have hsplit : List.ofFn v = (List.ofFn v).take i₀ ++ v i₀ :: (List.ofFn v).drop (i₀ + 1) := by
    conv_lhs => rw [← List.take_append_drop i₀ (List.ofFn v), List.drop_eq_getElem_cons hlen]
    rw [List.getElem_ofFn]
  rw [hsplit]
  refine gsRnd_first heps hv hr _ ?_ hi _
  intro c hc
  obtain ⟨k, hk', rfl⟩ := List.mem_take_iff_getElem.1 hc
  rw [List.getElem_ofFn]
  exact h0 _ (by rw [Fin.lt_def]; simp only; omega)

theorem gsRnd_zero (heps : 0 < eps) (k : ℕ) : gsRnd rnd eps (List.replicate k (0 : Fin n → ℝ)) [] = [] := by
  induction k with
  | zero => rfl
  | succ k ih =>
    have e : gsReduceR [] (0 : Fin n → ℝ) = 0 := rfl
    rw [List.replicate_succ, gsRnd]
    simp only [e, dotProduct_zero, Real.sqrt_zero]
    rw [if_neg (not_lt.2 heps.le), ih]

theorem nullRnd_none (he : EighSpec eigh) (heps : 0 < eps) (A : Matrix (Fin m) (Fin n) ℝ)
    (hB : ∀ i j, rnd ((Aᵀ * A) i j) = (Aᵀ * A) i j) (hgap : Gap eps (A.map ((↑) : ℝ → ℂ)))
    (hk : ∀ x : Fin n → ℝ, A *ᵥ x = 0 → x = 0) (hr : rnd 0 = 0) : nullRnd rnd eigh eps m n A = [] := by
  unfold nullRnd
  simp only [rndGram A hB, nullProj_none he heps A hgap hk, hr]
  rw [List.ofFn_const]
  exact gsRnd_zero heps n

theorem exactNull_one {A : Matrix (Fin m) (Fin n) ℝ} {v : Fin n → ℝ} (hv : v ⬝ᵥ v = 1)
    (hk : ∀ x : Fin n → ℝ, A *ᵥ x = 0 ↔ ∃ c : ℝ, x = c • v) : ExactNull A [v] := by
  refine ⟨List.pairwise_singleton _ _, by simpa using hv, fun x => ?_⟩
  have : {y | y ∈ [v]} = {v} := by
    ext y
    simp
  rw [hk, this, Submodule.mem_span_singleton]
  exact ⟨fun ⟨c, h⟩ => ⟨c, h.symm⟩, fun ⟨c, h⟩ => ⟨c, h.symm⟩⟩

theorem exactNull_none {A : Matrix (Fin m) (Fin n) ℝ} (hk : ∀ x : Fin n → ℝ, A *ᵥ x = 0 → x = 0) : ExactNull A [] := by
  refine ⟨List.Pairwise.nil, by simp, fun x => ?_⟩
  have : {y : Fin n → ℝ | y ∈ ([] : List (Fin n → ℝ))} = ∅ := by
    ext y
    simp
  rw [this, Submodule.span_empty, Submodule.mem_bot]
  exact ⟨hk x, fun h => by rw [h, mulVec_zero]⟩

/-- All vectors of the result are rounded, and before the rounding they have norm one. -/
theorem gsRnd_range (heps : 0 ≤ eps) (P : (Fin n → ℝ) → Prop)
    (hP : ∀ u : Fin n → ℝ, u ⬝ᵥ u = 1 → P fun i => rnd (u i)) : ∀ (A Q : List (Fin n → ℝ)), (∀ q ∈ Q, P q) →
    ∀ q ∈ gsRnd rnd eps A Q, P q
  | [], Q, hQ => hQ
  | a :: A, Q, hQ => by
    intro q hq
    rw [gsRnd] at hq
    split_ifs at hq with hc
    · refine gsRnd_range heps P hP A _ ?_ q hq
      intro q hq
      rcases List.mem_append.1 hq with hq | hq
      · exact hQ q hq
      · rw [List.mem_singleton.1 hq]
        refine hP _ ?_
        have hpos : 0 < gsReduceR Q a ⬝ᵥ gsReduceR Q a := Real.sqrt_pos.1 (lt_of_le_of_lt heps hc)
        have : (fun i => gsReduceR Q a i / Real.sqrt (gsReduceR Q a ⬝ᵥ gsReduceR Q a)) =
            (Real.sqrt (gsReduceR Q a ⬝ᵥ gsReduceR Q a))⁻¹ • gsReduceR Q a := by
          funext i
          rw [Pi.smul_apply, smul_eq_mul, div_eq_inv_mul]
        rw [this, dotProduct_smul, smul_dotProduct, smul_eq_mul, smul_eq_mul, ← mul_assoc, ← mul_inv,
          Real.mul_self_sqrt hpos.le, inv_mul_cancel₀ hpos.ne']
    · exact gsRnd_range heps P hP A Q hQ q hq

/-! ## The rounding -/

open Rational

/-- The rounding of a number of absolute value at most one. -/
theorem roundSqrtAux_range (N : ℤ) (x : ℝ) (hx : |x| ≤ 1) : ∃ (a b : ℤ) (F : ℕ), 0 ≤ a ∧ 1 ≤ b ∧ b ≤ N ^ 2 + 1 ∧
    ∃ v : ℝ, v ^ 2 = a / b ∧ ∀ fuel ≥ F, roundSqrtAux fuel x N = some (.ok v) := by
  have hM : 1 ≤ N ^ 2 + 1 := by nlinarith [sq_nonneg N]
  have hx2 : |x ^ 2| ≤ 1 := by
    rw [abs_pow]
    exact pow_le_one₀ (abs_nonneg x) hx
  obtain ⟨p, q, h1, h2, h3⟩ : ∃ p q : ℤ, asApprox (x ^ 2) = .ok (p, q) ∧ 0 < q ∧ Int.gcd p q = 1 := by
    rcases lt_or_ge (|x ^ 2| * 2 ^ 51) 1 with h | h
    · exact ⟨0, 1, (asApprox_spec _).1 h, one_pos, by simp⟩
    · obtain ⟨p, q, a, b, c, -⟩ := (asApprox_spec _).2.2 h (hx2.trans (by norm_num))
      exact ⟨p, q, a, b, c⟩
  obtain ⟨a, b, F, hb1, hb2, hl⟩ : ∃ (a b : ℤ) (F : ℕ), 1 ≤ b ∧ b ≤ N ^ 2 + 1 ∧
      ∀ fuel ≥ F, limitDenominator fuel p q (N ^ 2 + 1) = some (a, b) := by
    by_cases hq : q = N ^ 2 + 1
    · refine ⟨0, 1, 1, le_rfl, hM, fun fuel hf => ?_⟩
      rw [hq]
      exact limitDenominator_eq_max p _ hM fuel (by omega)
    · obtain ⟨a, b, h, hb1, hb2, -⟩ := limitDenominator_spec p q (N ^ 2 + 1) h2 h3 hM hq
      exact ⟨a, b, q.toNat + 1, hb1, hb2, fun fuel hf => h fuel (by omega)⟩
  have hv : ∀ fuel ≥ F, roundSqrtAux fuel x N = some (.ok ((SignType.sign x : ℤ) * Real.sqrt (a / b))) := by
    intro fuel hf
    unfold roundSqrtAux
    rw [h1]
    simp only [hl fuel hf]
  have hb' : (0 : ℝ) < b := by exact_mod_cast hb1
  by_cases hz : x = 0 ∨ a ≤ 0
  · refine ⟨0, 1, F, le_rfl, le_rfl, hM, _, ?_, hv⟩
    rcases hz with rfl | ha
    · simp
    · have : Real.sqrt (a / b) = 0 :=
        Real.sqrt_eq_zero_of_nonpos (div_nonpos_of_nonpos_of_nonneg (by exact_mod_cast ha) hb'.le)
      rw [this]
      simp
  · push Not at hz
    refine ⟨a, b, F, hz.2.le, hb1, hb2, _, ?_, hv⟩
    have ha' : (0 : ℝ) < a := by exact_mod_cast hz.2
    have hs : ((SignType.sign x : ℤ) : ℝ) ^ 2 = 1 := by
      rcases lt_or_gt_of_ne hz.1 with h | h
      · rw [sign_neg h]; norm_num
      · rw [sign_pos h]; norm_num
    rw [mul_pow, hs, one_mul, Real.sq_sqrt (by positivity)]

end LieNN.SUN

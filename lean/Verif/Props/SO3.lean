import Verif.Proofs.SO3Table
import Verif.Proofs.RepOps
import Verif.Proofs.ReducedRed
import Verif.Spec.Irreps
import Verif.Props.SU2
/-!
# C37, C38, C63: `SO3`, `O3` and `Z2`
-/
namespace LieNN.Props

open Matrix NormedSpace LieNN LieNN.Spec

/-! ## C37 -/

/-- C37: the change of basis from the real to the complex spherical harmonics is unitary. -/
theorem C37_unitary (l : ℕ) : SO3.changeBasis l * (SO3.changeBasis l)ᴴ = 1 ∧
    (SO3.changeBasis l)ᴴ * SO3.changeBasis l = 1 :=
  ⟨SO3.changeBasis_mul l, SO3.changeBasis_mul' l⟩

/-- C37: the transformed generators have no imaginary part, so the assertion of
`continuous_generators` never fails and dropping the imaginary part loses nothing. -/
theorem C37_real (l : ℕ) : ∃ X, SO3.gens l = .ok X ∧
    ∀ a, (X a).map Complex.ofReal = (SO3.changeBasis l)ᴴ * SU2.gens (2 * l) a * SO3.changeBasis l := by
  refine ⟨_, SO3.gens_eq l, fun a => ?_⟩
  ext i j
  exact SO3.re_of (SO3.gensC_real a i j)

/-- C37: the generators returned are antisymmetric and satisfy the brackets of `su(2)`, which are
those of `SO3.algebra()`. -/
theorem C37_representation (l : ℕ) : ∃ X, SO3.gens l = .ok X ∧ (∀ a, (X a)ᵀ = -X a) ∧
    X 0 * X 1 - X 1 * X 0 = X 2 ∧ X 1 * X 2 - X 2 * X 1 = X 0 ∧ X 2 * X 0 - X 0 * X 2 = X 1 ∧
    IsRep (SO3.rep l) ∧ (SO3.rep l).X = fun a => (X a).map Complex.ofReal := by
  have hX : (SO3.rep l).X = fun a => ((SO3.gensC l a).map Complex.re).map Complex.ofReal := by
    unfold SO3.rep; simp only [SO3.gens_eq]
  have inj : ∀ {A B : Matrix (Fin (SO3.dim l)) (Fin (SO3.dim l)) ℝ},
      A.map Complex.ofReal = B.map Complex.ofReal → A = B := by
    intro A B h
    ext i j
    exact Complex.ofReal_injective (congrFun (congrFun h i) j)
  have hmul : ∀ A B : Matrix (Fin (SO3.dim l)) (Fin (SO3.dim l)) ℝ,
      (A * B).map Complex.ofReal = A.map Complex.ofReal * B.map Complex.ofReal :=
    fun A B => Matrix.map_mul (f := Complex.ofRealHom)
  have hsub : ∀ A B : Matrix (Fin (SO3.dim l)) (Fin (SO3.dim l)) ℝ,
      (A - B).map Complex.ofReal = A.map Complex.ofReal - B.map Complex.ofReal := by
    intro A B; ext i j; exact Complex.ofReal_sub _ _
  have br := SO3.isRep l
  rw [show IsRep (SO3.rep l) ↔ ∀ i j, (SO3.rep l).X i * (SO3.rep l).X j -
    (SO3.rep l).X j * (SO3.rep l).X i = ∑ k, SU2.algebra i j k • (SO3.rep l).X k from Iff.rfl, hX] at br
  refine ⟨_, SO3.gens_eq l, fun a => ?_, ?_, ?_, ?_, SO3.isRep l, hX⟩
  · have := SO3.skew l a
    rw [hX] at this
    ext i j
    have e := congrFun (congrFun this i) j
    apply Complex.ofReal_injective
    rw [Matrix.conjTranspose_apply] at e
    change star ((_ : ℝ) : ℂ) = _ at e
    rw [show ∀ t : ℝ, star (t : ℂ) = t from Complex.conj_ofReal] at e
    exact e.trans (Complex.ofReal_neg _).symm
  · apply inj
    rw [hsub, hmul, hmul]
    exact (br 0 1).trans (by simp [SU2.algebra, Fin.sum_univ_three])
  · apply inj
    rw [hsub, hmul, hmul]
    exact (br 1 2).trans (by simp [SU2.algebra, Fin.sum_univ_three])
  · apply inj
    rw [hsub, hmul, hmul]
    exact (br 2 0).trans (by simp [SU2.algebra, Fin.sum_univ_three])

/-- C37: a negative `l` is refused by `SU2(j=2 * l)`. -/
theorem C37_negative (l : ℤ) (h : l < 0) : SO3.gensZ l = .error .assertionError := by
  unfold SO3.gensZ SU2.make pyAssert
  rw [if_neg (by omega)]
  rfl

/-- C37: the irreps stay irreducible in the real basis. -/
theorem C37_irreducible (l : ℕ) (S : Matrix (Fin (SO3.dim l)) (Fin (SO3.dim l)) ℂ)
    (hS : ∀ a, (SO3.rep l).X a * S = S * (SO3.rep l).X a) : ∃ c : ℂ, S = c • 1 := by
  set Q := SO3.changeBasis l with hQ
  have h1 := SO3.changeBasis_mul l
  have h2 := SO3.changeBasis_mul' l
  rw [← hQ] at h1 h2
  have hT : ∀ a, (Q * S * Qᴴ) * SU2.gens (2 * l) a = SU2.gens (2 * l) a * (Q * S * Qᴴ) := by
    intro a
    have := hS a
    rw [SO3.rep_X, ← hQ] at this
    calc (Q * S * Qᴴ) * SU2.gens (2 * l) a = Q * (S * (Qᴴ * SU2.gens (2 * l) a * Q)) * Qᴴ := by
          simp only [Matrix.mul_assoc]; rw [h1, Matrix.mul_one]
      _ = Q * Qᴴ * SU2.gens (2 * l) a * (Q * S * Qᴴ) := by
          rw [← this]; simp only [Matrix.mul_assoc]
      _ = _ := by rw [h1, Matrix.one_mul]
  obtain ⟨c, hc⟩ := SU2.commutant _ hT
  refine ⟨c, ?_⟩
  calc S = Qᴴ * Q * S * (Qᴴ * Q) := by rw [h2, Matrix.one_mul, Matrix.mul_one]
    _ = Qᴴ * (Q * S * Qᴴ) * Q := by simp only [Matrix.mul_assoc]
    _ = _ := by rw [hc, Matrix.mul_smul, Matrix.smul_mul, Matrix.mul_one, h2]

/-- The real basis of `l = 1` mixes the weights `-1` and `1`. -/
example : SO3.changeBasis 1 0 0 = -1 / ((√2 : ℝ) : ℂ) ∧ SO3.changeBasis 1 1 1 = -Complex.I := by
  constructor
  · rw [SO3.changeBasis_apply]
    simp [SO3.al, SO3.s2, ← mul_assoc, neg_div]
  · rw [SO3.changeBasis_apply]
    simp [SO3.al]

/-! ## C38 -/

theorem smul_one_zpow {d : ℕ} {c : ℂ} (hc : c ≠ 0) (k : ℤ) :
    (c • (1 : Matrix (Fin d) (Fin d) ℂ)) ^ k = (c ^ k) • 1 := by
  have hn : ∀ n : ℕ, (c • (1 : Matrix (Fin d) (Fin d) ℂ)) ^ n = (c ^ n) • 1 := fun n => by
    rw [smul_pow, one_pow]
  cases k with
  | ofNat n => simpa using hn n
  | negSucc n =>
    rw [_root_.zpow_negSucc, _root_.zpow_negSucc, hn]
    apply Matrix.inv_eq_right_inv
    rw [Matrix.smul_mul, Matrix.mul_smul, smul_smul, mul_inv_cancel₀ (pow_ne_zero _ hc), one_smul,
      Matrix.mul_one]

/-- C38: `O3(l, p)` is a unitary representation whose discrete generator is an involution that
commutes with the continuous ones. -/
theorem C38_parity (r : O3) (hp : r.p = 1 ∨ r.p = -1) : IsRep (O3.rep r) ∧ IsUnitaryRep (O3.rep r) ∧
    (O3.rep r).H 0 * (O3.rep r).H 0 = 1 ∧ ∀ a, Commute ((O3.rep r).H 0) ((O3.rep r).X a) := by
  have hpp : (r.p : ℂ) * r.p = 1 := by rcases hp with h | h <;> rw [h] <;> norm_num
  have hsp : star (r.p : ℂ) = r.p := by rcases hp with h | h <;> rw [h] <;> simp
  refine ⟨SO3.isRep r.l, ⟨fun _ => ?_, SO3.skew r.l⟩, ?_, fun a => ?_⟩
  · change ((r.p : ℂ) • (1 : Matrix (Fin r.dim) (Fin r.dim) ℂ)) * ((r.p : ℂ) • 1)ᴴ = 1
    rw [Matrix.conjTranspose_smul, Matrix.conjTranspose_one, hsp, Matrix.smul_mul, Matrix.mul_smul,
      smul_smul, hpp, one_smul, Matrix.mul_one]
  · change ((r.p : ℂ) • (1 : Matrix (Fin r.dim) (Fin r.dim) ℂ)) * ((r.p : ℂ) • 1) = 1
    rw [Matrix.smul_mul, Matrix.mul_smul, smul_smul, hpp, one_smul, Matrix.mul_one]
  · exact (Commute.one_left _).smul_left _

/-- C38: `exp_map` of `O3(l, p)` never raises; it is the rotation of `SO3(l)` times `p ^ k`. -/
theorem C38_exp_map (r : O3) (hp : r.p = 1 ∨ r.p = -1) (c : Fin 3 → ℂ) (k : ℤ) :
    ∃ R, (SO3.rep r.l).expMap c Fin.elim0 = .ok R ∧
      (O3.rep r).expMap c (fun _ => k) = .ok (((r.p : ℂ) ^ k) • R) := by
  refine ⟨_, Rep.expMap_ok _ _ _ (fun a => a.elim0), ?_⟩
  have hp0 : (r.p : ℂ) ≠ 0 := by rcases hp with h | h <;> rw [h] <;> norm_num
  have hH : ∀ i, (O3.rep r).H i = (r.p : ℂ) • 1 := fun _ => rfl
  have hu : IsUnit ((r.p : ℂ) • (1 : Matrix (Fin r.dim) (Fin r.dim) ℂ)) := by
    rw [Matrix.isUnit_iff_isUnit_det, Matrix.det_smul, Matrix.det_one, mul_one]
    exact (IsUnit.mk0 _ hp0).pow _
  rw [Rep.expMap_ok _ _ _ (fun i _ => by rw [hH]; exact hu)]
  congr 1
  unfold Rep.discreteVal
  rw [List.finRange_succ, List.finRange_zero]
  simp only [List.map_nil, List.map_cons, List.prod_nil, List.prod_cons, mul_one, hH,
    smul_one_zpow hp0, Matrix.smul_mul, Matrix.one_mul]
  rfl

/-- C38: `exp_map` of `O3(l, p)` is a group action of `SO3 × Z2`: if the rotations of `c₁` and `c₂`
compose to that of `c₃` in `SO3(l)` and `k₃ ≡ k₁ + k₂` modulo 2, then the matrices multiply. -/
theorem C38_group (r : O3) (hp : r.p = 1 ∨ r.p = -1) (c₁ c₂ c₃ : Fin 3 → ℂ) (k₁ k₂ k₃ : ℤ)
    (hk : k₃ ≡ k₁ + k₂ [ZMOD 2]) {R₁ R₂ R₃ : Matrix (Fin (SO3.dim r.l)) (Fin (SO3.dim r.l)) ℂ}
    (h₁ : (SO3.rep r.l).expMap c₁ Fin.elim0 = .ok R₁) (h₂ : (SO3.rep r.l).expMap c₂ Fin.elim0 = .ok R₂)
    (h₃ : (SO3.rep r.l).expMap c₃ Fin.elim0 = .ok R₃) (hR : R₁ * R₂ = R₃) :
    ∃ g₁ g₂, (O3.rep r).expMap c₁ (fun _ => k₁) = .ok g₁ ∧ (O3.rep r).expMap c₂ (fun _ => k₂) = .ok g₂ ∧
      (O3.rep r).expMap c₃ (fun _ => k₃) = .ok (g₁ * g₂) := by
  obtain ⟨S₁, e₁, f₁⟩ := C38_exp_map r hp c₁ k₁
  obtain ⟨S₂, e₂, f₂⟩ := C38_exp_map r hp c₂ k₂
  obtain ⟨S₃, e₃, f₃⟩ := C38_exp_map r hp c₃ k₃
  obtain rfl := Except.ok.inj (h₁.symm.trans e₁)
  obtain rfl := Except.ok.inj (h₂.symm.trans e₂)
  obtain rfl := Except.ok.inj (h₃.symm.trans e₃)
  refine ⟨_, _, f₁, f₂, ?_⟩
  rw [f₃, Matrix.smul_mul, Matrix.mul_smul, smul_smul, hR]
  congr 2
  have hp0 : (r.p : ℂ) ≠ 0 := by rcases hp with h | h <;> rw [h] <;> norm_num
  rw [← zpow_add₀ hp0]
  rcases hp with h | h
  · rw [h]; simp
  · rw [h]; push_cast
    rcases Int.even_or_odd k₃ with hk3 | hk3
    · rw [hk3.neg_one_zpow, Even.neg_one_zpow]
      rw [Int.even_iff] at hk3 ⊢
      exact (show (k₁ + k₂) % 2 = k₃ % 2 from hk.symm).trans hk3
    · rw [hk3.neg_one_zpow, Odd.neg_one_zpow]
      rw [Int.odd_iff] at hk3 ⊢
      exact (show (k₁ + k₂) % 2 = k₃ % 2 from hk.symm).trans hk3

/-- C38: the selection rule of `O3`: the triangle rule for `l`, and the parities multiply. -/
theorem C38_selection (r₁ r₂ r₃ : O3) : r₃ ∈ O3.mul r₁ r₂ ↔
    (r₁.l ≤ r₂.l + r₃.l ∧ r₂.l ≤ r₁.l + r₃.l ∧ r₃.l ≤ r₁.l + r₂.l) ∧ r₃.p = r₁.p * r₂.p := by
  rw [O3.mem_mul, SO3.mem_mulR]
  exact and_congr Iff.rfl eq_comm

/-- C38: `Z2(p)` sends the generator to `p`, an involution, and `exp_map` adds exponents modulo 2. -/
theorem C38_z2 (p : ℤ) (hp : p = 1 ∨ p = -1) : (Z2.rep p).H 0 * (Z2.rep p).H 0 = 1 ∧
    IsUnitaryRep (Z2.rep p) ∧ ∀ c k, (Z2.rep p).expMap c (fun _ => k) = .ok (((p : ℂ) ^ k) • 1) := by
  have hpp : (p : ℂ) * p = 1 := by rcases hp with h | h <;> rw [h] <;> norm_num
  have hsp : star (p : ℂ) = p := by rcases hp with h | h <;> rw [h] <;> simp
  have hp0 : (p : ℂ) ≠ 0 := by rcases hp with h | h <;> rw [h] <;> norm_num
  have hH : ∀ i, (Z2.rep p).H i = (p : ℂ) • 1 := fun _ => rfl
  refine ⟨?_, ⟨fun _ => ?_, fun a => a.elim0⟩, fun c k => ?_⟩
  · rw [hH, Matrix.smul_mul, Matrix.mul_smul, smul_smul, hpp, one_smul, Matrix.mul_one]
  · rw [hH, Matrix.conjTranspose_smul, Matrix.conjTranspose_one, hsp, Matrix.smul_mul,
      Matrix.mul_smul, smul_smul, hpp, one_smul, Matrix.mul_one]
  · have hu : IsUnit ((p : ℂ) • (1 : Matrix (Fin 1) (Fin 1) ℂ)) := by
      rw [Matrix.isUnit_iff_isUnit_det, Matrix.det_smul, Matrix.det_one, mul_one]
      exact (IsUnit.mk0 _ hp0).pow _
    rw [Rep.expMap_ok _ _ _ (fun i _ => by rw [hH]; exact hu)]
    congr 1
    unfold Rep.discreteVal
    rw [List.finRange_succ, List.finRange_zero]
    simp only [List.map_nil, List.map_cons, List.prod_nil, List.prod_cons, mul_one, hH,
      smul_one_zpow hp0, Finset.univ_eq_empty, Finset.sum_empty,
      exp_zero]

/-- C38: nothing checks `p`: `O3(0, 0)` has a discrete generator that is not invertible, and
`exp_map` with a negative power raises. -/
theorem C38_unchecked : (O3.rep ⟨0, 0⟩).expMap 0 (fun _ => -1) = .error .valueError := by
  unfold Rep.expMap
  rw [List.finRange_succ, List.finRange_zero]
  simp only [List.map_nil, List.foldr_cons, List.foldr_nil]
  rw [matrixPower_error (by norm_num)]
  · rfl
  · change ¬ IsUnit (((0 : ℤ) : ℂ) • (1 : Matrix (Fin 1) (Fin 1) ℂ))
    rw [Int.cast_zero, zero_smul]
    exact not_isUnit_zero

example : (O3.mk 1 (-1)).p = 1 ∨ (O3.mk 1 (-1)).p = -1 := by simp

/-! ## C63 -/

/-- C63: `SO3.clebsch_gordan` never raises (its result is real before the imaginary part is dropped),
returns one solution when the triangle rule holds and none otherwise. -/
theorem C63_shape (l₁ l₂ l₃ : ℕ) : ∃ L, SO3.cg l₁ l₂ l₃ = .ok L ∧
    (Triangle (2 * l₁) (2 * l₂) (2 * l₃) → L.length = 1) ∧
    (¬ Triangle (2 * l₁) (2 * l₂) (2 * l₃) → L = []) := by
  by_cases h : Triangle (2 * l₁) (2 * l₂) (2 * l₃)
  · exact ⟨_, SO3.cg_eq (triangle_iff.2 h), fun _ => rfl, fun h' => absurd h h'⟩
  · exact ⟨_, SO3.cg_eq_nil (fun h' => h (triangle_iff.1 h')), fun h' => absurd h' h, fun _ => rfl⟩

/-- C63: the coefficients of `SO3` intertwine the real generators. -/
theorem C63_equivariant {l₁ l₂ l₃ : ℕ} {L} (hL : SO3.cg l₁ l₂ l₃ = .ok L) :
    ∀ C ∈ L, IsCG (SO3.rep l₁) (SO3.rep l₂) (SO3.rep l₃) (fun a b c => ((C a b c : ℝ) : ℂ)) := by
  intro C hC
  by_cases h : 2 * l₃ ∈ SU2.mulL (2 * l₁) (2 * l₂)
  · rw [SO3.cg_eq h] at hL
    obtain rfl := Except.ok.inj hL
    rw [List.mem_singleton.1 hC]
    exact SO3.isCG h
  · rw [SO3.cg_eq_nil h] at hL
    obtain rfl := Except.ok.inj hL
    simp at hC

/-- C63: they are orthonormal. -/
theorem C63_orthonormal {l₁ l₂ l₃ l₄ : ℕ} (h3 : Triangle (2 * l₁) (2 * l₂) (2 * l₃))
    (h4 : Triangle (2 * l₁) (2 * l₂) (2 * l₄)) :
    ∃ C D, SO3.cg l₁ l₂ l₃ = .ok [C] ∧ SO3.cg l₁ l₂ l₄ = .ok [D] ∧
      ∀ c d, ∑ a, ∑ b, C a b c * D a b d = if l₃ = l₄ ∧ (c : ℕ) = d then 1 else 0 :=
  ⟨_, _, SO3.cg_eq (triangle_iff.2 h3), SO3.cg_eq (triangle_iff.2 h4), fun c d =>
    SO3.ctR_orth (SO3.mem_double.1 (triangle_iff.2 h3)) (SO3.mem_double.1 (triangle_iff.2 h4)) c d⟩

/-- C63: the coefficients of `O3` are equivariant, also under the parity. -/
theorem C63_o3_equivariant {r₁ r₂ r₃ : O3} {L} (hL : O3.cg r₁ r₂ r₃ = .ok L) :
    ∀ C ∈ L, IsCG (O3.rep r₁) (O3.rep r₂) (O3.rep r₃) (fun a b c => ((C a b c : ℝ) : ℂ)) := by
  intro C hC
  unfold O3.cg at hL
  split_ifs at hL with hp
  · by_cases h : 2 * r₃.l ∈ SU2.mulL (2 * r₁.l) (2 * r₂.l)
    · rw [SO3.cg_eq h] at hL
      obtain rfl := Except.ok.inj hL
      rw [List.mem_singleton.1 hC]
      exact O3.isCG (SO3.mem_double.1 h) hp
    · rw [SO3.cg_eq_nil h] at hL
      obtain rfl := Except.ok.inj hL
      simp at hC
  · obtain rfl := Except.ok.inj hL
    simp at hC

/-- C63: `tensor_product` of two irreps of `SO3` or of `O3` returns a `ReducedRep` that acts as the
tensor product. -/
theorem C63_tensor_product :
    (∀ i j : ℕ, ∃ r, tpTab (T := SO3.table) i j = .ok r ∧
      Acts r ((SO3.rep i).tensorProduct (SO3.rep j))) ∧
    (∀ i j : O3, ∃ r, tpTab (T := O3.table) i j = .ok r ∧
      Acts r ((O3.rep i).tensorProduct (O3.rep j))) := by
  refine ⟨fun i j => ?_, fun i j => ?_⟩
  · obtain ⟨r, hr⟩ := GoodPair.run (SO3.table_good i j)
    exact ⟨r, hr, tpTab_acts (by norm_num) SO3.table_equivariant (SO3.table_good i j).sols hr⟩
  · obtain ⟨r, hr⟩ := GoodPair.run (O3.table_good i j)
    exact ⟨r, hr, tpTab_acts (by norm_num) O3.table_equivariant (O3.table_good i j).sols hr⟩

/-- C63 (finding): `tensor_product` of two irreps of `Z2` returns a `ReducedRep` with the right
discrete generator, but its `continuous_generators()` raises (`np.stack` of an empty list). -/
theorem C63_z2_partial (i j : ℤ) : ∃ r, tpTab (T := Z2.table) i j = .ok r ∧
    r.discreteGenerators = .ok (List.ofFn fun a =>
      ⟨1 * 1, 1 * 1, ((Z2.rep i).tensorProduct (Z2.rep j)).H a⟩) ∧
    r.continuousGenerators = .error .valueError := by
  obtain ⟨r, hr⟩ := GoodPair.run (Z2.table_good i j)
  exact ⟨r, hr, tpTab_discrete Z2.table_equivariant (Z2.table_good i j).sols hr, rfl⟩

/-- C63 (finding): so no object returned for `Z2` acts as the tensor product. -/
theorem C63_z2_false : ¬ ∀ i j : ℤ, ∃ r, tpTab (T := Z2.table) i j = .ok r ∧
    Acts r ((Z2.rep i).tensorProduct (Z2.rep j)) := by
  intro h
  obtain ⟨r, -, -, hr, -⟩ := h 1 (-1)
  have e : r.continuousGenerators = .error .valueError := rfl
  rw [e] at hr
  exact absurd hr (by simp)

example : Triangle (2 * 1) (2 * 1) (2 * 1) ∧ Triangle (2 * 1) (2 * 1) (2 * 2) := by
  unfold Triangle; omega

end LieNN.Props

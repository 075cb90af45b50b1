import Verif.Proofs.GroupRepOnto
import Mathlib.RingTheory.RootsOfUnity.Complex
/-!
# C90: `exp_map` of the tabulated irreps is a representation of the group

The parameters of `exp_map` are coordinates of the Lie algebra.  The theorems say that its result depends only on
the group element, which is the matrix of the defining representation, and that it is multiplicative there.
-/
namespace LieNN.Props

open Matrix NormedSpace LieNN LieNN.Spec

/-! ## `SU2` -/

/-- C90: the matrices of `SU2(1)` are the matrices of the group `SU(2)`. -/
theorem C90_su2_group (U : Matrix (Fin 2) (Fin 2) ℂ) : U ∈ specialUnitaryGroup (Fin 2) ℂ ↔
    ∃ c : Fin 3 → ℝ, (SU2.rep 1).expMap (fun a => (c a : ℂ)) Fin.elim0 = .ok U :=
  ⟨SU2.onto, fun ⟨_, hc⟩ => mem_special (C36_unitary 1).1 (C36_unitary 1).2 hc⟩

/-- C90: there is exactly one homomorphism from `SU(2)` that `exp_map` of `SU2(j)` computes. -/
theorem C90_su2 (j : ℕ) : ∃! ρ : specialUnitaryGroup (Fin 2) ℂ →* specialUnitaryGroup (Fin (SU2.dim j)) ℂ,
    ∀ (c : Fin 3 → ℝ) (U : specialUnitaryGroup (Fin 2) ℂ), (SU2.rep 1).expMap (fun a => (c a : ℂ)) Fin.elim0 = .ok U.1 →
      (SU2.rep j).expMap (fun a => (c a : ℂ)) Fin.elim0 = .ok (ρ U).1 := by
  obtain ⟨ρ, h1, h2⟩ := (SU2.polyOf j).homInto (specialUnitaryGroup (Fin 2) ℂ).subtype
    (fun U => ⟨_, Fin.elim0, (SU2.onto U.2).choose_spec⟩) (specialUnitaryGroup (Fin (SU2.dim j)) ℂ).subtype
    Subtype.val_injective fun c k g hg => ⟨⟨g, mem_special (C36_unitary j).1 (C36_unitary j).2 hg⟩, rfl⟩
  exact ⟨ρ, fun c U => h1 c Fin.elim0 U, fun ρ' h => h2 ρ' fun c k U hc => h c U hc⟩

/-- C90: the entries are homogeneous polynomials of degree `j` in the entries of the group element. -/
theorem C90_su2_polynomial (j : ℕ) : ∃ P : Fin (SU2.dim j) → Fin (SU2.dim j) → MvPolynomial (Fin 2 × Fin 2) ℂ,
    (∀ a b, (P a b).IsHomogeneous j) ∧ ∀ (c : Fin 3 → ℝ) g, (SU2.rep 1).expMap (fun a => (c a : ℂ)) Fin.elim0 = .ok g →
      (SU2.rep j).expMap (fun a => (c a : ℂ)) Fin.elim0 = .ok (evalMat P g) := by
  obtain ⟨P, hP, h⟩ := SU2.polyOf j
  refine ⟨P, hP, fun c g hg => ?_⟩
  obtain ⟨g', G, hg', hG, e⟩ := WordVal.cons_inv (h [(c, Fin.elim0)] _ (.cons hg .nil))
  rw [hG.nil_inv, Matrix.mul_one, Matrix.mul_one] at e
  rw [hg', ← e]

/-- A multiple of one goes to a power of it. -/
theorem polyOf_smul {n h b d e : ℕ} {base : Rep n h b} {r : Rep n h d} (hp : PolyOf base r e) {c : Fin n → ℝ} {k : Fin h → ℤ} {z : ℂ}
    (hc : base.expMap (fun a => (c a : ℂ)) k = .ok (z • 1)) : r.expMap (fun a => (c a : ℂ)) k = .ok (z ^ e • 1) := by
  obtain ⟨P, hP, h⟩ := hp
  obtain ⟨g', G, hg', hG, e'⟩ := WordVal.cons_inv (h [(c, k)] _ (.cons hc .nil))
  have h1 := (h [] 1 .nil).nil_inv
  rw [hG.nil_inv, Matrix.mul_one, Matrix.mul_one, evalMat_smul hP, h1] at e'
  rw [hg', ← e']

/-- C90: `SU2(j)`, `j ≥ 1`, sends a group element to one only if it is one, or minus one and `j` is even. -/
theorem C90_su2_kernel {j : ℕ} (hj : 1 ≤ j) (c : Fin 3 → ℝ) :
    (SU2.rep j).expMap (fun a => (c a : ℂ)) Fin.elim0 = .ok 1 ↔
      (SU2.rep 1).expMap (fun a => (c a : ℂ)) Fin.elim0 = .ok 1 ∨
      Even j ∧ (SU2.rep 1).expMap (fun a => (c a : ℂ)) Fin.elim0 = .ok (-1) := by
  have hsm : ∀ z : ℂ, (SU2.rep 1).expMap (fun a => (c a : ℂ)) Fin.elim0 = .ok (z • 1) →
      (SU2.rep j).expMap (fun a => (c a : ℂ)) Fin.elim0 = .ok (z ^ j • 1) := fun z hz => polyOf_smul (SU2.polyOf j) hz
  constructor
  · intro h
    have h1 := Except.ok.inj h
    have hcomm := commute_of_one (SU2.isRep 1) (SU2.isRep j) rfl (SU2.indep hj) h1
    obtain ⟨z, hz⟩ := SU2.commutant (j := 1) _ hcomm
    have hz' : (SU2.rep 1).expMap (fun a => (c a : ℂ)) Fin.elim0 = .ok (z • 1) := by rw [expMap_zero]; exact congrArg _ hz
    have hdet := (mem_specialUnitaryGroup_iff.1 (mem_special (C36_unitary 1).1 (C36_unitary 1).2 hz')).2
    rw [det_smul, det_one, mul_one, Fintype.card_fin] at hdet
    rcases sq_eq_sq_iff_eq_or_eq_neg.1 (show z ^ 2 = 1 ^ 2 by rw [one_pow]; exact hdet) with rfl | rfl
    · left
      rw [hz', one_smul]
    · right
      have h2 := hsm _ hz'
      rw [h] at h2
      have h3 := congrFun (congrFun (Except.ok.inj h2) 0) 0
      rw [Matrix.smul_apply, one_apply_eq, smul_eq_mul, mul_one] at h3
      refine ⟨(neg_one_pow_eq_one_iff_even (by norm_num)).1 h3.symm, ?_⟩
      rw [hz', neg_smul, one_smul]
  · rintro (h | ⟨hj, h⟩)
    · have := hsm 1 (by rw [one_smul]; exact h)
      rwa [one_pow, one_smul] at this
    · have := hsm (-1) (by rw [neg_smul, one_smul]; exact h)
      rwa [hj.neg_one_pow, one_smul] at this

/-! ## `SO3` -/

/-- The entries of `exp_map` of `SO3(l)` are real; the result is a rotation. -/
theorem so3_rotation (l : ℕ) {c : Fin 3 → ℝ} {k : Fin 0 → ℤ} {g : Matrix (Fin (SO3.dim l)) (Fin (SO3.dim l)) ℂ}
    (hg : (SO3.rep l).expMap (fun a => (c a : ℂ)) k = .ok g) :
    ∃ R ∈ specialOrthogonalGroup (Fin (SO3.dim l)) ℝ, R.map Complex.ofReal = g := by
  have hr : ofRealMat _ (g.map Complex.re) = g := real_expMap (SO3.conj_X l) (fun a => a.elim0) hg
  have hs := mem_specialUnitaryGroup_iff.1 (mem_special (SO3.unitary l) (SO3.trace_zero l) hg)
  rw [← hr] at hs
  refine ⟨g.map Complex.re, mem_specialOrthogonalGroup_iff.2 ⟨orthogonal_iff_unitary.2 (mem_unitaryGroup_iff.1 hs.1), ?_⟩, hr⟩
  have := hs.2
  rw [det_ofRealMat] at this
  exact_mod_cast this

/-- C90: the matrices of `SO3(1)` are the rotations. -/
theorem C90_so3_group (R : Matrix (Fin 3) (Fin 3) ℝ) : R ∈ specialOrthogonalGroup (Fin 3) ℝ ↔
    ∃ c : Fin 3 → ℝ, (SO3.rep 1).expMap (fun a => (c a : ℂ)) Fin.elim0 = .ok (R.map Complex.ofReal) := by
  refine ⟨SO3.onto, fun ⟨c, hc⟩ => ?_⟩
  obtain ⟨R', hR', e⟩ := so3_rotation 1 hc
  rwa [← ofRealMat_injective 3 e]

/-- C90: there is exactly one homomorphism from the rotations that `exp_map` of `SO3(l)` computes; its matrices are
real rotations. -/
theorem C90_so3 (l : ℕ) : ∃! ρ : specialOrthogonalGroup (Fin 3) ℝ →* specialOrthogonalGroup (Fin (SO3.dim l)) ℝ,
    ∀ (c : Fin 3 → ℝ) (R : specialOrthogonalGroup (Fin 3) ℝ),
      (SO3.rep 1).expMap (fun a => (c a : ℂ)) Fin.elim0 = .ok (R.1.map Complex.ofReal) →
      (SO3.rep l).expMap (fun a => (c a : ℂ)) Fin.elim0 = .ok ((ρ R).1.map Complex.ofReal) := by
  obtain ⟨ρ, h1, h2⟩ := (SO3.polyOf l).homInto ((ofRealMat 3).comp (specialOrthogonalGroup (Fin 3) ℝ).subtype)
    (fun U => ⟨_, Fin.elim0, (SO3.onto U.2).choose_spec⟩)
    ((ofRealMat _).comp (specialOrthogonalGroup (Fin (SO3.dim l)) ℝ).subtype)
    ((ofRealMat_injective _).comp Subtype.val_injective) fun c k g hg => by
      obtain ⟨R, hR, e⟩ := so3_rotation l hg
      exact ⟨⟨R, hR⟩, e⟩
  exact ⟨ρ, fun c U => h1 c Fin.elim0 U, fun ρ' h => h2 ρ' fun c k U hc => h c U hc⟩

/-- C90: the entries are homogeneous polynomials of degree `l` in the entries of the rotation. -/
theorem C90_so3_polynomial (l : ℕ) : ∃ P : Fin (SO3.dim l) → Fin (SO3.dim l) → MvPolynomial (Fin 3 × Fin 3) ℂ,
    (∀ a b, (P a b).IsHomogeneous l) ∧ ∀ (c : Fin 3 → ℝ) g, (SO3.rep 1).expMap (fun a => (c a : ℂ)) Fin.elim0 = .ok g →
      (SO3.rep l).expMap (fun a => (c a : ℂ)) Fin.elim0 = .ok (evalMat P g) := by
  obtain ⟨P, hP, h⟩ := SO3.polyOf l
  refine ⟨P, hP, fun c g hg => ?_⟩
  obtain ⟨g', G, hg', hG, e⟩ := WordVal.cons_inv (h [(c, Fin.elim0)] _ (.cons hg .nil))
  rw [hG.nil_inv, Matrix.mul_one, Matrix.mul_one] at e
  rw [hg', ← e]

/-- C90: `SO3(l)`, `l ≥ 1`, is faithful on rotations, and its rotations are those of `SU2(1)` up to sign. -/
theorem C90_so3_kernel {l : ℕ} (hl : 1 ≤ l) (c : Fin 3 → ℝ) :
    ((SO3.rep l).expMap (fun a => (c a : ℂ)) Fin.elim0 = .ok 1 ↔
      (SO3.rep 1).expMap (fun a => (c a : ℂ)) Fin.elim0 = .ok 1) ∧
    ((SO3.rep l).expMap (fun a => (c a : ℂ)) Fin.elim0 = .ok 1 ↔
      (SU2.rep 1).expMap (fun a => (c a : ℂ)) Fin.elim0 = .ok 1 ∨
      (SU2.rep 1).expMap (fun a => (c a : ℂ)) Fin.elim0 = .ok (-1)) := by
  have key : ∀ {l : ℕ}, 1 ≤ l → ((SO3.rep l).expMap (fun a => (c a : ℂ)) Fin.elim0 = .ok 1 ↔
      (SU2.rep 1).expMap (fun a => (c a : ℂ)) Fin.elim0 = .ok 1 ∨
      (SU2.rep 1).expMap (fun a => (c a : ℂ)) Fin.elim0 = .ok (-1)) := by
    intro l hl
    have hk := C90_su2_kernel (j := 2 * l) (by omega) c
    simp only [even_two_mul, true_and] at hk
    rw [← hk]
    have h1 := SO3.changeBasis_mul l
    have h2 := SO3.changeBasis_mul' l
    have hi : ∀ a, (SO3.rep l).X a * (SO3.changeBasis l)ᴴ = (SO3.changeBasis l)ᴴ * (SU2.rep (2 * l)).X a := by
      intro a
      rw [SO3.rep_X, Matrix.mul_assoc, h1, Matrix.mul_one]
      rfl
    constructor
    · intro h
      have := expMap_intertwine (r := SU2.rep (2 * l)) (s := SO3.rep l) (Q := (SO3.changeBasis l)ᴴ) hi (fun a => a.elim0)
        (c := fun a => (c a : ℂ)) (k := Fin.elim0) rfl h
      rw [Matrix.one_mul] at this
      rw [expMap_zero]
      congr 1
      calc _ = SO3.changeBasis l * ((SO3.changeBasis l)ᴴ * exp (∑ a, (c a : ℂ) • (SU2.rep (2 * l)).X a)) := by
            rw [← Matrix.mul_assoc, h1, Matrix.one_mul]
        _ = 1 := by rw [← this, h1]
    · intro h
      have := expMap_intertwine (r := SU2.rep (2 * l)) (s := SO3.rep l) (Q := (SO3.changeBasis l)ᴴ) hi (fun a => a.elim0)
        (c := fun a => (c a : ℂ)) (k := Fin.elim0) h rfl
      rw [Matrix.mul_one] at this
      rw [expMap_zero]
      congr 1
      calc _ = exp (∑ a, (c a : ℂ) • (SO3.rep l).X a) * (SO3.changeBasis l)ᴴ * SO3.changeBasis l := by
            rw [Matrix.mul_assoc, h2, Matrix.mul_one]
        _ = 1 := by rw [← h2]; congr 1
  exact ⟨(key hl).trans (key le_rfl).symm, key hl⟩

/-! ## `O3` -/

/-- The result of `exp_map` of `O3(l, p)` is a real orthogonal matrix. -/
theorem o3_orthogonal (r : O3) (hp : r.p = 1 ∨ r.p = -1) {c : Fin 3 → ℝ} {k : Fin 1 → ℤ} {g : Matrix (Fin r.dim) (Fin r.dim) ℂ}
    (hg : (O3.rep r).expMap (fun a => (c a : ℂ)) k = .ok g) :
    ∃ R ∈ orthogonalGroup (Fin r.dim) ℝ, R.map Complex.ofReal = g := by
  have hr : ofRealMat _ (g.map Complex.re) = g := by
    refine real_expMap (r := O3.rep r) (SO3.conj_X r.l) (fun a => ?_) hg
    ext i j
    change starRingEnd ℂ ((r.p : ℂ) * (1 : Matrix _ _ ℂ) i j) = (r.p : ℂ) * (1 : Matrix _ _ ℂ) i j
    rw [one_apply]
    split_ifs <;> simp
  obtain ⟨g', hg', hgu⟩ := unitary_expMap (C38_parity r hp).2.1 (c := fun a => (c a : ℂ)) (fun a => Complex.ofReal_im _) k
  rw [hg] at hg'
  rw [← Except.ok.inj hg', ← hr] at hgu
  exact ⟨_, orthogonal_iff_unitary.2 hgu, hr⟩

theorem o3_onto {R : Matrix (Fin 3) (Fin 3) ℝ} (hR : R ∈ orthogonalGroup (Fin 3) ℝ) :
    ∃ (c : Fin 3 → ℝ) (k : Fin 1 → ℤ), (O3.rep ⟨1, -1⟩).expMap (fun a => (c a : ℂ)) k = .ok (ofRealMat 3 R) := by
  have hd : R.det = 1 ∨ R.det = -1 := by
    have := congrArg Matrix.det ((mem_orthogonalGroup_iff _ _).1 hR)
    rw [det_mul, det_one, det_transpose] at this
    exact mul_self_eq_one_iff.1 this
  rcases hd with hd | hd
  · obtain ⟨c, hc⟩ := SO3.onto (mem_specialOrthogonalGroup_iff.2 ⟨hR, hd⟩)
    obtain ⟨S, h1, h2⟩ := C38_exp_map ⟨1, -1⟩ (Or.inr rfl) (fun a => (c a : ℂ)) 0
    refine ⟨c, fun _ => 0, h2.trans ?_⟩
    rw [zpow_zero, one_smul]
    exact h1.symm.trans hc
  · have hR' : -R ∈ specialOrthogonalGroup (Fin 3) ℝ := by
      refine mem_specialOrthogonalGroup_iff.2 ⟨(mem_orthogonalGroup_iff _ _).2 ?_, ?_⟩
      · rw [transpose_neg, neg_mul_neg]
        exact (mem_orthogonalGroup_iff _ _).1 hR
      · rw [det_neg, hd]
        norm_num
    obtain ⟨c, hc⟩ := SO3.onto hR'
    obtain ⟨S, h1, h2⟩ := C38_exp_map ⟨1, -1⟩ (Or.inr rfl) (fun a => (c a : ℂ)) 1
    refine ⟨c, fun _ => 1, h2.trans ?_⟩
    have e : S = ofRealMat 3 (-R) := Except.ok.inj (h1.symm.trans hc)
    rw [e, zpow_one]
    congr 1
    ext i j
    change ((-1 : ℤ) : ℂ) * (((-R) i j : ℝ) : ℂ) = ((R i j : ℝ) : ℂ)
    rw [Matrix.neg_apply]
    push_cast
    ring

/-- C90: the matrices of `O3(1, -1)` are the orthogonal matrices. -/
theorem C90_o3_group (R : Matrix (Fin 3) (Fin 3) ℝ) : R ∈ orthogonalGroup (Fin 3) ℝ ↔
    ∃ (c : Fin 3 → ℝ) (k : Fin 1 → ℤ), (O3.rep ⟨1, -1⟩).expMap (fun a => (c a : ℂ)) k = .ok (R.map Complex.ofReal) := by
  refine ⟨o3_onto, fun ⟨c, k, hc⟩ => ?_⟩
  obtain ⟨R', hR', e⟩ := o3_orthogonal ⟨1, -1⟩ (Or.inr rfl) hc
  rwa [← ofRealMat_injective 3 e]

/-- C90: there is exactly one homomorphism from the orthogonal matrices that `exp_map` of `O3(l, p)` computes. -/
theorem C90_o3 (r : O3) (hp : r.p = 1 ∨ r.p = -1) : ∃! ρ : orthogonalGroup (Fin 3) ℝ →* orthogonalGroup (Fin r.dim) ℝ,
    ∀ (c : Fin 3 → ℝ) (k : Fin 1 → ℤ) (R : orthogonalGroup (Fin 3) ℝ),
      (O3.rep ⟨1, -1⟩).expMap (fun a => (c a : ℂ)) k = .ok (R.1.map Complex.ofReal) →
      (O3.rep r).expMap (fun a => (c a : ℂ)) k = .ok ((ρ R).1.map Complex.ofReal) := by
  obtain ⟨e, he⟩ := O3.polyOf r.l hp
  exact he.homInto ((ofRealMat 3).comp (orthogonalGroup (Fin 3) ℝ).subtype) (fun U => o3_onto U.2)
    ((ofRealMat _).comp (orthogonalGroup (Fin r.dim) ℝ).subtype)
    ((ofRealMat_injective _).comp Subtype.val_injective) fun c k g hg => by
      obtain ⟨R, hR, e⟩ := o3_orthogonal r hp hg
      exact ⟨⟨R, hR⟩, e⟩

/-! ## `SUN` -/

section
variable {n d : ℕ} {S : List ℤ} {r₀ : Rep (n ^ 2 - 1) 0 n} {r : Rep (n ^ 2 - 1) 0 d}

theorem defining_ne (n : ℕ) : ∃ s ∈ SUN.defining n, s ≠ 0 := ⟨1, by simp [SUN.defining], one_ne_zero⟩

theorem sun_onto (hn : 2 ≤ n) (h0 : SUN.IsLabel n (SUN.defining n) r₀) {U : Matrix (Fin n) (Fin n) ℂ}
    (hU : U ∈ specialUnitaryGroup (Fin n) ℂ) :
    ∃ c : Fin (n ^ 2 - 1) → ℝ, r₀.expMap (fun a => (c a : ℂ)) Fin.elim0 = .ok U := by
  obtain ⟨c, hc⟩ := exp_onto_SU (h0.indep (defining_ne n)) (h0.unitary hn).2 (h0.trace hn) hU
  exact ⟨c, by rw [expMap_zero, hc]⟩

/-- C90: the matrices of the defining label are the matrices of the group `SU(N)`. -/
theorem C90_sun_group (hn : 2 ≤ n) (h0 : SUN.IsLabel n (SUN.defining n) r₀) (U : Matrix (Fin n) (Fin n) ℂ) :
    U ∈ specialUnitaryGroup (Fin n) ℂ ↔ ∃ c : Fin (n ^ 2 - 1) → ℝ, r₀.expMap (fun a => (c a : ℂ)) Fin.elim0 = .ok U :=
  ⟨sun_onto hn h0, fun ⟨_, hc⟩ => mem_special (h0.unitary hn) (h0.trace hn) hc⟩

theorem sun_polyOf (hn : 2 ≤ n) (h0 : SUN.IsLabel n (SUN.defining n) r₀) (h : SUN.IsLabel n S r) : PolyOf r₀ r S.sum.toNat := by
  obtain ⟨-, p, -⟩ := make_weight h.m
  refine SUN.polyOf_aux hn h0 _ h ?_
  rw [Int.toNat_of_nonneg (List.sum_nonneg p)]

/-- C90: for every accepted label there is exactly one homomorphism from `SU(N)` that `exp_map` computes. -/
theorem C90_sun (hn : 2 ≤ n) (h0 : SUN.IsLabel n (SUN.defining n) r₀) (h : SUN.IsLabel n S r) :
    ∃! ρ : specialUnitaryGroup (Fin n) ℂ →* specialUnitaryGroup (Fin d) ℂ,
      ∀ (c : Fin (n ^ 2 - 1) → ℝ) (U : specialUnitaryGroup (Fin n) ℂ),
        r₀.expMap (fun a => (c a : ℂ)) Fin.elim0 = .ok U.1 → r.expMap (fun a => (c a : ℂ)) Fin.elim0 = .ok (ρ U).1 := by
  obtain ⟨ρ, h1, h2⟩ := (sun_polyOf hn h0 h).homInto (specialUnitaryGroup (Fin n) ℂ).subtype
    (fun U => ⟨_, Fin.elim0, (sun_onto hn h0 U.2).choose_spec⟩) (specialUnitaryGroup (Fin d) ℂ).subtype
    Subtype.val_injective fun c k g hg => ⟨⟨g, mem_special (h.unitary hn) (h.trace hn) hg⟩, rfl⟩
  exact ⟨ρ, fun c U => h1 c Fin.elim0 U, fun ρ' h => h2 ρ' fun c k U hc => by
    rw [Subsingleton.elim k Fin.elim0] at hc ⊢
    exact h c U hc⟩

/-- C90: the entries are homogeneous polynomials in the entries of the group element; the degree is the sum of the label. -/
theorem C90_sun_polynomial (hn : 2 ≤ n) (h0 : SUN.IsLabel n (SUN.defining n) r₀) (h : SUN.IsLabel n S r) :
    ∃ P : Fin d → Fin d → MvPolynomial (Fin n × Fin n) ℂ, (∀ a b, (P a b).IsHomogeneous S.sum.toNat) ∧
      ∀ (c : Fin (n ^ 2 - 1) → ℝ) g, r₀.expMap (fun a => (c a : ℂ)) Fin.elim0 = .ok g →
        r.expMap (fun a => (c a : ℂ)) Fin.elim0 = .ok (evalMat P g) := by
  obtain ⟨P, hP, h⟩ := sun_polyOf hn h0 h
  refine ⟨P, hP, fun c g hg => ?_⟩
  obtain ⟨g', G, hg', hG, e⟩ := WordVal.cons_inv (h [(c, Fin.elim0)] _ (.cons hg .nil))
  rw [hG.nil_inv, Matrix.mul_one, Matrix.mul_one] at e
  rw [hg', ← e]

/-- C90: the group elements that a label other than zero sends to one are the roots of one whose power, the sum of the label, is one. -/
theorem C90_sun_kernel (hn : 2 ≤ n) (h0 : SUN.IsLabel n (SUN.defining n) r₀) (h : SUN.IsLabel n S r)
    (hne : ∃ s ∈ S, s ≠ 0) (c : Fin (n ^ 2 - 1) → ℝ) :
    r.expMap (fun a => (c a : ℂ)) Fin.elim0 = .ok 1 ↔
      ∃ z : ℂ, z ^ n = 1 ∧ z ^ S.sum.toNat = 1 ∧ r₀.expMap (fun a => (c a : ℂ)) Fin.elim0 = .ok (z • 1) := by
  have hsm : ∀ z : ℂ, r₀.expMap (fun a => (c a : ℂ)) Fin.elim0 = .ok (z • 1) →
      r.expMap (fun a => (c a : ℂ)) Fin.elim0 = .ok (z ^ S.sum.toNat • 1) := fun z hz => polyOf_smul (sun_polyOf hn h0 h) hz
  constructor
  · intro h1
    obtain ⟨A, hA⟩ := SUN.exists_structure n
    have hcomm := commute_of_one (h0.isRep hn hA) (h.isRep hn hA) rfl (h.indep hne) (c := fun a => (c a : ℂ)) (Except.ok.inj h1)
    obtain ⟨z, hz⟩ := schur (h0.irreducible hn) fun a => (hcomm a).symm
    have hz' : r₀.expMap (fun a => (c a : ℂ)) Fin.elim0 = .ok (z • 1) := by rw [expMap_zero]; exact congrArg _ hz
    have hdet := (mem_specialUnitaryGroup_iff.1 (mem_special (h0.unitary hn) (h0.trace hn) hz')).2
    rw [det_smul, det_one, mul_one, Fintype.card_fin] at hdet
    refine ⟨z, hdet, ?_, hz'⟩
    have h2 := hsm _ hz'
    rw [h1] at h2
    have hd : 0 < d := (h.irreducible hn).1
    have h3 := congrFun (congrFun (Except.ok.inj h2) ⟨0, hd⟩) ⟨0, hd⟩
    rw [Matrix.smul_apply, one_apply_eq, smul_eq_mul, mul_one] at h3
    exact h3.symm
  · rintro ⟨z, -, h2, h3⟩
    rw [hsm z h3, h2, one_smul]

end

/-! ## Cases -/

theorem su2_neg_one : (-1 : Matrix (Fin 2) (Fin 2) ℂ) ∈ specialUnitaryGroup (Fin 2) ℂ := by
  refine mem_specialUnitaryGroup_iff.2 ⟨mem_unitaryGroup_iff.2 ?_, ?_⟩
  · rw [star_neg, star_one, neg_mul_neg, Matrix.mul_one]
  · simp [det_neg]

/-- Minus one is reached; `SU2(2)` sends it to one, `SU2(3)` does not. -/
example : ∃ c : Fin 3 → ℝ, (SU2.rep 1).expMap (fun a => (c a : ℂ)) Fin.elim0 = .ok (-1) ∧
    (SU2.rep 2).expMap (fun a => (c a : ℂ)) Fin.elim0 = .ok 1 ∧
    (SU2.rep 3).expMap (fun a => (c a : ℂ)) Fin.elim0 ≠ .ok 1 := by
  obtain ⟨c, hc⟩ := (C90_su2_group _).1 su2_neg_one
  refine ⟨c, hc, (C90_su2_kernel (by norm_num) c).2 (Or.inr ⟨by decide, hc⟩), fun h => ?_⟩
  rcases (C90_su2_kernel (by norm_num) c).1 h with h | ⟨h, -⟩
  · rw [hc] at h
    have := congrFun (congrFun (Except.ok.inj h) 0) 0
    norm_num at this
  · exact absurd h (by decide)

/-- A reflection is reached by `O3(1, -1)`. -/
example : ∃ (c : Fin 3 → ℝ) (k : Fin 1 → ℤ), (O3.rep ⟨1, -1⟩).expMap (fun a => (c a : ℂ)) k =
    .ok ((diagonal ![1, 1, -1] : Matrix (Fin 3) (Fin 3) ℝ).map Complex.ofReal) := by
  refine (C90_o3_group _).1 ((mem_orthogonalGroup_iff _ _).2 ?_)
  rw [diagonal_transpose, diagonal_mul_diagonal, ← diagonal_one]
  congr 1
  funext i
  fin_cases i <;> simp

/-- Every accepted label has a representation. -/
theorem sun_exists {n : ℕ} (hn : 2 ≤ n) {S : List ℤ} (hm : SUN.make S = .ok S) (hl : S.length = n) {d : ℕ}
    (hd : SUN.dim S = .ok (d : ℤ)) : ∃ r : Rep (n ^ 2 - 1) 0 d, SUN.IsLabel n S r := by
  subst hl
  obtain ⟨f, hf, -⟩ := C69_generators hm hn hd
  exact ⟨⟨0, SUN.genFn _ _, Fin.elim0⟩, hm, rfl, hd, _, hf, rfl⟩

/-- The defining label has dimension `n`, so there is an `r₀` for every `n ≥ 2`. -/
example {n : ℕ} (hn : 2 ≤ n) : ∃ r₀ : Rep (n ^ 2 - 1) 0 n, SUN.IsLabel n (SUN.defining n) r₀ :=
  sun_exists hn (defining_make n hn) (by simp [SUN.defining]; omega) (SUN.dim_defining hn)

/-- The octet of `SU(3)` forgets the cube roots of one: its kernel is not trivial. -/
example : ∃ (r₀ : Rep (3 ^ 2 - 1) 0 3) (r : Rep (3 ^ 2 - 1) 0 8) (c : Fin (3 ^ 2 - 1) → ℝ) (z : ℂ),
    SUN.IsLabel 3 [1, 0, 0] r₀ ∧ SUN.IsLabel 3 [2, 1, 0] r ∧ z ≠ 1 ∧
    r₀.expMap (fun a => (c a : ℂ)) Fin.elim0 = .ok (z • 1) ∧ r.expMap (fun a => (c a : ℂ)) Fin.elim0 = .ok 1 := by
  obtain ⟨r₀, h0⟩ := sun_exists (n := 3) (by norm_num) (S := [1, 0, 0]) rfl rfl (d := 3) (by decide +kernel)
  obtain ⟨r, h⟩ := sun_exists (n := 3) (by norm_num) (S := [2, 1, 0]) rfl rfl (d := 8) (by decide +kernel)
  have hp := Complex.isPrimitiveRoot_exp 3 (by norm_num)
  generalize Complex.exp (2 * Real.pi * Complex.I / (3 : ℕ)) = z at hp
  have hz : z * star z = 1 := by
    have := hp.norm'_eq_one (by norm_num)
    rw [Complex.star_def, Complex.mul_conj, Complex.normSq_eq_norm_sq, this]
    norm_num
  have hU : z • (1 : Matrix (Fin 3) (Fin 3) ℂ) ∈ specialUnitaryGroup (Fin 3) ℂ := by
    refine mem_specialUnitaryGroup_iff.2 ⟨mem_unitaryGroup_iff.2 ?_, ?_⟩
    · rw [star_smul, star_one, smul_mul_smul_comm, hz, Matrix.mul_one, one_smul]
    · rw [det_smul, det_one, Fintype.card_fin, hp.pow_eq_one, mul_one]
  obtain ⟨c, hc⟩ := (C90_sun_group (by norm_num) h0 _).1 hU
  exact ⟨r₀, r, c, z, h0, h, hp.ne_one (by norm_num), hc,
    (C90_sun_kernel (by norm_num) h0 h ⟨2, by simp, by norm_num⟩ c).2 ⟨z, hp.pow_eq_one, hp.pow_eq_one, hc⟩⟩

end LieNN.Props

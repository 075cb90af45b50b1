import Verif.Proofs.RoundingCG
import Verif.Props.Recompute
import Verif.Props.SU2
/-!
# C87: null spaces, intertwiners and irreducibility tests computed with rounding errors
-/
namespace LieNN.Props

open LieNN.Spec Matrix

variable {m n d : ℕ} {δ eps γ : ℝ} {eigh : EighFn}

/-- C87, consistency: the runs without errors are exactly the results of the exact model, for the possible
answers of an exact `eigh`; they are also runs for every larger error bound. -/
theorem C87_exact (A : Matrix (Fin m) (Fin n) ℂ) (R : List (Vec n)) :
    (NullRun 0 eps A R ↔ ∃ eigh : EighFn, EighSpec eigh ∧ R = nullspace eigh eps A) ∧
      ∀ eigh : EighFn, EighSpec eigh → ∀ δ, 0 ≤ δ → NullRun δ eps A (nullspace eigh eps A) :=
  ⟨Rounding.nullRun_zero_iff A R, fun _ he _ hδ => Rounding.nullRun_exact hδ he A⟩

/-- C87, stability of `nullspace`: for a size, a tolerance, a spectral gap and a wanted accuracy there is
an error bound below which every run, on every matrix of that size with that gap, returns as many vectors
as the kernel has dimensions, each within the wanted accuracy of the corresponding vector of an
orthonormal basis of the kernel. -/
theorem C87_nullspace {τ : ℝ} (n : ℕ) (heps : 0 < eps) (hγ : eps < γ) (hn : n * eps ^ 2 < 1) (hτ : 0 < τ) :
    ∃ Δ > 0, ∀ δ, 0 ≤ δ → δ ≤ Δ → ∀ (m : ℕ) (A : Matrix (Fin m) (Fin n) ℂ), Gap γ A →
      ∀ R, NullRun δ eps A R → R.length = Module.finrank ℂ (kernel A) ∧
        ∃ U, OrthonormalList U ∧ lspan U = kernel A ∧ List.Forall₂ (fun q u => ‖q - u‖ ≤ τ) R U := by
  obtain ⟨Δ, h0, h⟩ := Rounding.exists_delta heps hγ hn hτ
  refine ⟨Δ, h0, fun δ h1 h2 m A hgap R hR => ?_⟩
  obtain ⟨g1, g2, g3, g4, g5, g6, g7⟩ := h δ h1 h2
  obtain ⟨U, u1, u2, u3, u4⟩ := Rounding.null_close_const (heps.trans hγ) hgap h1 g1 g2 g3 g4 g5 g6
    (Or.inl ⟨Rounding.finrank_kernel_le A, le_rfl⟩) hR
  refine ⟨by rw [u4.length_eq, u3], U, u1.orthonormal, u2, u4.imp fun q u hqu => ?_⟩
  refine hqu.trans (le_trans (Rounding.err_mono ?_) g7)
  rw [u3]
  exact Rounding.finrank_kernel_le A

/-- C87: for kernels of dimension at most one, errors up to `eps² / (66 (1 + 1/γ))` are harmless: every run
returns the exact result up to a phase, with the error multiplied by `10 (1 + 1/γ) / eps`. -/
theorem C87_nullspace_one (A : Matrix (Fin m) (Fin n) ℂ) (hgap : Gap γ A) (heps : 0 < eps) (heps1 : eps ≤ 1)
    (hγ : 2 * eps ≤ γ) (hn : 4 * n * eps ^ 2 < 1) (hδ : 0 ≤ δ)
    (hδe : 66 * (1 + 1 / γ) * δ ≤ eps ^ 2) (h1 : Module.finrank ℂ (kernel A) ≤ 1) (he : EighSpec eigh)
    {R : List (Vec n)} (h : NullRun δ eps A R) :
    List.Forall₂ (fun q u => ∃ z : ℂ, ‖z‖ = 1 ∧ ‖q - z • u‖ ≤ 10 * (1 + 1 / γ) * δ / eps) R
      (nullspace eigh eps A) :=
  Rounding.null_one hgap heps heps1 hγ hn hδ hδe h1 he h

/-- C87, the order of the bound is right: errors of `3 eps²` can make `nullspace` return two vectors for a
one-dimensional kernel, already for a `1 × 2` matrix with all eigenvalues of `Aᴴ A` in `{0, 1}`. -/
theorem C87_nullspace_bad_run (heps : 0 < eps) (hle : eps ≤ 1 / 2) :
    ∃ A : Matrix (Fin 1) (Fin 2) ℂ, Gap 1 A ∧ Module.finrank ℂ (kernel A) = 1 ∧
      ∃ R, NullRun (3 * eps ^ 2) eps A R ∧ R.length = 2 :=
  ⟨Rounding.sharpMat eps, Rounding.sharp_gap, Rounding.sharp_finrank, Rounding.sharp_run heps hle⟩

/-- Non-vacuity: at the default tolerance, `1e-11` meets the hypotheses of `C87_nullspace_one` for the
matrix of `C87_nullspace_bad_run`, while `3e-8`, half a unit in the last place of single precision, does
not. -/
example : ∃ A : Matrix (Fin 1) (Fin 2) ℂ,
    (∀ R, NullRun (1 / 10 ^ 11) (1 / 10 ^ 4) A R → R.length = 1) ∧
    ∃ R, NullRun (3 / 10 ^ 8) (1 / 10 ^ 4) A R ∧ R.length = 2 := by
  refine ⟨Rounding.sharpMat (1 / 10 ^ 4), fun R hR => ?_, ?_⟩
  · have h := C87_nullspace_one _ Rounding.sharp_gap (by norm_num : (0 : ℝ) < 1 / 10 ^ 4) (by norm_num)
      (by norm_num) (by norm_num) (by norm_num) (by norm_num) Rounding.sharp_finrank.le exactEigh_spec hR
    rw [h.length_eq, oList_length (nullspace_oList (by norm_num) _),
      nullspace_kernel exactEigh_spec (by norm_num) _ (by norm_num)
        (fun μ x hx hev hμ => le_trans (by norm_num) (Rounding.sharp_gap μ x hx hev hμ)),
      Rounding.sharp_finrank]
  · obtain ⟨R, h1, h2⟩ := Rounding.sharp_run (by norm_num : (0 : ℝ) < 1 / 10 ^ 4) (by norm_num)
    refine ⟨R, ?_, h2⟩
    have : (3 : ℝ) * (1 / 10 ^ 4) ^ 2 = 3 / 10 ^ 8 := by norm_num
    rwa [this] at h1

/-- C87, `is_irreducible`: with errors up to `eps / (120 (1 + 1/γ) d)` every run answers `True` exactly when
only the scalars commute with the generators. -/
theorem C87_is_irreducible (X : Fin n → Matrix (Fin d) (Fin d) ℂ) (hgap : Gap γ (icobMatrix X X))
    (heps : 0 < eps) (hγ : 2 * eps ≤ γ) (hd : 2 * d * eps < 1) (hδ : 0 ≤ δ)
    (hδe : 120 * (1 + 1 / γ) * d * δ ≤ eps) {b : Bool} (h : IrreducibleRun δ eps X b) :
    b = true ↔ Module.finrank ℂ (intertwiners X X) = 1 :=
  Rounding.irreducibleRun_iff hgap heps hγ hd hδ hδe h

/-- C87, `is_irreducible` on generators that are anti-hermitian or unitary: `True` exactly on the
irreducible families, whatever the errors within the bound. -/
theorem C87_is_irreducible_unitary (X : Fin n → Matrix (Fin d) (Fin d) ℂ)
    (hX : ∀ a, (X a)ᴴ = -X a ∨ (X a)ᴴ * X a = 1) (hgap : Gap γ (icobMatrix X X))
    (heps : 0 < eps) (hγ : 2 * eps ≤ γ) (hd : 2 * d * eps < 1) (hδ : 0 ≤ δ)
    (hδe : 120 * (1 + 1 / γ) * d * δ ≤ eps) {b : Bool} (h : IrreducibleRun δ eps X b) :
    b = true ↔ IrreducibleFamily X := by
  rw [C87_is_irreducible X hgap heps hγ hd hδ hδe h]
  exact ⟨irreducible_of_finrank hX, finrank_commutant_of_irreducible⟩

theorem su2_self_gap (j : ℕ) : Gap (3 / 4) (icobMatrix (SU2.rep j).allGens (SU2.rep j).allGens) :=
  CGSpace.gap_su2 (CGSpace.su2Mats_of_isRep rfl (SU2.isRep j)) (CGSpace.su2Mats_of_isRep rfl (SU2.isRep j))
    SU2.skew SU2.skew Fin.elim0 Fin.elim0 (fun b => b.elim0) (fun b => b.elim0) le_rfl

theorem su2_irreducible (j : ℕ) : IrreducibleFamily (SU2.rep j).allGens := by
  obtain ⟨h1, h2⟩ := (C36_irreducible j).2
  refine ⟨h1, fun W hW => h2 W fun a w hw => ?_⟩
  have := hW (Fin.castAdd 0 a) w hw
  rwa [show (SU2.rep j).allGens (Fin.castAdd 0 a) = SU2.gens j a from Fin.append_left _ _ _] at this

/-- C87, `is_irreducible` on all irreps of `SU2` of dimension below `10^9`, at the default tolerance
`1e-10`: `True` for all errors up to `3.5e-13 / (j + 1)`. -/
theorem C87_su2_irreducible (j : ℕ) (hj : j + 1 < 10 ^ 9) (hδ : 0 ≤ δ)
    (hδe : (j + 1) * δ ≤ 35 / 10 ^ 14) {b : Bool}
    (h : IrreducibleRun δ (1 / 10 ^ 10) (SU2.rep j).allGens b) : b = true := by
  have hjR : ((j + 1 : ℕ) : ℝ) < 10 ^ 9 := by exact_mod_cast hj
  rw [C87_is_irreducible _ (su2_self_gap j) (by norm_num) (by norm_num) (by
    push_cast at hjR ⊢
    norm_num at hjR ⊢
    linarith) hδ (by
    push_cast
    norm_num at hδe ⊢
    linarith) h]
  exact finrank_commutant_of_irreducible (su2_irreducible j)

/-- C87, the generic `clebsch_gordan`, when the coefficients are unique up to a factor: with errors up to
`1e-8 / (66 (1 + 1/γ))` every run either raises the `AssertionError` of `assert_allclose` or returns as
many arrays as the exact computation, each equal up to a phase to the exact one with errors multiplied by
`1e5 (1 + 1/γ)`.  It returns when the generators have Frobenius norm at most `B` and
`2e5 B (1 + 1/γ) δ ≤ 1e-8`. -/
theorem C87_clebsch_gordan {n h d₁ d₂ d₃ : ℕ} (r₁ : Rep n h d₁) (r₂ : Rep n h d₂) (r₃ : Rep n h d₃)
    (he : EighSpec eigh) (h₁₂ : AllCloseA r₁.A r₂.A) (h₁₃ : AllCloseA r₁.A r₃.A) (hγ : 2 / 10 ^ 4 ≤ γ)
    (hgap : Gap γ (icobMatrix r₃.allGens (r₁.tensorProduct r₂).allGens))
    (hd : 4 * (d₃ * (d₁ * d₂)) < 10 ^ 8) (h1 : Module.finrank ℂ (cgSpace r₁ r₂ r₃) ≤ 1) (hδ : 0 ≤ δ)
    (hδe : 66 * (1 + 1 / γ) * δ ≤ 1 / 10 ^ 8) {res} (hrun : CGRun δ r₁ r₂ r₃ res) :
    ∃ G₀, Rep.clebschGordan eigh r₁ r₂ r₃ = .ok G₀ ∧
      (res = .error .assertionError ∨ ∃ G, res = .ok G ∧ List.Forall₂ (fun C D => ∃ z : ℂ, ‖z‖ = 1 ∧
        ∑ i, ∑ j, ∑ k, ‖C i j k - z * D i j k‖ ^ 2 ≤ d₃ * (10 ^ 5 * (1 + 1 / γ) * δ) ^ 2) G G₀) ∧
      ∀ B : ℝ, 0 ≤ B → (∀ a, ∑ i, ∑ j, ‖r₃.allGens a i j‖ ^ 2 ≤ B ^ 2) →
        (∀ a, ∑ i, ∑ j, ‖(r₁.tensorProduct r₂).allGens a i j‖ ^ 2 ≤ B ^ 2) →
        2 * B * (10 ^ 5 * (1 + 1 / γ) * δ) ≤ 1 / 10 ^ 8 → ∃ G, res = .ok G :=
  Rounding.cgRun_close he h₁₂ h₁₃ hγ hgap hd h1 hδ hδe hrun

/-- C87, `SU2`: for all spins with product of dimensions below `2.5e7` and all errors up to `6e-11`, every
run of the generic `clebsch_gordan` that returns gives the tabulated coefficients up to a phase, with an
error of at most `2.4e5 δ` times the square root of the dimension; in particular the number of arrays is
right. -/
theorem C87_su2 (j₁ j₂ j₃ : ℕ) (hd : 4 * ((j₃ + 1) * ((j₁ + 1) * (j₂ + 1))) < 10 ^ 8) (hδ : 0 ≤ δ)
    (hδe : δ ≤ 6 / 10 ^ 11) {G} (hrun : CGRun δ (SU2.rep j₁) (SU2.rep j₂) (SU2.rep j₃) (.ok G)) :
    ∃ L, SU2.cg j₁ j₂ j₃ = .ok L ∧ List.Forall₂ (fun C D => ∃ z : ℂ, ‖z‖ = 1 ∧
      ∑ i, ∑ j, ∑ k, ‖C i j k - z * (D i j k : ℂ)‖ ^ 2 ≤ (j₃ + 1) * (240000 * δ) ^ 2) G L := by
  have hT : IsRep ((SU2.rep j₁).tensorProduct (SU2.rep j₂)) :=
    isRep_tensorProduct (r₁ := SU2.rep j₁) (r₂ := SU2.rep j₂) rfl (SU2.isRep j₁) (SU2.isRep j₂)
  have hU : IsUnitaryRep ((SU2.rep j₁).tensorProduct (SU2.rep j₂)) :=
    unitary_tensorProduct ⟨fun a => a.elim0, SU2.skew⟩ ⟨fun a => a.elim0, SU2.skew⟩
  have gap : Gap (3 / 4) (icobMatrix (SU2.rep j₃).allGens
      ((SU2.rep j₁).tensorProduct (SU2.rep j₂)).allGens) :=
    CGSpace.gap_su2 (CGSpace.su2Mats_of_isRep rfl (SU2.isRep j₃)) (CGSpace.su2Mats_of_isRep rfl hT)
      (SU2.skew) hU.2 Fin.elim0 Fin.elim0 (fun b => b.elim0) (fun b => b.elim0) le_rfl
  obtain ⟨L, G', hL, hG', s, hs, rfl, _⟩ := C78_su2 exactEigh_spec j₁ j₂ j₃ (by omega)
  obtain ⟨G₀, h0, h1, _⟩ := C87_clebsch_gordan (SU2.rep j₁) (SU2.rep j₂) (SU2.rep j₃) exactEigh_spec
    (fun _ _ _ => isClose_refl (by positivity) (by positivity) _)
    (fun _ _ _ => isClose_refl (by positivity) (by positivity) _) (by norm_num) gap hd
    (by rw [C78_selection]; split_ifs <;> norm_num) hδ (by norm_num at hδe ⊢; linarith) hrun
  refine ⟨L, hL, ?_⟩
  rcases h1 with h1 | ⟨G₁, h1, h2⟩
  · exact absurd h1 (by simp)
  · rw [hG'] at h0
    cases h0
    cases h1
    rw [List.forall₂_map_right_iff] at h2
    refine h2.imp fun C D hCD => ?_
    obtain ⟨z, hz, hle⟩ := hCD
    refine ⟨z * s, ?_, ?_⟩
    · rw [norm_mul, hz, Complex.norm_real]
      rcases hs with rfl | rfl <;> simp
    · have e : ∀ i j k, z * (s : ℂ) * (D i j k : ℂ) = z * ((s * D i j k : ℝ) : ℂ) := by
        intro i j k; push_cast; ring
      simp only [e]
      refine hle.trans ?_
      push_cast
      have h3 : (10 : ℝ) ^ 5 * (1 + 1 / (3 / 4)) * δ ≤ 240000 * δ := by norm_num; linarith
      have h4 : 0 ≤ (10 : ℝ) ^ 5 * (1 + 1 / (3 / 4)) * δ := by positivity
      have h5 := pow_le_pow_left₀ h4 h3 2
      gcongr

/-- Non-vacuity: the exact computation is a run, for all spins. -/
example (j₁ j₂ j₃ : ℕ) : ∃ res, CGRun (1 / 10 ^ 12) (SU2.rep j₁) (SU2.rep j₂) (SU2.rep j₃) res :=
  ⟨_, _, ⟨by norm_num, _, (C87_exact _ []).2 exactEigh exactEigh_spec _ (by norm_num), rfl⟩, rfl⟩

example (j : ℕ) : ∃ b, IrreducibleRun (1 / 10 ^ 20) (1 / 10 ^ 10) (SU2.rep j).allGens b :=
  ⟨_, _, ⟨by norm_num, _, (C87_exact _ []).2 exactEigh exactEigh_spec _ (by norm_num), rfl⟩, rfl⟩

end LieNN.Props

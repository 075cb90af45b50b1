import Verif.Proofs.Triplet
import Verif.Props.Recompute
import Verif.Props.SUNGeneric
import Verif.Props.SO13CG
import Verif.Props.SU2RealCG
/-!
# C83: `check_representation_triplet`

The function that the tests of the repository call on a few labels passes on all labels of the classes
whose coefficients are right, and raises where they are wrong.
-/
namespace LieNN.Props

open Matrix Spec SUN

variable {n h d₁ d₂ d₃ : ℕ} {rtol atol : ℝ} {eigh : EighFn}

/-- The arrays as complex arrays. -/
def complexArrays {d₁ d₂ d₃ : ℕ} (L : List (Fin d₁ → Fin d₂ → Fin d₃ → ℝ)) : List (Fin d₁ → Fin d₂ → Fin d₃ → ℂ) :=
  L.map fun C i j k => ((C i j k : ℝ) : ℂ)

/-- C83: when the check passes, the algebras, the commutators and the equivariance under the Lie algebra
hold up to the tolerances, and conversely. -/
theorem C83_iff (r₁ : Rep n h d₁) (r₂ : Rep n h d₂) (r₃ : Rep n h d₃) (cg : Py (List (Fin d₁ → Fin d₂ → Fin d₃ → ℂ))) :
    checkTriplet rtol atol r₁ r₂ r₃ cg = .ok () ↔
      (∀ i j k, ‖r₁.A i j k - r₂.A i j k‖ ≤ atol + rtol * ‖r₂.A i j k‖) ∧
      (∀ i j k, ‖r₁.A i j k - r₃.A i j k‖ ≤ atol + rtol * ‖r₃.A i j k‖) ∧
      (∀ i j a b, ‖(r₁.X i * r₁.X j - r₁.X j * r₁.X i - ∑ k, r₁.A i j k • r₁.X k) a b‖ ≤
        atol + rtol * ‖(∑ k, r₁.A i j k • r₁.X k) a b‖) ∧
      (∀ i j a b, ‖(r₂.X i * r₂.X j - r₂.X j * r₂.X i - ∑ k, r₂.A i j k • r₂.X k) a b‖ ≤
        atol + rtol * ‖(∑ k, r₂.A i j k • r₂.X k) a b‖) ∧
      (∀ i j a b, ‖(r₃.X i * r₃.X j - r₃.X j * r₃.X i - ∑ k, r₃.A i j k • r₃.X k) a b‖ ≤
        atol + rtol * ‖(∑ k, r₃.A i j k • r₃.X k) a b‖) ∧
      ∃ L, cg = .ok L ∧ ∀ C ∈ L, ∀ a i j l,
        ‖∑ k, C i j k * r₃.X a l k - (∑ i', r₁.X a i' i * C i' j l + ∑ j', r₂.X a j' j * C i j' l)‖ ≤
          atol + rtol * ‖∑ i', r₁.X a i' i * C i' j l + ∑ j', r₂.X a j' j * C i j' l‖ := by
  have hC : ∀ {d : ℕ} (r : Rep n h d), CheckAlgebra rtol atol r.A r.X ↔ ∀ i j a b,
      ‖(r.X i * r.X j - r.X j * r.X i - ∑ k, r.A i j k • r.X k) a b‖ ≤ atol + rtol * ‖(∑ k, r.A i j k • r.X k) a b‖ := by
    intro d r
    unfold CheckAlgebra IsClose commutator
    simp only [Matrix.sub_apply, Matrix.sum_apply, Matrix.smul_apply, smul_eq_mul]
  unfold checkTriplet Rep.checkAlgebra
  simp only [pyAssert_bind]
  constructor
  · intro hok
    split_ifs at hok with h1 h2 h3 h4 h5
    rcases cg with e | L
    · exact absurd hok (by intro h'; cases h')
    · refine ⟨h1, h2, (hC _).1 h3, (hC _).1 h4, (hC _).1 h5, L, rfl, pyAssert_ok_iff.1 hok⟩
  · rintro ⟨h1, h2, h3, h4, h5, L, rfl, h6⟩
    rw [if_pos (show ∀ i j k, IsClose atol rtol (r₁.A i j k) (r₂.A i j k) from h1),
      if_pos (show ∀ i j k, IsClose atol rtol (r₁.A i j k) (r₃.A i j k) from h2), if_pos ((hC _).2 h3),
      if_pos ((hC _).2 h4), if_pos ((hC _).2 h5)]
    exact pyAssert_ok_iff.2 h6

theorem checkTriplet_error {r₁ : Rep n h d₁} {r₂ : Rep n h d₂} {r₃ : Rep n h d₃} {L : List (Fin d₁ → Fin d₂ → Fin d₃ → ℂ)}
    (hne : ¬ checkTriplet rtol atol r₁ r₂ r₃ (.ok L) = .ok ()) :
    checkTriplet rtol atol r₁ r₂ r₃ (.ok L) = .error .assertionError := by
  unfold checkTriplet Rep.checkAlgebra at hne ⊢
  simp only [pyAssert_bind] at hne ⊢
  split_ifs at hne ⊢ <;> try rfl
  exact pyAssert_ne hne

/-- C83: without tolerances the check is exactly the textbook statement, for the Lie algebra. -/
theorem C83_exact_iff (r₁ : Rep n h d₁) (r₂ : Rep n h d₂) (r₃ : Rep n h d₃)
    (cg : Py (List (Fin d₁ → Fin d₂ → Fin d₃ → ℂ))) :
    checkTriplet 0 0 r₁ r₂ r₃ cg = .ok () ↔
      r₁.A = r₂.A ∧ r₁.A = r₃.A ∧ IsRep r₁ ∧ IsRep r₂ ∧ IsRep r₃ ∧
        ∃ L, cg = .ok L ∧ ∀ C ∈ L, IsCG (h := 0) ⟨r₁.A, r₁.X, Fin.elim0⟩ ⟨r₂.A, r₂.X, Fin.elim0⟩ ⟨r₃.A, r₃.X, Fin.elim0⟩ C := by
  have hC : ∀ {d : ℕ} (r : Rep n h d), (∀ i j a b, ‖(r.X i * r.X j - r.X j * r.X i - ∑ k, r.A i j k • r.X k) a b‖ ≤
      0 + 0 * ‖(∑ k, r.A i j k • r.X k) a b‖) ↔ IsRep r := by
    intro d r
    simp only [zero_mul, add_zero, norm_le_zero_iff]
    unfold IsRep
    refine forall₂_congr fun i j => ?_
    rw [← sub_eq_zero]
    exact ⟨fun h' => Matrix.ext h', fun h' a b => congrFun₂ h' a b⟩
  have hA : ∀ A B : Fin n → Fin n → Fin n → ℂ, (∀ i j k, ‖A i j k - B i j k‖ ≤ 0 + 0 * ‖B i j k‖) ↔ A = B := by
    intro A B
    simp only [zero_mul, add_zero, norm_le_zero_iff, sub_eq_zero, funext_iff]
  rw [C83_iff, hC, hC, hC, hA, hA]
  simp only [zero_mul, add_zero, norm_le_zero_iff, sub_eq_zero]
  have hI : ∀ C : Fin d₁ → Fin d₂ → Fin d₃ → ℂ, (∀ a i j l, ∑ k, C i j k * r₃.X a l k =
      ∑ i', r₁.X a i' i * C i' j l + ∑ j', r₂.X a j' j * C i j' l) ↔
      IsCG (h := 0) ⟨r₁.A, r₁.X, Fin.elim0⟩ ⟨r₂.A, r₂.X, Fin.elim0⟩ ⟨r₃.A, r₃.X, Fin.elim0⟩ C :=
    fun C => ⟨fun h' => ⟨h', fun a => a.elim0⟩, fun h' => h'.1⟩
  simp only [hI]

/-- C83: exact representations of the same algebra with equivariant arrays pass. -/
theorem C83_pass (hr : 0 ≤ rtol) (ha : 0 ≤ atol) {r₁ : Rep n h d₁} {r₂ : Rep n h d₂} {r₃ : Rep n h d₃}
    (h₁₂ : r₁.A = r₂.A) (h₁₃ : r₁.A = r₃.A) (i₁ : IsRep r₁) (i₂ : IsRep r₂) (i₃ : IsRep r₃)
    {L : List (Fin d₁ → Fin d₂ → Fin d₃ → ℂ)} (hL : ∀ C ∈ L, IsCG r₁ r₂ r₃ C) :
    checkTriplet rtol atol r₁ r₂ r₃ (.ok L) = .ok () := by
  have hA : ∀ (i j : Fin n) (d : ℕ) (r : Rep n h d) (_ : IsRep r) (a b),
      ‖(r.X i * r.X j - r.X j * r.X i - ∑ k, r.A i j k • r.X k) a b‖ ≤ atol + rtol * ‖(∑ k, r.A i j k • r.X k) a b‖ := by
    intro i j d r hr' a b
    rw [hr' i j, sub_self, Matrix.zero_apply, norm_zero]
    positivity
  refine (C83_iff _ _ _ _).2 ⟨fun i j k => ?_, fun i j k => ?_, fun i j => hA i j _ _ i₁, fun i j => hA i j _ _ i₂,
    fun i j => hA i j _ _ i₃, L, rfl, fun C hC a i j l => ?_⟩
  · rw [h₁₂, sub_self, norm_zero]; positivity
  · rw [h₁₃, sub_self, norm_zero]; positivity
  · rw [(hL C hC).1 a i j l, sub_self, norm_zero]; positivity

/-- C83: an exception of `clebsch_gordan` is passed on if the algebra checks pass. -/
theorem C83_raises (hr : 0 ≤ rtol) (ha : 0 ≤ atol) {r₁ : Rep n h d₁} {r₂ : Rep n h d₂} {r₃ : Rep n h d₃}
    (h₁₂ : r₁.A = r₂.A) (h₁₃ : r₁.A = r₃.A) (i₁ : IsRep r₁) (i₂ : IsRep r₂) (i₃ : IsRep r₃) (e : PyErr) :
    checkTriplet rtol atol r₁ r₂ r₃ (.error e) = .error e := by
  have hp := C83_pass hr ha h₁₂ h₁₃ i₁ i₂ i₃ (L := []) (by simp)
  unfold checkTriplet Rep.checkAlgebra at hp ⊢
  simp only [pyAssert_bind] at hp ⊢
  split_ifs at hp ⊢
  rfl

/-- C83: the discrete generators are not looked at. -/
theorem C83_blind (r₁ : Rep n h d₁) (r₂ : Rep n h d₂) (r₃ : Rep n h d₃) {h' : ℕ} (H₁ : Fin h' → Matrix (Fin d₁) (Fin d₁) ℂ)
    (H₂ : Fin h' → Matrix (Fin d₂) (Fin d₂) ℂ) (H₃ : Fin h' → Matrix (Fin d₃) (Fin d₃) ℂ)
    (cg : Py (List (Fin d₁ → Fin d₂ → Fin d₃ → ℂ))) :
    checkTriplet rtol atol r₁ r₂ r₃ cg = checkTriplet rtol atol ⟨r₁.A, r₁.X, H₁⟩ ⟨r₂.A, r₂.X, H₂⟩ ⟨r₃.A, r₃.X, H₃⟩ cg := rfl

/-- C83 (finding): so it passes on arrays that are not equivariant under the parity of `O3`: those of
`SO3` for three odd irreps. -/
theorem C83_parity_unchecked (hr : 0 ≤ rtol) (ha : 0 ≤ atol) (l : ℕ) : ∃ C, SO3.cg l l l = .ok [C] ∧
    checkTriplet rtol atol (O3.rep ⟨l, -1⟩) (O3.rep ⟨l, -1⟩) (O3.rep ⟨l, -1⟩) (.ok (complexArrays [C])) = .ok () ∧
      ¬ IsCG (O3.rep ⟨l, -1⟩) (O3.rep ⟨l, -1⟩) (O3.rep ⟨l, -1⟩) (fun i j k => (C i j k : ℂ)) := by
  have ht : Triangle (2 * l) (2 * l) (2 * l) := by unfold Triangle; omega
  obtain ⟨C, D, hC, hD, ho⟩ := C63_orthonormal ht ht
  obtain rfl : C = D := by
    rw [hC] at hD
    injection hD with hD
    injection hD
  refine ⟨C, hC, ?_, ?_⟩
  · refine (C83_blind (SO3.rep l) (SO3.rep l) (SO3.rep l) (h' := 1) (fun _ => ((-1 : ℤ) : ℂ) • 1) (fun _ => ((-1 : ℤ) : ℂ) • 1)
      (fun _ => ((-1 : ℤ) : ℂ) • 1) _).symm.trans (C83_pass hr ha (by rfl) (by rfl) (SO3.isRep _) (SO3.isRep _) (SO3.isRep _) fun D hD => ?_)
    obtain ⟨D, hD', rfl⟩ := List.mem_map.1 hD
    exact C63_equivariant hC D hD'
  · intro hcg
    have h0 : ∀ i j k, C i j k = 0 := by
      intro i j k
      have := hcg.2 0 i j k
      simp [O3.rep, Matrix.one_apply] at this
      have h2 : (C i j k : ℂ) = 0 := by linear_combination (-1 / 2 : ℂ) * this
      exact_mod_cast h2
    have := ho ⟨0, by simp [SO3.dim]⟩ ⟨0, by simp [SO3.dim]⟩
    simp [h0] at this

/-- `A` are the structure constants of the basis of `su(n)`, which `SUN.algebra` returns (`C69_algebra`). -/
def SUNConstants (n : ℕ) (A : Fin (n ^ 2 - 1) → Fin (n ^ 2 - 1) → Fin (n ^ 2 - 1) → ℂ) : Prop :=
  ∀ i j : Fin (n ^ 2 - 1), (suBasis n).getD i 0 * (suBasis n).getD j 0 - (suBasis n).getD j 0 * (suBasis n).getD i 0 =
    ∑ k : Fin (n ^ 2 - 1), A i j k • (suBasis n).getD k 0

theorem sunConstants_strC (n : ℕ) : SUNConstants n fun i j k => (strC n i j k : ℂ) := by
  have hl := length_suBasis' n
  intro i j
  rw [strC_spec n (by rw [hl]; exact i.2) (by rw [hl]; exact j.2)]
  exact Fintype.sum_equiv (finCongr hl) _ _ fun k => rfl

theorem isRep_of_label {S : List ℤ} {d : ℕ} {r : Rep (n ^ 2 - 1) 0 d} (hn : 2 ≤ n) (hm : SUN.make S = .ok S)
    (hl : S.length = n) (hd : dim S = .ok (d : ℤ)) (hg : ∃ L, generators _ S = .ok L ∧ r.X = genFn (n ^ 2 - 1) L)
    (hA : SUNConstants n r.A) : IsRep r := by
  subst hl
  obtain ⟨f, hf, hlie, -⟩ := C69_generators hm hn hd
  obtain ⟨L, hL, hX⟩ := hg
  obtain rfl := Except.ok.inj (hf.symm.trans hL)
  intro i j
  rw [hX]
  simp only [genFn_map]
  rw [← hlie, hA, map_sum]
  exact Finset.sum_congr rfl fun k _ => map_smul _ _ _

section classes

variable (hr : 0 ≤ rtol) (ha : 0 ≤ atol)
include hr ha

/-- C83: all labels of `SU2`, `SO3`, `O3` and `SL2C` pass. -/
theorem C83_su2 (j₁ j₂ j₃ : ℕ) : ∃ L, SU2.cg j₁ j₂ j₃ = .ok L ∧
    checkTriplet rtol atol (SU2.rep j₁) (SU2.rep j₂) (SU2.rep j₃) (.ok (complexArrays L)) = .ok () := by
  obtain ⟨L, hL, -⟩ := C42_shape j₁ j₂ j₃
  refine ⟨L, hL, C83_pass hr ha (by rfl) (by rfl) (SU2.isRep _) (SU2.isRep _) (SU2.isRep _) fun C hC => ?_⟩
  obtain ⟨C, hC', rfl⟩ := List.mem_map.1 hC
  exact C42_equivariant hL C hC'

theorem C83_so3 (l₁ l₂ l₃ : ℕ) : ∃ L, SO3.cg l₁ l₂ l₃ = .ok L ∧
    checkTriplet rtol atol (SO3.rep l₁) (SO3.rep l₂) (SO3.rep l₃) (.ok (complexArrays L)) = .ok () := by
  obtain ⟨L, hL, -⟩ := C63_shape l₁ l₂ l₃
  refine ⟨L, hL, C83_pass hr ha (by rfl) (by rfl) (SO3.isRep _) (SO3.isRep _) (SO3.isRep _) fun C hC => ?_⟩
  obtain ⟨C, hC', rfl⟩ := List.mem_map.1 hC
  exact C63_equivariant hL C hC'

theorem C83_o3 (r₁ r₂ r₃ : O3) : ∃ L, O3.cg r₁ r₂ r₃ = .ok L ∧
    checkTriplet rtol atol (O3.rep r₁) (O3.rep r₂) (O3.rep r₃) (.ok (complexArrays L)) = .ok () := by
  have hL : ∃ L, O3.cg r₁ r₂ r₃ = .ok L := by
    unfold O3.cg
    split_ifs
    · obtain ⟨L, hL, -⟩ := C63_shape r₁.l r₂.l r₃.l
      exact ⟨L, hL⟩
    · exact ⟨_, rfl⟩
  obtain ⟨L, hL⟩ := hL
  refine ⟨L, hL, C83_pass hr ha (by rfl) (by rfl) (o3_isRep _) (o3_isRep _) (o3_isRep _) fun C hC => ?_⟩
  obtain ⟨C, hC', rfl⟩ := List.mem_map.1 hC
  exact C63_o3_equivariant hL C hC'

theorem C83_sl2c (r₁ r₂ r₃ : SL2C) : ∃ L, SL2C.cg r₁ r₂ r₃ = .ok L ∧
    checkTriplet rtol atol (SL2C.rep r₁) (SL2C.rep r₂) (SL2C.rep r₃) (.ok (complexArrays L)) = .ok () := by
  obtain ⟨L, hL, -⟩ := C64_shape r₁ r₂ r₃
  refine ⟨L, hL, C83_pass hr ha (by rfl) (by rfl) (SL2C.isRep _) (SL2C.isRep _) (SL2C.isRep _) fun C hC => ?_⟩
  obtain ⟨C, hC', rfl⟩ := List.mem_map.1 hC
  exact C64_equivariant hL C hC'

/-- C83: so do all labels of `SU2Real`. -/
theorem C83_su2real (he : EighSpec eigh) {j₁ j₂ j₃ : ℚ} {n₁ n₂ n₃ : ℕ} (h₁ : 2 * j₁ = n₁) (h₂ : 2 * j₂ = n₂)
    (h₃ : 2 * j₃ = n₃) :
    ∃ X₁ X₂ X₃ G, SU2Real.gens j₁ = .ok ⟨SU2Real.dim j₁, X₁⟩ ∧ SU2Real.gens j₂ = .ok ⟨SU2Real.dim j₂, X₂⟩ ∧
      SU2Real.gens j₃ = .ok ⟨SU2Real.dim j₃, X₃⟩ ∧ SU2Real.cg eigh j₁ j₂ j₃ = .ok ⟨_, _, _, G⟩ ∧
      checkTriplet rtol atol (SU2Real.repOf X₁) (SU2Real.repOf X₂) (SU2Real.repOf X₃) (.ok (complexArrays G)) = .ok () := by
  rw [genSig_of h₁, genSig_of h₂, genSig_of h₃]
  obtain ⟨G, hG, h1, -⟩ := cg_core he n₁ n₂ n₃
  have g₁ := SU2Real.good_genSig n₁
  have g₂ := SU2Real.good_genSig n₂
  have g₃ := SU2Real.good_genSig n₃
  revert G g₁ g₂ g₃
  generalize SU2Real.genSig n₁ = p₁
  generalize SU2Real.genSig n₂ = p₂
  generalize SU2Real.genSig n₃ = p₃
  intro G hG h1 g₁ g₂ g₃
  have i₁ := g₁.isRep
  have i₂ := g₂.isRep
  have i₃ := g₃.isRep
  obtain ⟨d₁, X₁⟩ := p₁
  obtain ⟨d₂, X₂⟩ := p₂
  obtain ⟨d₃, X₃⟩ := p₃
  obtain rfl : d₁ = _ := g₁.dim_eq'
  obtain rfl : d₂ = _ := g₂.dim_eq'
  obtain rfl : d₃ = _ := g₃.dim_eq'
  refine ⟨X₁, X₂, X₃, G, g₁.gens_eq, g₂.gens_eq, g₃.gens_eq, hG, C83_pass hr ha (by rfl) (by rfl) i₁ i₂ i₃ fun C hC => ?_⟩
  obtain ⟨C, hC', rfl⟩ := List.mem_map.1 hC
  exact h1 C hC'

/-- C83: so do all labels of `SO13` within the bounds of C80. -/
theorem C83_so13 {sqrtm : {d : ℕ} → Matrix (Fin d) (Fin d) ℂ → Matrix (Fin d) (Fin d) ℂ} (he : EighSpec eigh)
    (hs : SqrtmInvSpec sqrtm) (r₁ r₂ r₃ : SL2C) (b₁ : r₁.dim < 10 ^ 4)
    (b₂ : r₂.dim < 10 ^ 4) (b₃ : r₃.dim < 10 ^ 4) (hd : r₃.dim * (r₁.dim * r₂.dim) < 10 ^ 8) :
    ∃ X₁ X₂ X₃, SO13.gens eigh (1 / 10 ^ 4) sqrtm r₁ = .ok X₁ ∧ SO13.gens eigh (1 / 10 ^ 4) sqrtm r₂ = .ok X₂ ∧
      SO13.gens eigh (1 / 10 ^ 4) sqrtm r₃ = .ok X₃ ∧
      checkTriplet rtol atol (SO13.repOf X₁) (SO13.repOf X₂) (SO13.repOf X₃) (SO13.clebschGordan eigh sqrtm r₁ r₂ r₃) = .ok () := by
  obtain ⟨X₁, X₂, X₃, G, g₁, g₂, g₃, hG, -, hspan, -⟩ := C80_cg he hs r₁ r₂ r₃ b₁ b₂ b₃ hd
  have key : ∀ (r : SL2C), r.dim < 10 ^ 4 → ∀ X, SO13.gens eigh (1 / 10 ^ 4) sqrtm r = .ok X → IsRep (SO13.repOf X) := by
    intro r b X hX
    obtain ⟨Y, hY, h1, -⟩ := C39_so13 he hs r b
    obtain rfl := Except.ok.inj (hX.symm.trans hY)
    exact h1
  refine ⟨X₁, X₂, X₃, g₁, g₂, g₃, ?_⟩
  rw [hG]
  exact C83_pass hr ha (by rfl) (by rfl) (key r₁ b₁ X₁ g₁) (key r₂ b₂ X₂ g₂) (key r₃ b₃ X₃ g₃)
    fun C hC => (hspan C).2 (Submodule.subset_span hC)

/-- C83: any exact representations of the same algebra pass with the generic `clebsch_gordan`, for which
there is the usual condition on the smallest eigenvalue. -/
theorem C83_generic (he : EighSpec eigh) (hn : n + h ≠ 0) (r₁ : Rep n h d₁) (r₂ : Rep n h d₂) (r₃ : Rep n h d₃)
    (h₁₂ : r₁.A = r₂.A) (h₁₃ : r₁.A = r₃.A) (i₁ : IsRep r₁) (i₂ : IsRep r₂) (i₃ : IsRep r₃) (hd : d₃ * (d₁ * d₂) < 10 ^ 8)
    (hgap : Gap (1 / 10 ^ 4) (icobMatrix r₃.allGens (r₁.tensorProduct r₂).allGens)) :
    checkTriplet rtol atol r₁ r₂ r₃ (Rep.clebschGordan eigh r₁ r₂ r₃) = .ok () := by
  have close : ∀ A : Fin n → Fin n → Fin n → ℂ, AllCloseA A A := fun A i j k =>
    isClose_of_eq (by norm_num) (by norm_num) rfl
  obtain ⟨S, hS, h1, -⟩ := C31_clebsch_gordan he hn r₁ r₂ r₃ (h₁₂ ▸ close _) (h₁₃ ▸ close _) hd hgap
  rw [hS]
  exact C83_pass hr ha h₁₂ h₁₃ i₁ i₂ i₃ h1

/-- C83: all labels of `SU(N)` pass with the generic `clebsch_gordan`. -/
theorem C83_sun_generic {S₁ S₂ S₃ : List ℤ} {r₁ : Rep (n ^ 2 - 1) 0 d₁} {r₂ : Rep (n ^ 2 - 1) 0 d₂} {r₃ : Rep (n ^ 2 - 1) 0 d₃}
    (he : EighSpec eigh) (ht : SUNTriple n S₁ S₂ S₃ r₁ r₂ r₃) (h₁₂ : r₁.A = r₂.A) (h₁₃ : r₁.A = r₃.A)
    (hA : SUNConstants n r₁.A) (hd : d₃ * (d₁ * d₂) < 10 ^ 8) :
    checkTriplet rtol atol r₁ r₂ r₃ (Rep.clebschGordan eigh r₁ r₂ r₃) = .ok () := by
  have i₁ := isRep_of_label ht.two ht.m₁ ht.l₁ ht.d₁ ht.g₁ hA
  have i₂ := isRep_of_label ht.two ht.m₂ ht.l₂ ht.d₂ ht.g₂ (h₁₂ ▸ hA)
  have i₃ := isRep_of_label ht.two ht.m₃ ht.l₃ ht.d₃ ht.g₃ (h₁₃ ▸ hA)
  obtain ⟨G, L, hG, -, -, h1, -⟩ := C79_generic he ht h₁₂ h₁₃ hd
  rw [hG]
  exact C83_pass hr ha h₁₂ h₁₃ i₁ i₂ i₃ h1

/-- C83: with `SUN.clebsch_gordan` the labels pass for which C49 finds the arrays to be right. -/
theorem C83_sun_pass {S₁ S₂ S₃ : List ℤ} {r₁ : Rep (n ^ 2 - 1) 0 d₁} {r₂ : Rep (n ^ 2 - 1) 0 d₂} {r₃ : Rep (n ^ 2 - 1) 0 d₃}
    (ht : SUNTriple n S₁ S₂ S₃ r₁ r₂ r₃) (h₁₂ : r₁.A = r₂.A) (h₁₃ : r₁.A = r₃.A)
    (hA : SUNConstants n r₁.A) {rnd : ℝ → ℝ} (hr₁ : KeepsLadder rnd S₁)
    (hr₂ : KeepsLadder rnd S₂) {null : ∀ m n : ℕ, Matrix (Fin m) (Fin n) ℝ → List (Fin n → ℝ)}
    (hn : NullExact rnd null d₁ d₂ S₁ S₂ S₃) {fuel : ℕ} (hf : d₃ ≤ fuel + 1)
    (hok : Module.finrank ℂ (cgSpace r₁ r₂ r₃) = 0 ∨ d₃ = 1 ∨ Module.finrank ℂ (cgSpace r₁ r₂ r₃) = 1 ∧ NoBranch S₃) :
    ∃ Cs, SUN.clebschGordanMatrix rnd null fuel d₁ d₂ d₃ S₁ S₂ S₃ = some (.ok Cs) ∧
      checkTriplet rtol atol r₁ r₂ r₃ (.ok (complexArrays Cs)) = .ok () := by
  have i₁ := isRep_of_label ht.two ht.m₁ ht.l₁ ht.d₁ ht.g₁ hA
  have i₂ := isRep_of_label ht.two ht.m₂ ht.l₂ ht.d₂ ht.g₂ (h₁₂ ▸ hA)
  have i₃ := isRep_of_label ht.two ht.m₃ ht.l₃ ht.d₃ ht.g₃ (h₁₃ ▸ hA)
  obtain ⟨Cs, hCs, -⟩ := C49_number ht hr₁ hr₂ hn hf
  refine ⟨Cs, hCs, C83_pass hr ha h₁₂ h₁₃ i₁ i₂ i₃ fun C hC => ?_⟩
  obtain ⟨C, hC', rfl⟩ := List.mem_map.1 hC
  exact (C49_all_iff ht hr₁ hr₂ hn hf hCs).2 hok C hC'

theorem generic_pass {r₁ : Rep n h d₁} {r₂ : Rep n h d₂} {r₃ : Rep n h d₃} (h₁₂ : r₁.A = r₂.A) (h₁₃ : r₁.A = r₃.A)
    (i₁ : IsRep r₁) (i₂ : IsRep r₂) (i₃ : IsRep r₃) {L : List (Fin d₁ → Fin d₂ → Fin d₃ → ℝ)}
    (hL : ∀ C ∈ L, IsCG r₁ r₂ r₃ fun i j k => (C i j k : ℂ)) {G : List (Fin d₁ → Fin d₂ → Fin d₃ → ℂ)}
    (hs : SameUpToSign L G) : checkTriplet rtol atol r₁ r₂ r₃ (.ok G) = .ok () := by
  obtain ⟨s, -, rfl, -⟩ := hs
  refine C83_pass hr ha h₁₂ h₁₃ i₁ i₂ i₃ fun C hC => ?_
  obtain ⟨D, hD, rfl⟩ := List.mem_map.1 hC
  have := (cgSpace r₁ r₂ r₃).smul_mem (s : ℂ) (hL D hD)
  have e : (fun i j k => ((s * D i j k : ℝ) : ℂ)) = (s : ℂ) • fun i j k => (D i j k : ℂ) := by
    funext i j k
    simp
  rw [e]
  exact this

/-- C83: the classes of the tables pass also with the generic `clebsch_gordan`, which is what a
`GenericRep` made from one of the three irreps uses. -/
theorem C83_su2_generic (he : EighSpec eigh) (j₁ j₂ j₃ : ℕ) (hd : (j₃ + 1) * ((j₁ + 1) * (j₂ + 1)) < 10 ^ 8) :
    checkTriplet rtol atol (SU2.rep j₁) (SU2.rep j₂) (SU2.rep j₃)
      (Rep.clebschGordan eigh (SU2.rep j₁) (SU2.rep j₂) (SU2.rep j₃)) = .ok () := by
  obtain ⟨L, G, hL, hG, hs⟩ := C78_su2 he j₁ j₂ j₃ hd
  rw [hG]
  exact generic_pass hr ha (by rfl) (by rfl) (SU2.isRep _) (SU2.isRep _) (SU2.isRep _) (C42_equivariant hL) hs

theorem C83_so3_generic (he : EighSpec eigh) (l₁ l₂ l₃ : ℕ)
    (hd : (2 * l₃ + 1) * ((2 * l₁ + 1) * (2 * l₂ + 1)) < 10 ^ 8) :
    checkTriplet rtol atol (SO3.rep l₁) (SO3.rep l₂) (SO3.rep l₃)
      (Rep.clebschGordan eigh (SO3.rep l₁) (SO3.rep l₂) (SO3.rep l₃)) = .ok () := by
  obtain ⟨L, G, hL, hG, hs⟩ := C78_so3 he l₁ l₂ l₃ hd
  rw [hG]
  exact generic_pass hr ha (by rfl) (by rfl) (SO3.isRep _) (SO3.isRep _) (SO3.isRep _) (C63_equivariant hL) hs

theorem C83_o3_generic (he : EighSpec eigh) (r₁ r₂ r₃ : O3) (hd : r₃.dim * (r₁.dim * r₂.dim) < 10 ^ 8) :
    checkTriplet rtol atol (O3.rep r₁) (O3.rep r₂) (O3.rep r₃)
      (Rep.clebschGordan eigh (O3.rep r₁) (O3.rep r₂) (O3.rep r₃)) = .ok () := by
  obtain ⟨L, G, hL, hG, hs⟩ := C78_o3 he r₁ r₂ r₃ hd
  rw [hG]
  exact generic_pass hr ha (by rfl) (by rfl) (o3_isRep _) (o3_isRep _) (o3_isRep _) (C63_o3_equivariant hL) hs

theorem C83_sl2c_generic (he : EighSpec eigh) (r₁ r₂ r₃ : SL2C) (hd : r₃.dim * (r₁.dim * r₂.dim) < 10 ^ 8) :
    checkTriplet rtol atol (SL2C.rep r₁) (SL2C.rep r₂) (SL2C.rep r₃)
      (Rep.clebschGordan eigh (SL2C.rep r₁) (SL2C.rep r₂) (SL2C.rep r₃)) = .ok () := by
  obtain ⟨L, G, hL, hG, hs⟩ := C78_sl2c he r₁ r₂ r₃ hd
  rw [hG]
  exact generic_pass hr ha (by rfl) (by rfl) (SL2C.isRep _) (SL2C.isRep _) (SL2C.isRep _) (C64_equivariant hL) hs

end classes

/-- C83: and it raises on all labels with more than one array, except if the output is trivial. -/
theorem C83_sun_raises {S₁ S₂ S₃ : List ℤ} {r₁ : Rep (n ^ 2 - 1) 0 d₁} {r₂ : Rep (n ^ 2 - 1) 0 d₂} {r₃ : Rep (n ^ 2 - 1) 0 d₃}
    (ht : SUNTriple n S₁ S₂ S₃ r₁ r₂ r₃) {rnd : ℝ → ℝ} (hr₁ : KeepsLadder rnd S₁)
    (hr₂ : KeepsLadder rnd S₂) {null : ∀ m n : ℕ, Matrix (Fin m) (Fin n) ℝ → List (Fin n → ℝ)}
    (hn : NullExact rnd null d₁ d₂ S₁ S₂ S₃) {fuel : ℕ} (hf : d₃ ≤ fuel + 1)
    (hne : d₃ ≠ 1) (h2 : 2 ≤ Module.finrank ℂ (cgSpace r₁ r₂ r₃)) (hat : d₃ * (d₁ * d₂) * atol ^ 2 < 1) :
    ∃ Cs, SUN.clebschGordanMatrix rnd null fuel d₁ d₂ d₃ S₁ S₂ S₃ = some (.ok Cs) ∧
      checkTriplet rtol atol r₁ r₂ r₃ (.ok (complexArrays Cs)) = .error .assertionError := by
  obtain ⟨Cs, hCs, hlen⟩ := C49_number ht hr₁ hr₂ hn hf
  refine ⟨Cs, hCs, ?_⟩
  rw [← hlen] at h2
  obtain ⟨C, D, rest, rfl⟩ : ∃ C D rest, Cs = C :: D :: rest := by
    match Cs, h2 with
    | C :: D :: rest, _ => exact ⟨C, D, rest, rfl⟩
  have hmem : D ∈ D :: rest := List.mem_cons_self
  have hz := (C49_rest ht hr₁ hr₂ hn hf hCs D hmem).1
  have ho := (C49_orthonormal ht hr₁ hr₂ hn hf hCs).1
  obtain ⟨L, hL, hX⟩ := ht.g₃
  obtain ⟨hS, h0, -⟩ := make_weight ht.m₃
  obtain rfl := dim_pats ht.labels.w₃ ht.d₃
  have hlast := (pats_last hS).2
  obtain ⟨a, hlow⟩ := gen_low_top hS h0 ht.l₃ ht.two hne hL
  rw [← hX] at hlow
  have ho1 := (ho (topIdx hS) hlast).2 D (List.mem_cons_of_mem _ hmem)
  refine checkTriplet_error fun hok => ?_
  obtain ⟨-, -, -, -, -, L', hL', hcl⟩ := (C83_iff _ _ _ _).1 hok
  obtain rfl := Except.ok.inj hL'
  have hb : ∀ l ∈ Finset.univ.erase (topIdx hS), ∀ i j, ‖r₃.X a l (topIdx hS)‖ ^ 2 * D i j (topIdx hS) ^ 2 ≤ atol ^ 2 := by
    intro l hl i j
    have hl' : (l : ℕ) + 1 ≠ (pats S₃).length := fun e => Finset.ne_of_mem_erase hl (Fin.ext (by omega))
    have h3 := hcl _ (List.mem_map_of_mem (List.mem_cons_of_mem _ hmem)) a i j l
    simp only [hz _ _ l hl', Complex.ofReal_zero, mul_zero, Finset.sum_const_zero, add_zero, sub_zero, norm_zero] at h3
    rw [Finset.sum_eq_single (topIdx hS)] at h3
    · rw [norm_mul, Complex.norm_real, Real.norm_eq_abs] at h3
      have h4 := pow_le_pow_left₀ (by positivity) h3 2
      rw [mul_pow, sq_abs] at h4
      linarith
    · intro k _ hk
      rw [hz i j k fun e => hk (Fin.ext (by omega)), Complex.ofReal_zero, zero_mul]
    · intro h'
      exact absurd (Finset.mem_univ _) h'
  have hsum : (∑ l ∈ Finset.univ.erase (topIdx hS), ‖r₃.X a l (topIdx hS)‖ ^ 2) * ∑ i, ∑ j, D i j (topIdx hS) ^ 2 ≤
      (pats S₃).length * (d₁ * d₂) * atol ^ 2 := by
    calc _ = ∑ l ∈ Finset.univ.erase (topIdx hS), ∑ i, ∑ j, ‖r₃.X a l (topIdx hS)‖ ^ 2 * D i j (topIdx hS) ^ 2 := by
          rw [Finset.sum_mul]
          simp only [Finset.mul_sum]
      _ ≤ ∑ l ∈ Finset.univ.erase (topIdx hS), ∑ i : Fin d₁, ∑ j : Fin d₂, atol ^ 2 :=
          Finset.sum_le_sum fun l hl => Finset.sum_le_sum fun i _ => Finset.sum_le_sum fun j _ => hb l hl i j
      _ ≤ ∑ l : Fin (pats S₃).length, ∑ i : Fin d₁, ∑ j : Fin d₂, atol ^ 2 :=
          Finset.sum_le_sum_of_subset_of_nonneg (Finset.subset_univ _) fun _ _ _ => by positivity
      _ = _ := by simp; ring
  rw [ho1, mul_one] at hsum
  linarith

/-- A label with the structure constants of the program. -/
noncomputable def fullRep (n : ℕ) (S : List ℤ) : Rep (n ^ 2 - 1) 0 (pats S).length :=
  { labelRep n S with A := fun i j k => (strC n i j k : ℂ) }

theorem fullRep_triple {S₁ S₂ S₃ : List ℤ} (h' : SUNTriple n S₁ S₂ S₃ (labelRep n S₁) (labelRep n S₂) (labelRep n S₃)) :
    SUNTriple n S₁ S₂ S₃ (fullRep n S₁) (fullRep n S₂) (fullRep n S₃) :=
  ⟨h'.two, h'.m₁, h'.m₂, h'.m₃, h'.l₁, h'.l₂, h'.l₃, h'.d₁, h'.d₂, h'.d₃, h'.g₁, h'.g₂, h'.g₃⟩

/-- The hypotheses are met by the quark and itself into the sextet: the check passes with the default tolerances. -/
example : ∃ Cs, SUN.clebschGordanMatrix id exactNull 5 _ _ _ [1, 0, 0] [1, 0, 0] [2, 0, 0] = some (.ok Cs) ∧
    checkTriplet (1 / 10 ^ 10) (1 / 10 ^ 10) (fullRep 3 [1, 0, 0]) (fullRep 3 [1, 0, 0]) (fullRep 3 [2, 0, 0])
      (.ok (complexArrays Cs)) = .ok () := by
  have ht := fullRep_triple (labelRep_triple (n := 3) (S₁ := [1, 0, 0]) (S₂ := [1, 0, 0]) (S₃ := [2, 0, 0]) (by decide)
    (by decide +kernel) (by decide +kernel) (by decide +kernel) rfl rfl rfl)
  obtain ⟨L, hL, hc⟩ := C77_multiplicity ht
  have e : (mulRep [1, 0, 0] [1, 0, 0]).map (List.count [2, 0, 0]) = .ok 1 := by decide +kernel
  rw [hL] at e
  refine C83_sun_pass (by norm_num) (by norm_num) ht rfl rfl (sunConstants_strC 3) (keepsLadder_id _) (keepsLadder_id _)
    (nullExact_exactNull _ _ _ _ _ _) (by decide +kernel) (Or.inr (Or.inr ⟨?_, ?_⟩))
  · rw [← hc]
    exact Except.ok.inj e
  · exact Or.inl (by decide)

/-- C83: the check raises on the three octets of `SU(3)`. -/
theorem C83_octets_raise : ∃ Cs, SUN.clebschGordanMatrix id exactNull 7 _ _ _ [2, 1, 0] [2, 1, 0] [2, 1, 0] = some (.ok Cs) ∧
    checkTriplet (1 / 10 ^ 10) (1 / 10 ^ 10) (fullRep 3 [2, 1, 0]) (fullRep 3 [2, 1, 0]) (fullRep 3 [2, 1, 0])
      (.ok (complexArrays Cs)) = .error .assertionError := by
  have ht := fullRep_triple (labelRep_triple (n := 3) (S₁ := [2, 1, 0]) (S₂ := [2, 1, 0]) (S₃ := [2, 1, 0]) (by decide)
    (by decide +kernel) (by decide +kernel) (by decide +kernel) rfl rfl rfl)
  obtain ⟨L, hL, hc⟩ := C77_multiplicity ht
  have e : (mulRep [2, 1, 0] [2, 1, 0]).map (List.count [2, 1, 0]) = .ok 2 := by decide +kernel
  rw [hL] at e
  have h8 : (pats [2, 1, 0]).length = 8 := by decide +kernel
  refine C83_sun_raises ht (keepsLadder_id _) (keepsLadder_id _) (nullExact_exactNull _ _ _ _ _ _) (by decide +kernel)
    (by decide +kernel) ?_ ?_
  · rw [← hc]
    exact (Except.ok.inj e).ge
  · rw [h8]
    norm_num

/-- The hypotheses are met by two vectors into a vector. -/
example : ∃ L, SO3.cg 1 1 1 = .ok L ∧
    checkTriplet (1 / 10 ^ 10) (1 / 10 ^ 10) (SO3.rep 1) (SO3.rep 1) (SO3.rep 1) (.ok (complexArrays L)) = .ok () :=
  C83_so3 (by norm_num) (by norm_num) 1 1 1

end LieNN.Props

import Verif.Proofs.Finite
import Verif.Props.Mat
/-!
# C57: representations of the symmetric group (`finite.py`)
-/
namespace LieNN.Props

open Matrix LieNN.Spec LieNN.Finite

/-- C57: `_permutation_matrix` turns `perm.compose` into the matrix product, for all permutation
tuples of the same length. -/
theorem C57_permutation_matrix_mul (p q : List ℕ) (hp : Perm.isPerm p = true)
    (hq : Perm.isPerm q = true) (hl : p.length = q.length) :
    ∃ r A B C, Perm.compose p q = .ok r ∧ permutationMatrix p = .ok A ∧
      permutationMatrix q = .ok B ∧ permutationMatrix r = .ok C ∧ IsMatmul A B C := by
  obtain ⟨σ, hσ⟩ := Perm.exists_tup_of_isPerm hp rfl
  obtain ⟨τ, hτ⟩ := Perm.exists_tup_of_isPerm hq hl.symm
  rw [← hσ, ← hτ, Perm.compose_tup]
  exact ⟨_, _, _, _, rfl, permutationMatrix_tup _, permutationMatrix_tup _, permutationMatrix_tup _,
    _, _, _, _, _, rfl, rfl, by rw [PMat_mul]⟩

/-- C57: column `k` of the matrix of a permutation tuple is the basis vector number `p[k]`. -/
theorem C57_permutation_matrix_column {n : ℕ} (σ : Equiv.Perm (Fin n)) :
    permutationMatrix (tup σ) = .ok ⟨n, n, PMat σ⟩ ∧
      ∀ k, PMat σ *ᵥ Pi.single k 1 = Pi.single (σ k) 1 := by
  refine ⟨permutationMatrix_tup σ, fun k => ?_⟩
  ext i
  simp [PMat, Pi.single_apply, eq_comm]

/-- C57: `_transposition_matrix(n, i, j)` is the matrix of the transposition. -/
theorem C57_transposition_matrix {n : ℕ} (i j : Fin n) :
    transpositionMatrix n i j = .ok (PMat (Equiv.swap i j)) ∧
      permutationMatrix (tup (Equiv.swap i j)) = .ok ⟨n, n, PMat (Equiv.swap i j)⟩ :=
  ⟨transpositionMatrix_eq i j, permutationMatrix_tup _⟩

/-- C57: out-of-range arguments of `_transposition_matrix` are rejected. -/
theorem C57_transposition_matrix_rejects {n i j : ℕ} (h : n ≤ i ∨ n ≤ j) :
    transpositionMatrix n i j = .error .assertionError := by
  unfold transpositionMatrix pyAssert
  by_cases hi : i < n
  · rw [if_pos hi, if_neg (by omega)]; rfl
  · rw [if_neg hi]; rfl

/-- C57: the discrete generators of `Sn_natural(n)`, `n ≥ 3`, are the permutation matrices of `(0 1)`
and of the cycle `i ↦ i + 1`; for `n = 2` of `(0 1)`; for `n = 1` there is none; `n = 0` is rejected. -/
theorem C57_natural_generators :
    naturalGens 0 = .error .assertionError ∧ naturalGens 1 = .ok [] ∧
    naturalGens 2 = .ok [⟨2, 2, PMat (Equiv.swap 0 1)⟩] ∧
    ∀ n, (hn : 3 ≤ n) → naturalGens n =
      .ok [⟨n, n, PMat (Equiv.swap ⟨0, by omega⟩ ⟨1, by omega⟩)⟩, ⟨n, n, PMat (finRotate n)⟩] :=
  ⟨rfl, rfl, naturalGens_two, fun _ hn => naturalGens_eq hn⟩

/-- C57: the shipped generators of `Sn_natural(n)` generate the matrices of all permutations. -/
theorem C57_natural_generates (n : ℕ) (hn : 1 ≤ n) : ∃ L, naturalGens n = .ok L ∧
    ∀ σ : Equiv.Perm (Fin n), PMat σ ∈ Submonoid.closure {M | (⟨n, n, M⟩ : SMat) ∈ L} := by
  have key : ∀ (L : List SMat) (S : Set (Equiv.Perm (Fin n))), Subgroup.closure S = ⊤ →
      (∀ s ∈ S, (⟨n, n, PMat s⟩ : SMat) ∈ L) →
      ∀ σ : Equiv.Perm (Fin n), PMat σ ∈ Submonoid.closure {M | (⟨n, n, M⟩ : SMat) ∈ L} := by
    intro L S hS hL σ
    have hσ : σ ∈ Subgroup.closure S := by rw [hS]; trivial
    induction hσ using Subgroup.closure_induction with
    | mem x hx => exact Submonoid.subset_closure (hL x hx)
    | one => rw [PMat_one]; exact Submonoid.one_mem _
    | mul x y _ _ hx hy => rw [← PMat_mul]; exact Submonoid.mul_mem _ hx hy
    | inv x _ hx =>
      have hp : ∀ k : ℕ, PMat (x ^ k) = PMat x ^ k := by
        intro k
        induction k with
        | zero => simp [PMat_one]
        | succ k ih => rw [pow_succ, ← PMat_mul, ih, pow_succ]
      have : x⁻¹ = x ^ (orderOf x - 1) := by
        rw [inv_eq_iff_mul_eq_one, ← pow_succ', Nat.sub_add_cancel (orderOf_pos x),
          pow_orderOf_eq_one]
      rw [this, hp]; exact Submonoid.pow_mem _ hx _
  rcases (by omega : n = 1 ∨ n = 2 ∨ 3 ≤ n) with rfl | rfl | h
  · refine ⟨[], rfl, key _ ∅ ?_ (by simp)⟩
    exact Subsingleton.elim _ _
  · refine ⟨_, naturalGens_two, key _ {finRotate 2, Equiv.swap 0 1} (closure_gens le_rfl) ?_⟩
    have : finRotate 2 = Equiv.swap 0 1 := by decide
    rintro s (rfl | rfl) <;> simp [this]
  · refine ⟨_, naturalGens_eq h, key _ _ (closure_gens (by omega)) ?_⟩
    rintro s (rfl | rfl) <;> simp

/-- C57: the generators of `Sn_standard(n)` match those of `Sn_natural(n)` one by one, and
`f_i = e_i - e_0` intertwines each pair. -/
theorem C57_standard_embeds (n : ℕ) (hn : 2 ≤ n) : ∃ L L', naturalGens n = .ok L ∧
    standardGens n = .ok L' ∧ List.Forall₂ (fun A D => ∃ M, A = ⟨n, n, M⟩ ∧
      M * stdEmbed n = stdEmbed n * D) L L' := by
  rcases (by omega : n = 2 ∨ 3 ≤ n) with rfl | h
  · refine ⟨_, _, naturalGens_two, standardGens_two, ?_⟩
    exact .cons ⟨_, rfl, (embed_phi (by omega) _).symm⟩ .nil
  · refine ⟨_, _, naturalGens_eq h, standardGens_eq h, ?_⟩
    exact .cons ⟨_, rfl, (embed_phi (by omega) _).symm⟩
      (.cons ⟨_, rfl, (embed_phi (by omega) _).symm⟩ .nil)

/-- C57: the generators of `Sn_standard(n)` are the images of the generators of `Sn_natural(n)` under
an injective homomorphism of the symmetric group, so they satisfy exactly the same relations. -/
theorem C57_standard_hom (n : ℕ) (hn : 2 ≤ n) :
    ∃ φ : Equiv.Perm (Fin n) →* Matrix (Fin (n - 1)) (Fin (n - 1)) ℂ, Function.Injective φ ∧
      ∃ L L', naturalGens n = .ok L ∧ standardGens n = .ok L' ∧
        List.Forall₂ (fun A D => ∃ σ, A = ⟨n, n, PMat σ⟩ ∧ D = φ σ) L L' := by
  refine ⟨⟨⟨phi, phi_one (by omega)⟩, phi_mul (by omega)⟩, phi_injective hn, ?_⟩
  rcases (by omega : n = 2 ∨ 3 ≤ n) with rfl | h
  · refine ⟨_, _, naturalGens_two, standardGens_two, ?_⟩
    exact .cons ⟨_, rfl, rfl⟩ .nil
  · refine ⟨_, _, naturalGens_eq h, standardGens_eq h, ?_⟩
    exact .cons ⟨_, rfl, rfl⟩ (.cons ⟨_, rfl, rfl⟩ .nil)

/-- C57: `Sn_standard(n)` is irreducible for every `n ≥ 2`. -/
theorem C57_standard_irreducible (n : ℕ) (hn : 2 ≤ n) : ∃ L, standardGens n = .ok L ∧
    IrreducibleFamily (fun a : Fin L.length => L.get a) := by
  rcases (by omega : n = 2 ∨ 3 ≤ n) with rfl | h
  · refine ⟨_, standardGens_two, by norm_num, fun W hW => irreducible le_rfl W ?_⟩
    have h1 := hW ⟨0, by simp⟩
    simp only [List.get_eq_getElem, List.getElem_cons_zero] at h1
    refine invariant_all le_rfl W ?_ h1
    have : finRotate 2 = Equiv.swap 0 1 := by decide
    rw [this]; exact h1
  · refine ⟨_, standardGens_eq h, by omega, fun W hW => irreducible hn W ?_⟩
    exact invariant_all hn W (hW ⟨1, by simp⟩) (hW ⟨0, by simp⟩)

/-- C57: `Sn_trivial(n)` and `create_trivial` of the two other classes agree: one `1 × 1` matrix of
ones per discrete generator. -/
theorem C57_trivial (n : ℕ) :
    (1 ≤ n → createTrivial (naturalGens n) = trivialGens n) ∧
    (2 ≤ n → createTrivial (standardGens n) = trivialGens n) ∧
    (n = 0 → trivialGens n = .error .typeError) := by
  refine ⟨fun hn => ?_, fun hn => ?_, fun hn => by subst hn; rfl⟩
  · rcases (by omega : n = 1 ∨ n = 2 ∨ 3 ≤ n) with rfl | rfl | h
    · rfl
    · rw [naturalGens_two]; rfl
    · rw [naturalGens_eq h, trivialGens, if_neg (by omega), if_neg (by omega), if_pos h]; rfl
  · rcases (by omega : n = 2 ∨ 3 ≤ n) with rfl | h
    · rw [standardGens_two]; rfl
    · rw [standardGens_eq h, trivialGens, if_neg (by omega), if_neg (by omega), if_pos h]; rfl

/-- C57 finding: for `n ≥ 3` the matrices of `Sn_standard(n)` are not unitary (the basis `f_i` is not
orthonormal): row `0` of the transposition has squared norm `n - 1`. -/
theorem C57_standard_not_unitary (n : ℕ) (hn : 3 ≤ n) : ∃ T C, standardGens n = .ok [T, C] ∧
    T * Tᴴ ≠ 1 ∧ C * Cᴴ ≠ 1 := by
  have key : ∀ σ : Equiv.Perm (Fin n), σ ⟨0, by omega⟩ = ⟨1, by omega⟩ → phi σ * (phi σ)ᴴ ≠ 1 := by
    intro σ hσ h
    have h1 : ∀ i, phi σ ⟨0, by omega⟩ i = -1 := by
      intro i
      rw [phi_apply, hσ, if_neg, if_pos rfl]
      · norm_num
      · intro h2
        have h3 : σ ⟨0, by omega⟩ = σ ⟨i.1 + 1, by omega⟩ := hσ.trans h2
        have := σ.injective h3
        simp [Fin.ext_iff] at this
    have h2 := congrFun (congrFun h ⟨0, by omega⟩) ⟨0, by omega⟩
    rw [Matrix.mul_apply, Matrix.one_apply_eq] at h2
    simp only [Matrix.conjTranspose_apply, h1] at h2
    simp at h2
    have h3 : n = 2 := by exact_mod_cast h2
    omega
  refine ⟨_, _, standardGens_eq hn, key _ (by simp), key _ ?_⟩
  obtain ⟨k, rfl⟩ : ∃ k, n = k + 1 := ⟨n - 1, by omega⟩
  rw [finRotate_of_lt (by omega)]

/-- `_num_transpositions(n)` is the number of two-element subsets. -/
theorem C57_num_transpositions (n : ℕ) : numTranspositions n = (n.choose 2 : ℕ) := by
  rw [numTranspositions, Int.fdiv_eq_ediv_of_nonneg _ (by norm_num), Nat.choose_two_right]
  rcases n with _ | n
  · rfl
  · push_cast; simp

example : Perm.isPerm [2, 0, 1] = true := (Perm.isPerm_iff_perm_range _).2 (by decide)

end LieNN.Props

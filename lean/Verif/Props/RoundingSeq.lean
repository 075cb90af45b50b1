import Verif.Proofs.RoundingSeq
import Verif.Props.LinAlg
/-!
# C108: `sequential_nullspace` with rounding errors
-/
namespace LieNN.Props

open LieNN.Spec Matrix

variable {n : ℕ} {δ eps γ B τ : ℝ}

/-- C108, consistency: an update without errors is the update of the exact model for one of the possible
answers of an exact `eigh`, and the result of the exact model is a run for every error bound. -/
theorem C108_exact (A : Constraint n) (S : Option (List (Vec n))) (R : List (Vec n))
    (gen : List (Constraint n)) (dim : ℕ) :
    (SeqStepRun 0 eps A S R ↔ ∃ eigh : EighFn, EighSpec eigh ∧ R = seqStep eigh eps A S) ∧
      ∀ eigh : EighFn, EighSpec eigh → ∀ δ, 0 ≤ δ →
        SeqRun δ eps gen dim (sequentialNullspace eigh eps gen dim) :=
  ⟨Rounding.seqStepRun_zero A S R, fun _ he _ hδ => Rounding.seqLoopRun_exact he hδ dim gen none⟩

/-- C108: for a size, a tolerance, a spectral gap, a bound on the matrices, a number of matrices and a
wanted accuracy there is an error bound below which every run of `sequential_nullspace` stops at the
shortest non-empty prefix of the matrices whose common kernel has at most the requested dimension, and
returns as many vectors as this kernel has dimensions, each within the wanted accuracy of the corresponding
vector of an orthonormal basis of it; a run raises `ValueError` exactly when there is no such prefix. -/
theorem C108_sequential_nullspace (n L : ℕ) (heps : 0 < eps) (hγ : eps < γ) (hn : n * eps ^ 2 < 1)
    (hB : 0 ≤ B) (hτ : 0 < τ) :
    ∃ Δ > 0, ∀ δ, 0 ≤ δ → δ ≤ Δ → ∀ (gen : List (Constraint n)) (dim : ℕ), gen.length ≤ L →
      (∀ k (hk : k < gen.length), GapOn γ (commonKernel (gen.take k)) gen[k].2) →
      (∀ A ∈ gen, ∀ x : Vec n, ‖(WithLp.toLp 2 (A.2 *ᵥ x.ofLp) : Vec A.1)‖ ≤ B * ‖x‖) →
      ∀ res, SeqRun δ eps gen dim res →
      (∃ k S, 1 ≤ k ∧ k ≤ gen.length ∧ res = .ok S ∧
        S.length = Module.finrank ℂ (commonKernel (gen.take k)) ∧ S.length ≤ dim ∧
        (∃ U, OrthonormalList U ∧ lspan U = commonKernel (gen.take k) ∧
          List.Forall₂ (fun q u => ‖q - u‖ ≤ τ) S U) ∧
        ∀ j, 1 ≤ j → j < k → dim < Module.finrank ℂ (commonKernel (gen.take j))) ∨
      (res = .error .valueError ∧
        ∀ j, 1 ≤ j → j ≤ gen.length → dim < Module.finrank ℂ (commonKernel (gen.take j))) := by
  obtain ⟨Δ, h0, h⟩ := Rounding.seqLoop_close n heps hγ hn hB hτ L
  refine ⟨Δ, h0, fun δ h1 h2 gen dim hL hgap hA res hres => ?_⟩
  rcases h δ h1 h2 dim gen [] hL (by simpa using hgap) hA none rfl res hres with
    ⟨k, hk, S, r1, r2, ⟨U, u1, u2, u3⟩, r4⟩ | ⟨r1, r2⟩
  · refine Or.inl ⟨k + 1, S, by omega, hk, r1, ?_, r2, ⟨U, u1.orthonormal, u2, u3⟩, fun j hj hjk => ?_⟩
    · rw [u3.length_eq, oList_length u1, u2]; rfl
    · obtain ⟨i, rfl⟩ : ∃ i, j = i + 1 := ⟨j - 1, by omega⟩
      exact r4 i (by omega)
  · refine Or.inr ⟨r1, fun j hj hjk => ?_⟩
    obtain ⟨i, rfl⟩ : ∃ i, j = i + 1 := ⟨j - 1, by omega⟩
    exact r2 i (by omega)

/-- C108: below an error bound a run raises exactly when the common kernel of all matrices is larger than
requested or there is no matrix, and the number of vectors that runs return is the same for all of them. -/
theorem C108_raises (n L : ℕ) (heps : 0 < eps) (hγ : eps < γ) (hn : n * eps ^ 2 < 1) (hB : 0 ≤ B) :
    ∃ Δ > 0, ∀ δ, 0 ≤ δ → δ ≤ Δ → ∀ (gen : List (Constraint n)) (dim : ℕ), gen.length ≤ L →
      (∀ k (hk : k < gen.length), GapOn γ (commonKernel (gen.take k)) gen[k].2) →
      (∀ A ∈ gen, ∀ x : Vec n, ‖(WithLp.toLp 2 (A.2 *ᵥ x.ofLp) : Vec A.1)‖ ≤ B * ‖x‖) →
      (∀ res, SeqRun δ eps gen dim res → (res = .error .valueError ↔
        gen = [] ∨ dim < Module.finrank ℂ (commonKernel gen))) ∧
      ∀ S S', SeqRun δ eps gen dim (.ok S) → SeqRun δ eps gen dim (.ok S') → S.length = S'.length := by
  obtain ⟨Δ, h0, h⟩ := C108_sequential_nullspace n L heps hγ hn hB one_pos
  refine ⟨Δ, h0, fun δ h1 h2 gen dim hL hgap hA => ⟨fun res hres => ?_, fun S S' hS hS' => ?_⟩⟩
  · have hanti : ∀ k, commonKernel gen ≤ commonKernel (gen.take k) := by
      intro k x hx A hA
      exact hx A (List.mem_of_mem_take hA)
    rcases h δ h1 h2 gen dim hL hgap hA res hres with
      ⟨k, S, hk1, hk, hS, hlen, hle, _, _⟩ | ⟨herr, hall⟩
    · rw [hS]
      constructor
      · intro hc; exact absurd hc (by simp)
      · rintro (h0 | h0)
        · subst h0; simp at hk; omega
        · have := Submodule.finrank_mono (hanti k)
          omega
    · refine ⟨fun _ => ?_, fun _ => herr⟩
      by_cases h0 : gen = []
      · exact Or.inl h0
      · right
        have hpos : 1 ≤ gen.length := List.length_pos_of_ne_nil h0
        have := hall gen.length hpos le_rfl
        rwa [List.take_length] at this
  · rcases h δ h1 h2 gen dim hL hgap hA _ hS with ⟨k, T, a1, a2, a3, a4, a5, -, a6⟩ | ⟨a1, -⟩
    · rcases h δ h1 h2 gen dim hL hgap hA _ hS' with ⟨k', T', b1, b2, b3, b4, b5, -, b6⟩ | ⟨b1, -⟩
      · cases a3
        cases b3
        have hk : k = k' := by
          rcases Nat.lt_trichotomy k k' with hlt | he | hlt
          · have := b6 k a1 hlt
            omega
          · exact he
          · have := a6 k' b1 hlt
            omega
        subst hk
        rw [a4, b4]
      · exact absurd b1 (by simp)
    · exact absurd a1 (by simp)

/-- Non-vacuity: two matrices with one row each, that read off the two coordinates of `ℂ²`, meet the
hypotheses with tolerance `1e-5`, gap `1e-4` and bound `1`; the exact computation is a run. -/
example : (∀ k (hk : k < [coordRow 0, coordRow 1].length),
      GapOn (1 / 10 ^ 4) (commonKernel ([coordRow 0, coordRow 1].take k)) [coordRow 0, coordRow 1][k].2) ∧
    (∀ A ∈ [coordRow 0, coordRow 1], ∀ x : Vec 2,
      ‖(WithLp.toLp 2 (A.2 *ᵥ x.ofLp) : Vec A.1)‖ ≤ 1 * ‖x‖) ∧
    ∃ res, SeqRun (1 / 10 ^ 12) (1 / 10 ^ 5) [coordRow 0, coordRow 1] 0 res := by
  refine ⟨coordRow_gaps, fun A hA x => ?_, _,
    (C108_exact (coordRow 0) none [] _ 0).2 exactEigh exactEigh_spec _ (by norm_num)⟩
  obtain ⟨j, rfl⟩ : ∃ j, A = coordRow j := by
    rcases List.mem_cons.1 hA with rfl | h
    · exact ⟨0, rfl⟩
    · exact ⟨1, List.mem_singleton.1 h⟩
  rw [one_mul]
  have e : (WithLp.toLp 2 (coordMat j *ᵥ x.ofLp) : Vec 1) = WithLp.toLp 2 fun _ => x j := by
    congr 1
    funext i
    simp [coordMat, mulVec, dotProduct]
  show ‖(WithLp.toLp 2 (coordMat j *ᵥ x.ofLp) : Vec 1)‖ ≤ ‖x‖
  rw [e, EuclideanSpace.norm_eq]
  simp only [Finset.univ_unique, Finset.sum_singleton]
  rw [Real.sqrt_sq (norm_nonneg _)]
  exact PiLp.norm_apply_le x j

end LieNN.Props

import Verif.Proofs.SUNCGDim
import Verif.Proofs.SUNCGPat
import Mathlib.Analysis.InnerProductSpace.PiL2
/-!
# Lower bounds of the number of solutions; exact null spaces exist
-/
namespace LieNN.SUN

open Spec Finset Matrix

/-- Every real matrix has an exact null space. -/
theorem exists_exactNull {m n : ℕ} (A : Matrix (Fin m) (Fin n) ℝ) : ∃ L, ExactNull A L := by
  obtain ⟨K, hK⟩ : ∃ K : Submodule ℝ (EuclideanSpace ℝ (Fin n)), ∀ x, x ∈ K ↔ A *ᵥ x.ofLp = 0 :=
    ⟨(LinearMap.ker A.mulVecLin).comap (WithLp.linearEquiv 2 ℝ (Fin n → ℝ)).toLinearMap, fun x => Iff.rfl⟩
  obtain ⟨N, b, hb, hs⟩ : ∃ (N : ℕ) (b : Fin N → EuclideanSpace ℝ (Fin n)), Orthonormal ℝ b ∧ Submodule.span ℝ (Set.range b) = K := by
    let c := stdOrthonormalBasis ℝ K
    refine ⟨_, fun i => (c i : EuclideanSpace ℝ (Fin n)), c.orthonormal.comp_linearIsometry K.subtypeₗᵢ, ?_⟩
    have h1 : Submodule.span ℝ (Set.range c) = ⊤ := by
      have := c.toBasis.span_eq
      rwa [OrthonormalBasis.coe_toBasis] at this
    have h2 := congrArg (Submodule.map K.subtype) h1
    rw [Submodule.map_span, ← Set.range_comp, Submodule.map_top, Submodule.range_subtype] at h2
    exact h2
  have hb' : ∀ i j, (b i).ofLp ⬝ᵥ (b j).ofLp = if i = j then 1 else 0 := by
    intro i j
    rw [← orthonormal_iff_ite.1 hb i j, PiLp.inner_apply, dotProduct]
    exact sum_congr rfl fun k _ => mul_comm _ _
  refine ⟨List.ofFn fun i => (b i).ofLp, ?_, ?_, fun x => ?_⟩
  · rw [List.pairwise_ofFn]
    intro i j hij
    rw [hb', if_neg hij.ne]
  · intro x hx
    obtain ⟨i, rfl⟩ := (List.mem_ofFn' _ _).1 hx
    rw [hb', if_pos rfl]
  · have e : {y | y ∈ List.ofFn fun i => (b i).ofLp} = (WithLp.linearEquiv 2 ℝ (Fin n → ℝ)) '' Set.range b := by
      ext y
      rw [Set.mem_ofPred_eq, List.mem_ofFn', ← Set.range_comp]
      rfl
    have e2 : Submodule.span ℝ {y | y ∈ List.ofFn fun i => (b i).ofLp} = K.map (WithLp.linearEquiv 2 ℝ (Fin n → ℝ)).toLinearMap := by
      rw [e, ← hs, Submodule.map_span]
      rfl
    rw [e2]
    constructor
    · intro hx
      exact ⟨WithLp.toLp 2 x, (hK _).2 hx, rfl⟩
    · rintro ⟨y, hy, rfl⟩
      exact (hK y).1 hy

section
variable {S₁ S₂ S₃ : List ℤ}

/-- Components of the right weight minus equations. -/
theorem length_ge {vs : List (Matrix (Fin (pats S₁).length) (Fin (pats S₂).length) ℝ)} {E : Pat}
    (hE : Eldest (rowsVal S₁ S₂ E) vs) (R : Finset (Fin (pats S₁).length × Fin (pats S₂).length))
    (Q : Finset (Fin (pats S₁).length × Fin (pats S₂).length × ℕ)) (hR : ∀ m ∈ R, wrongB S₁ S₂ E m = false)
    (hQ : ∀ q : Fin (pats S₁).length × Fin (pats S₂).length × ℕ, q.2.2 < E.length - 1 → q ∉ Q → ∀ m ∈ R, entryVal S₁ S₂ q m = 0) :
    R.card ≤ vs.length + Q.card := by
  classical
  -- an array from its components
  let emb : (R → ℝ) →ₗ[ℝ] Matrix (Fin (pats S₁).length) (Fin (pats S₂).length) ℝ :=
    { toFun := fun x => Matrix.of fun i j => if h : (i, j) ∈ R then x ⟨(i, j), h⟩ else 0
      map_add' := fun x y => by
        ext i j
        simp only [Matrix.of_apply, Matrix.add_apply, Pi.add_apply]
        split_ifs <;> simp
      map_smul' := fun c x => by
        ext i j
        simp only [Matrix.of_apply, Matrix.smul_apply, Pi.smul_apply, RingHom.id_apply]
        split_ifs <;> simp }
  have hinj : Function.Injective emb := by
    intro x y hxy
    funext p
    have := congrFun₂ hxy p.1.1 p.1.2
    simpa [emb] using this
  let eqs : (R → ℝ) →ₗ[ℝ] (Q → ℝ) :=
    { toFun := fun x q => ∑ i, ∑ j, entryVal S₁ S₂ q.1 (i, j) * emb x i j
      map_add' := fun x y => by
        funext q
        simp only [map_add, Matrix.add_apply, mul_add, sum_add_distrib, Pi.add_apply]
      map_smul' := fun c x => by
        funext q
        simp only [map_smul, Matrix.smul_apply, smul_eq_mul, mul_left_comm _ c, ← mul_sum, Pi.smul_apply, RingHom.id_apply] }
  have hker : ∀ x ∈ LinearMap.ker eqs, emb x ∈ Submodule.span ℝ {y | y ∈ vs} := by
    intro x hx
    refine (hE.span _).1 fun M hM => ?_
    rw [rowsVal, List.mem_append] at hM
    rcases hM with hM | hM
    · obtain ⟨q, hq, rfl⟩ := List.mem_map.1 hM
      rw [mem_triples] at hq
      by_cases hqQ : q ∈ Q
      · exact congrFun hx ⟨q, hqQ⟩
      · refine sum_eq_zero fun i _ => sum_eq_zero fun j _ => ?_
        by_cases hm : (i, j) ∈ R
        · rw [Matrix.of_apply, hQ q hq hqQ _ hm, zero_mul]
        · have : emb x i j = 0 := dif_neg hm
          rw [this, mul_zero]
    · obtain ⟨L, hL, hM⟩ := List.mem_flatten.1 hM
      obtain ⟨m, -, rfl⟩ := List.mem_map.1 hL
      split_ifs at hM with hw
      · rw [List.mem_singleton] at hM
        subst hM
        refine sum_eq_zero fun i _ => sum_eq_zero fun j _ => ?_
        rw [Matrix.single_apply]
        split_ifs with e
        · have hm : (i, j) ∉ R := by
            intro hm
            have := hR _ hm
            rw [← e.1, ← e.2] at this
            rw [this] at hw
            cases hw
          have : emb x i j = 0 := dif_neg hm
          rw [this, mul_zero]
        · rw [zero_mul]
      · simp at hM
  have h1 := LinearMap.finrank_range_add_finrank_ker eqs
  have h2 : Module.finrank ℝ (LinearMap.range eqs) ≤ Q.card := by
    refine (Submodule.finrank_le _).trans ?_
    rw [Module.finrank_fintype_fun_eq_card, Fintype.card_coe]
  have h3 : Module.finrank ℝ (LinearMap.ker eqs) ≤ vs.length := by
    have a : Module.finrank ℝ ((LinearMap.ker eqs).map emb) = Module.finrank ℝ (LinearMap.ker eqs) :=
      (Submodule.equivMapOfInjective emb hinj _).finrank_eq.symm
    have b : Module.finrank ℝ ((LinearMap.ker eqs).map emb) ≤ Module.finrank ℝ (Submodule.span ℝ {y | y ∈ vs}) := by
      refine Submodule.finrank_mono ?_
      rintro _ ⟨x, hx, rfl⟩
      exact hker x hx
    have c : Module.finrank ℝ (Submodule.span ℝ {y | y ∈ vs}) ≤ vs.length := by
      have hs : {y | y ∈ vs} = ((vs.toFinset : Finset _) : Set (Matrix (Fin (pats S₁).length) (Fin (pats S₂).length) ℝ)) := by
        ext y
        simp
      rw [hs]
      exact (finrank_span_finset_le_card _).trans (List.toFinset_card_le _)
    omega
  rw [Module.finrank_fintype_fun_eq_card, Fintype.card_coe] at h1
  omega

/-- A test that implies that an entry is zero. -/
def entryTest (S₁ S₂ : List ℤ) (q : Fin (pats S₁).length × Fin (pats S₂).length × ℕ)
    (m : Fin (pats S₁).length × Fin (pats S₂).length) : Bool :=
  (decide (q.2.1 = m.2) && (List.range (S₁.length - (q.2.2 + 1))).any fun k => decide (addAt (pats S₁)[m.1] (q.2.2 + 1) k 1 = (pats S₁)[q.1])) ||
  (decide (q.1 = m.1) && (List.range (S₂.length - (q.2.2 + 1))).any fun k => decide (addAt (pats S₂)[m.2] (q.2.2 + 1) k 1 = (pats S₂)[q.2.1]))

theorem entry_zero_of_test {q : Fin (pats S₁).length × Fin (pats S₂).length × ℕ}
    {m : Fin (pats S₁).length × Fin (pats S₂).length} (h : entryTest S₁ S₂ q m = false) : entryVal S₁ S₂ q m = 0 := by
  have test : ∀ (S : List ℤ) (a b : Fin (pats S).length),
      ((List.range (S.length - (q.2.2 + 1))).any fun k => decide (addAt (pats S)[b] (q.2.2 + 1) k 1 = (pats S)[a])) = false → JR S q.2.2 a b = 0 := by
    intro S a b hf
    by_contra hne
    obtain ⟨k, hk, e⟩ := ladderVal_ne hne
    have : ((List.range (S.length - (q.2.2 + 1))).any fun k => decide (addAt (pats S)[b] (q.2.2 + 1) k 1 = (pats S)[a])) = true :=
      List.any_eq_true.2 ⟨k, List.mem_range.2 (by omega), decide_eq_true e⟩
    rw [this] at hf
    cases hf
  rw [entryTest, Bool.or_eq_false_iff, Bool.and_eq_false_iff, Bool.and_eq_false_iff] at h
  rw [entryVal]
  have a : (if q.2.1 = m.2 then JR S₁ q.2.2 q.1 m.1 else 0) = 0 := by
    split_ifs with e
    · rcases h.1 with h1 | h1
      · simp [e] at h1
      · exact test _ _ _ h1
    · rfl
  have b : (if q.1 = m.1 then JR S₂ q.2.2 q.2.1 m.2 else 0) = 0 := by
    split_ifs with e
    · rcases h.2 with h1 | h1
      · simp [e] at h1
      · exact test _ _ _ h1
    · rfl
  rw [a, b, add_zero]

end

end LieNN.SUN

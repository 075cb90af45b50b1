import Verif.Proofs.SU2Table
import Verif.Proofs.Intertwiner
import Verif.Proofs.ReducedRed
import Verif.Spec.Irreps
/-!
# C36, C42, C61, C62: the irreps of `SU2` and their Clebsch-Gordan coefficients
-/
namespace LieNN.Props

open Matrix LieNN LieNN.Spec

/-! ## C36 -/

/-- C36: for every `j` the generators of `SU2(j)` satisfy the commutation relations of
`SU2.algebra()`, which are those of `su(2)`. -/
theorem C36_algebra (j : ℕ) : IsRep (SU2.rep j) ∧ IsSu2 (SU2.gens j) :=
  ⟨SU2.isRep j, SU2.comm01, SU2.comm12, SU2.comm20⟩

/-- C36: the generators are anti-hermitian and traceless. -/
theorem C36_unitary (j : ℕ) :
    IsUnitaryRep (SU2.rep j) ∧ ∀ a, ((SU2.rep j).X a).trace = 0 :=
  ⟨⟨fun a => a.elim0, fun a => SU2.skew a⟩, fun a => SU2.trace_eq_zero a⟩

/-- C36: the Casimir is `-(j/2)(j/2+1)`. -/
theorem C36_casimir (j : ℕ) : ∑ a, (SU2.rep j).X a * (SU2.rep j).X a =
    (-((j / 2 : ℂ) * (j / 2 + 1))) • (1 : Matrix (Fin (j + 1)) (Fin (j + 1)) ℂ) :=
  SU2.casimir

/-- C36: the representation is irreducible, and its commutant is one-dimensional. -/
theorem C36_irreducible (j : ℕ) :
    Module.finrank ℂ (intertwiners (SU2.gens j) (SU2.gens j)) = 1 ∧
      IrreducibleFamily (SU2.gens j) := by
  have h : Module.finrank ℂ (intertwiners (SU2.gens j) (SU2.gens j)) = 1 := by
    rw [finrank_eq_one_iff']
    refine ⟨⟨1, fun a => by rw [Matrix.mul_one, Matrix.one_mul]⟩,
      fun h0 => one_ne_zero (congrArg Subtype.val h0), ?_⟩
    rintro ⟨S, hS⟩
    obtain ⟨c, hc⟩ := SU2.commutant S fun a => (hS a).symm
    exact ⟨c, Subtype.ext hc.symm⟩
  exact ⟨h, irreducible_of_finrank (fun a => Or.inl (SU2.skew a)) h⟩

/-- C36: irreps with different labels are not equivalent: the only intertwiner is zero. -/
theorem C36_inequivalent {j k : ℕ} (hjk : j ≠ k) : intertwiners (SU2.gens j) (SU2.gens k) = ⊥ := by
  rw [Submodule.eq_bot_iff]
  intro S hS
  have hx : ∀ x, SU2.gens j x * SU2.gens j x * S = S * (SU2.gens k x * SU2.gens k x) := by
    intro x
    rw [Matrix.mul_assoc, hS x, ← Matrix.mul_assoc, hS x, Matrix.mul_assoc]
  have hs : (∑ x, SU2.gens j x * SU2.gens j x) * S = S * ∑ x, SU2.gens k x * SU2.gens k x := by
    rw [Matrix.sum_mul, Matrix.mul_sum]
    exact Finset.sum_congr rfl fun x _ => hx x
  rw [SU2.casimir, SU2.casimir, Matrix.smul_mul, Matrix.mul_smul, Matrix.one_mul, Matrix.mul_one,
    ← sub_eq_zero, ← sub_smul, smul_eq_zero] at hs
  rcases hs with hs | hs
  · exfalso
    have : ((j : ℂ) - k) * (j + k + 2) = 0 := by linear_combination (-4 : ℂ) * hs
    rcases mul_eq_zero.1 this with h | h
    · exact hjk (by exact_mod_cast sub_eq_zero.1 h)
    · have : ((j + k + 2 : ℕ) : ℂ) = 0 := by push_cast; exact h
      have := Nat.cast_eq_zero.1 this
      omega
  · exact hs

/-- Spin 1/2: the `z` generator is `diag(-i/2, i/2)`, so nothing above is about zero matrices. -/
example : SU2.gens 1 1 0 0 = -Complex.I / 2 ∧ SU2.gens 1 1 1 1 = Complex.I / 2 := by
  constructor <;> simp [SU2.gens, SU2.zGen] <;> ring

/-! ## C42 -/

theorem triangle_iff {j₁ j₂ j₃ : ℕ} : j₃ ∈ SU2.mulL j₁ j₂ ↔ Triangle j₁ j₂ j₃ := by
  rw [SU2.mem_mulL]
  unfold Triangle
  constructor
  · rintro ⟨p, q, r, rfl, rfl, rfl⟩
    omega
  · rintro ⟨h1, h2, h3, h4⟩
    exact ⟨(j₂ + j₃ - j₁) / 2, (j₁ + j₃ - j₂) / 2, (j₁ + j₂ - j₃) / 2, by omega, by omega, by omega⟩

/-- C42: `clebsch_gordan` never raises; it has one solution for a triple that satisfies the triangle
rule and none otherwise. -/
theorem C42_shape (j₁ j₂ j₃ : ℕ) : ∃ L, SU2.cg j₁ j₂ j₃ = .ok L ∧
    (Triangle j₁ j₂ j₃ → L.length = 1) ∧ (¬ Triangle j₁ j₂ j₃ → L = []) := by
  by_cases h : Triangle j₁ j₂ j₃
  · exact ⟨_, SU2.cg_eq_ct (triangle_iff.2 h), fun _ => rfl, fun h' => absurd h h'⟩
  · exact ⟨_, SU2.cg_eq_nil (fun h' => h (triangle_iff.1 h')), fun h' => absurd h' h, fun _ => rfl⟩

/-- C42: every solution returned by `clebsch_gordan` is equivariant. -/
theorem C42_equivariant {j₁ j₂ j₃ : ℕ} {L} (hL : SU2.cg j₁ j₂ j₃ = .ok L) :
    ∀ C ∈ L, IsCG (SU2.rep j₁) (SU2.rep j₂) (SU2.rep j₃) (fun a b c => ((C a b c : ℝ) : ℂ)) := by
  intro C hC
  by_cases h : j₃ ∈ SU2.mulL j₁ j₂
  · rw [SU2.cg_eq_ct h] at hL
    obtain rfl := Except.ok.inj hL
    rw [List.mem_singleton.1 hC]
    exact SU2.isCG_ct h
  · rw [SU2.cg_eq_nil h] at hL
    obtain rfl := Except.ok.inj hL
    simp at hC

/-- C42: only weights with `m3 = m1 + m2` are coupled (`2 m = 2 a - j`). -/
theorem C42_weights {j₁ j₂ j₃ : ℕ} {L} (hL : SU2.cg j₁ j₂ j₃ = .ok L) :
    ∀ C ∈ L, ∀ a b c, C a b c ≠ 0 →
      (2 * (c : ℕ) - j₃ : ℤ) = (2 * (a : ℕ) - j₁) + (2 * (b : ℕ) - j₂) := by
  intro C hC a b c hne
  by_cases h : j₃ ∈ SU2.mulL j₁ j₂
  · rw [SU2.cg_eq_ct h] at hL
    obtain rfl := Except.ok.inj hL
    rw [List.mem_singleton.1 hC] at hne
    obtain ⟨p, q, r, rfl, rfl, rfl⟩ := SU2.mem_mulL.1 h
    rw [SU2.ct, SU2.gj_eq] at hne
    have : (c : ℕ) + r = a + b := by
      by_contra hh
      exact hne (if_neg hh)
    push_cast
    omega
  · rw [SU2.cg_eq_nil h] at hL
    obtain rfl := Except.ok.inj hL
    simp at hC

/-- Two spins 1/2 couple to spin 0 with the coefficients `-1/√2` and `1/√2`. -/
example : Triangle 1 1 0 ∧ ∃ C, SU2.cg 1 1 0 = .ok [C] ∧ C 0 1 0 = -√(1 / 2) ∧ C 1 0 0 = √(1 / 2) := by
  have h : SU2.cg 1 1 0 = .ok [SU2.cgT 0 0 1] := SU2.cg_eq 0 0 1
  refine ⟨by unfold Triangle; omega, _, h, ?_, ?_⟩ <;>
  · simp [SU2.cgT, SU2.cgVal, SU2.normVal, SU2.W, SU2.sgnC, SU2.dF, Nat.factorial]

/-! ## C61: orthonormality and completeness -/

/-- C61: the Clebsch-Gordan coefficients of two triples with the same first two spins are
orthonormal: `∑ C[a,b,c] C'[a,b,d]` is `1` for the same irrep and the same component, else `0`. -/
theorem C61_orthonormal {j₁ j₂ j₃ j₄ : ℕ} (h3 : Triangle j₁ j₂ j₃) (h4 : Triangle j₁ j₂ j₄) :
    ∃ C D, SU2.cg j₁ j₂ j₃ = .ok [C] ∧ SU2.cg j₁ j₂ j₄ = .ok [D] ∧
      ∀ c d, ∑ a, ∑ b, C a b c * D a b d = if j₃ = j₄ ∧ (c : ℕ) = d then 1 else 0 :=
  ⟨_, _, SU2.cg_eq_ct (triangle_iff.2 h3), SU2.cg_eq_ct (triangle_iff.2 h4), fun c d =>
    SU2.ct_orth (triangle_iff.2 h3) (triangle_iff.2 h4) c d⟩

/-- C61: the coefficients of all irreps of `rep1 * rep2` are complete: they resolve the identity of
the tensor product. -/
theorem C61_complete (j₁ j₂ : ℕ) : ∃ (l : List ℕ)
    (C : (j₃ : ℕ) → Fin (j₁ + 1) → Fin (j₂ + 1) → Fin (j₃ + 1) → ℝ), SU2.mul j₁ j₂ = .ok l ∧
    (∀ j₃ ∈ l, SU2.cg j₁ j₂ j₃ = .ok [C j₃]) ∧
    ∀ a a' b b', (l.map fun j₃ => ∑ c, C j₃ a b c * C j₃ a' b' c).sum =
      if a = a' ∧ b = b' then 1 else 0 :=
  ⟨_, fun j₃ => SU2.ct j₁ j₂ j₃, SU2.mul_eq j₁ j₂, fun _ h => SU2.cg_eq_ct h, fun a a' b b' =>
    SU2.ct_complete a a' b b'⟩

example : Triangle 3 2 1 ∧ Triangle 3 2 5 := by unfold Triangle; omega

/-! ## C62: `tensor_product` of two `SU2` irreps -/

/-- C62: `tensor_product(SU2(i), SU2(j))` returns, for all spins, a `ReducedRep` that acts as the
tensor product (no hypothesis on the table is left). -/
theorem C62_tensor_product (i j : ℕ) : ∃ r, tpTab (T := SU2.table) i j = .ok r ∧
    Acts r ((SU2.rep i).tensorProduct (SU2.rep j)) := by
  obtain ⟨r, hr⟩ := GoodPair.run (SU2.table_good i j)
  exact ⟨r, hr, tpTab_acts (by norm_num) SU2.table_equivariant (SU2.table_good i j).sols hr⟩

/-- C62: the blocks of the result are the irreps of `SU2(i) * SU2(j)`, each with multiplicity 1. -/
theorem C62_blocks (i j : ℕ) : ∃ r l, tpTab (T := SU2.table) i j = .ok r ∧ SU2.mul i j = .ok l ∧
    r.irreps = l.map fun k => ⟨1, k⟩ := by
  obtain ⟨r, hr⟩ := GoodPair.run (SU2.table_good i j)
  refine ⟨r, _, hr, SU2.mul_eq i j, ?_⟩
  obtain ⟨-, hirr, -⟩ := tpTab_ok hr
  rw [hirr]
  unfold cgBlocks
  rw [SU2.table_prod]
  refine List.map_congr_left fun k hk => ?_
  rw [SU2.table_cg hk]
  rfl

/-- C62: the same for `MulIrrep`s of positive multiplicities. -/
theorem C62_mulirrep (a b : MulIr SU2.table) (ha : a.mul ≠ 0) (hb : b.mul ≠ 0)
    {Ra : Rep 3 0 (a.mul * SU2.dim a.ir)} {Rb : Rep 3 0 (b.mul * SU2.dim b.ir)}
    (hRa : IsCopies a.mul (SU2.rep a.ir) Ra) (hRb : IsCopies b.mul (SU2.rep b.ir) Rb) :
    ∃ r, tpMul a b = .ok r ∧ Acts r (Ra.tensorProduct Rb) := by
  rw [isCopies_iff] at hRa hRb
  subst hRa hRb
  obtain ⟨r, hr⟩ := tpMul_run (GoodPair.run (SU2.table_good a.ir b.ir))
  exact ⟨r, hr, tpMul_acts (by norm_num) SU2.table_equivariant ha hb
    (SU2.table_good a.ir b.ir).sols hr⟩

end LieNN.Props

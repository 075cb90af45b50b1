import Verif.Proofs.SU2RealCG
import Verif.Props.SO13CG
import Verif.Props.Iter
/-!
# C81: `SU2Real.clebsch_gordan`
-/
namespace LieNN.Props

open LieNN.Spec LieNN.SU2Real Matrix

variable {eigh : EighFn}

/-- C81: the generic `clebsch_gordan` of three real representations is real. -/
theorem C81_generic_real {n h d₁ d₂ d₃ : ℕ} {r₁ : Rep n h d₁} {r₂ : Rep n h d₂} {r₃ : Rep n h d₃} (he : EighSpec eigh)
    (hgap : Gap (1 / 10 ^ 4) (icobMatrix r₃.allGens (r₁.tensorProduct r₂).allGens))
    (h₁ : ∀ a i j, (r₁.allGens a i j).im = 0) (h₂ : ∀ a i j, (r₂.allGens a i j).im = 0)
    (h₃ : ∀ a i j, (r₃.allGens a i j).im = 0) {G} (hG : Rep.clebschGordan eigh r₁ r₂ r₃ = .ok G) :
    ∀ C ∈ G, ∀ i j k, (C i j k).im = 0 :=
  clebschGordan_real he hgap (fun a i j => Complex.conj_eq_iff_im.2 (h₁ a i j))
    (fun a i j => Complex.conj_eq_iff_im.2 (h₂ a i j)) (fun a i j => Complex.conj_eq_iff_im.2 (h₃ a i j)) hG

theorem number_copies (n₁ n₂ n₃ : ℕ) : Module.finrank ℂ (cgSpace (SU2.rep n₁) (SU2.rep n₂) (SU2.rep n₃)) =
    if Triangle n₁ n₂ n₃ then 1 else 0 := by
  rw [C78_selection]
  congr 1
  unfold Triangle
  apply propext
  omega

theorem isInteger_half (n : ℕ) : isInteger ((n : ℚ) / 2) ↔ n % 2 = 0 := by
  rw [isInteger_iff]
  constructor
  · rintro ⟨z, hz⟩
    have : (n : ℚ) = 2 * z := by linarith
    have : (n : ℤ) = 2 * z := by exact_mod_cast this
    omega
  · intro h
    refine ⟨(n / 2 : ℕ), ?_⟩
    have : n = 2 * (n / 2) := by omega
    have h' : (n : ℚ) = 2 * ((n / 2 : ℕ) : ℚ) := by exact_mod_cast this
    rw [h', Int.cast_natCast]
    ring

/-- The complex array with the entries of a real one. -/
noncomputable abbrev toC {d₁ d₂ d₃ : ℕ} (C : Fin d₁ → Fin d₂ → Fin d₃ → ℝ) : Fin d₁ → Fin d₂ → Fin d₃ → ℂ :=
  fun i j k => (C i j k : ℂ)

theorem cg_core (he : EighSpec eigh) (n₁ n₂ n₃ : ℕ) :
    ∃ G : List (Fin (genSig n₁).1 → Fin (genSig n₂).1 → Fin (genSig n₃).1 → ℝ),
      SU2Real.cg eigh ((n₁ : ℚ) / 2) ((n₂ : ℚ) / 2) ((n₃ : ℚ) / 2) = .ok ⟨_, _, _, G⟩ ∧
      (∀ C ∈ G, IsCG (repOf (genSig n₁).2) (repOf (genSig n₂).2) (repOf (genSig n₃).2) (toC C)) ∧
      ((genSig n₃).1 * ((genSig n₁).1 * (genSig n₂).1) < 10 ^ 8 →
        G.length = (if Triangle n₁ n₂ n₃ then realMult n₁ * realMult n₂ * realMult n₃ else 0) ∧
        ∀ D, IsCG (repOf (genSig n₁).2) (repOf (genSig n₂).2) (repOf (genSig n₃).2) D → D ∈ mspan (G.map toC)) := by
  have g₁ := good_genSig n₁
  have g₂ := good_genSig n₂
  have g₃ := good_genSig n₃
  by_cases hint : n₁ % 2 = 0 ∧ n₂ % 2 = 0 ∧ n₃ % 2 = 0
  · obtain ⟨i₁, i₂, i₃⟩ := hint
    obtain ⟨l₁, rfl⟩ : ∃ l, n₁ = 2 * l := ⟨n₁ / 2, by omega⟩
    obtain ⟨l₂, rfl⟩ : ∃ l, n₂ = 2 * l := ⟨n₂ / 2, by omega⟩
    obtain ⟨l₃, rfl⟩ : ∃ l, n₃ = 2 * l := ⟨n₃ / 2, by omega⟩
    have e : ∀ l : ℕ, ((2 * l : ℕ) : ℚ) / 2 = l := by
      intro l; push_cast; ring
    obtain ⟨X₁, x₁, y₁, -⟩ := gens_even (e l₁)
    obtain ⟨X₂, x₂, y₂, -⟩ := gens_even (e l₂)
    obtain ⟨X₃, x₃, y₃, -⟩ := gens_even (e l₃)
    have z₁ : genSig (2 * l₁) = ⟨_, X₁⟩ := Except.ok.inj (g₁.gens_eq.symm.trans y₁)
    have z₂ : genSig (2 * l₂) = ⟨_, X₂⟩ := Except.ok.inj (g₂.gens_eq.symm.trans y₂)
    have z₃ : genSig (2 * l₃) = ⟨_, X₃⟩ := Except.ok.inj (g₃.gens_eq.symm.trans y₃)
    rw [z₁, z₂, z₃]
    have rr : ∀ {l : ℕ} {X}, SO3.gens l = .ok X → repOf X = SO3.rep l := by
      intro l X hX
      unfold SO3.rep repOf
      rw [hX]
    rw [rr x₁, rr x₂, rr x₃]
    have hc : ∀ G, SO3.cg l₁ l₂ l₃ = .ok G →
        SU2Real.cg eigh (((2 * l₁ : ℕ) : ℚ) / 2) (((2 * l₂ : ℕ) : ℚ) / 2) (((2 * l₃ : ℕ) : ℚ) / 2) =
          .ok ⟨_, _, _, G⟩ := by
      intro G hG
      unfold SU2Real.cg
      rw [if_pos ⟨(isInteger_half _).2 i₁, (isInteger_half _).2 i₂, (isInteger_half _).2 i₃⟩, trunc_nat (e l₁),
        trunc_nat (e l₂), trunc_nat (e l₃), Int.toNat_natCast, Int.toNat_natCast, Int.toNat_natCast, hG]
      rfl
    have hsp := C78_space TBasis.so3_goodTable l₁ l₂ l₃
    have ht : Triangle (2 * l₁) (2 * l₂) (2 * l₃) ↔ l₃ ∈ SO3.mulR l₁ l₂ := by
      rw [← SO3.mem_double, triangle_iff]
    have hcop : ∀ l, realMult (2 * l) = 1 := fun l => by unfold realMult; rw [if_pos (by omega)]
    by_cases hm : l₃ ∈ SO3.mulR l₁ l₂
    · refine ⟨[SO3.ctR l₁ l₂ l₃], hc _ (SO3.cg_eq (SO3.mem_double.2 hm)), ?_, fun _ => ⟨?_, ?_⟩⟩
      · intro C hC
        rw [List.mem_singleton.1 hC]
        exact SO3.isCG (SO3.mem_double.2 hm)
      · rw [if_pos (ht.2 hm), hcop, hcop, hcop]
        rfl
      · intro D hD
        have h1 : cgSpace (SO3.rep l₁) (SO3.rep l₂) (SO3.rep l₃) = Submodule.span ℂ {C | C ∈ SO3.table.cg l₁ l₂ l₃} :=
          (hsp.1 (by rw [SO3.table_prod]; exact hm)).1
        have hD' : D ∈ cgSpace (SO3.rep l₁) (SO3.rep l₂) (SO3.rep l₃) := hD
        rw [h1, SO3.table_cg hm] at hD'
        exact hD'
    · refine ⟨[], hc _ (SO3.cg_eq_nil fun h => hm (SO3.mem_double.1 h)), by simp, fun _ => ⟨?_, ?_⟩⟩
      · rw [if_neg fun h => hm (ht.1 h)]
        rfl
      · intro D hD
        have h1 : cgSpace (SO3.rep l₁) (SO3.rep l₂) (SO3.rep l₃) = ⊥ := hsp.2 (by rw [SO3.table_prod]; exact hm)
        have hD' : D ∈ cgSpace (SO3.rep l₁) (SO3.rep l₂) (SO3.rep l₃) := hD
        rw [h1] at hD'
        rw [show D = 0 from hD']
        exact Submodule.zero_mem _
  · have hgap := Good.gap g₁ g₂ g₃
    obtain ⟨G, hG, hG1⟩ := clebschGordan_run (r₁ := repOf (genSig n₁).2) (r₂ := repOf (genSig n₂).2)
      (r₃ := repOf (genSig n₃).2) he (by norm_num) SU2Real.close SU2Real.close hgap
    have hre := clebschGordan_real he hgap (repOf_real _) (repOf_real _) (repOf_real _) hG
    have hback : (G.map fun D i j k => (D i j k).re).map toC = G := by
      rw [List.map_map]
      refine (List.map_congr_left fun C hC => ?_).trans (List.map_id G)
      funext i j k
      exact Complex.ext rfl (hre C hC i j k).symm
    refine ⟨G.map fun D i j k => (D i j k).re, ?_, ?_, fun hd => ?_⟩
    · unfold SU2Real.cg
      rw [if_neg fun h => hint ⟨(isInteger_half _).1 h.1, (isInteger_half _).1 h.2.1, (isInteger_half _).1 h.2.2⟩,
        g₁.gens_eq, g₂.gens_eq, g₃.gens_eq]
      simp only [bind, Except.bind]
      rw [hG]
      simp only
      rw [pyAssert_of]
      · rfl
      · intro D hD i j k
        rw [hre D hD, abs_zero]
        norm_num
    · intro C hC
      have : toC C ∈ (G.map fun D i j k => (D i j k).re).map toC := List.mem_map.2 ⟨C, hC, rfl⟩
      rw [hback] at this
      exact hG1 _ this
    · obtain ⟨G', hG', h1, h2, h3⟩ := C31_clebsch_gordan he (by norm_num) (repOf (genSig n₁).2) (repOf (genSig n₂).2)
        (repOf (genSig n₃).2) SU2Real.close SU2Real.close hd hgap
      obtain rfl : G = G' := by rw [hG] at hG'; exact Except.ok.inj hG'
      have hsp : mspan G = cgSpace (repOf (genSig n₁).2) (repOf (genSig n₂).2) (repOf (genSig n₃).2) := by
        apply le_antisymm
        · exact Submodule.span_le.2 fun C hC => h1 C hC
        · exact fun C hC => h2 C hC
      rw [hback]
      refine ⟨?_, h2⟩
      rw [List.length_map, h3, hsp, Good.number g₁ g₂ g₃, number_copies]
      split_ifs <;> simp

theorem genSig_of {j : ℚ} {n : ℕ} (hj : 2 * j = n) : j = (n : ℚ) / 2 := by linarith

/-- C81: for all half-integer spins `SU2Real.clebsch_gordan` does not raise.  The returned real arrays are equivariant
for the returned generators, and every equivariant array, real or complex, is a combination of them.  There are
`m₁ * m₂ * m₃` of them if the triangle rule holds, where `m = 1` for an integer spin and `m = 2` otherwise, and none
if it does not. -/
theorem C81_cg (he : EighSpec eigh) {j₁ j₂ j₃ : ℚ} {n₁ n₂ n₃ : ℕ} (h₁ : 2 * j₁ = n₁) (h₂ : 2 * j₂ = n₂) (h₃ : 2 * j₃ = n₃)
    (hd : dim j₃ * (dim j₁ * dim j₂) < 10 ^ 8) :
    ∃ X₁ X₂ X₃ G, gens j₁ = .ok ⟨dim j₁, X₁⟩ ∧ gens j₂ = .ok ⟨dim j₂, X₂⟩ ∧ gens j₃ = .ok ⟨dim j₃, X₃⟩ ∧
      SU2Real.cg eigh j₁ j₂ j₃ = .ok ⟨_, _, _, G⟩ ∧
      G.length = (if Triangle n₁ n₂ n₃ then realMult n₁ * realMult n₂ * realMult n₃ else 0) ∧
      ∀ D, IsCG (repOf X₁) (repOf X₂) (repOf X₃) D ↔ D ∈ mspan (G.map toC) := by
  rw [genSig_of h₁, genSig_of h₂, genSig_of h₃] at hd ⊢
  obtain ⟨G, hG, h1, h2⟩ := cg_core he n₁ n₂ n₃
  have g₁ := good_genSig n₁
  have g₂ := good_genSig n₂
  have g₃ := good_genSig n₃
  revert G g₁ g₂ g₃
  generalize genSig n₁ = p₁
  generalize genSig n₂ = p₂
  generalize genSig n₃ = p₃
  intro G hG h1 h2 g₁ g₂ g₃
  obtain ⟨d₁, X₁⟩ := p₁
  obtain ⟨d₂, X₂⟩ := p₂
  obtain ⟨d₃, X₃⟩ := p₃
  obtain rfl : d₁ = _ := g₁.dim_eq'
  obtain rfl : d₂ = _ := g₂.dim_eq'
  obtain rfl : d₃ = _ := g₃.dim_eq'
  obtain ⟨h3, h4⟩ := h2 hd
  refine ⟨X₁, X₂, X₃, G, g₁.gens_eq, g₂.gens_eq, g₃.gens_eq, hG, h3, fun D => ⟨h4 D, fun hD => ?_⟩⟩
  have hle : mspan (G.map toC) ≤ cgSpace (repOf X₁) (repOf X₂) (repOf X₃) := by
    refine Submodule.span_le.2 fun C hC => ?_
    obtain ⟨C', hC', rfl⟩ := List.mem_map.1 hC
    exact h1 C' hC'
  exact hle hD

/-- C81: on three integer spins the result is that of `SO3.clebsch_gordan`. -/
theorem C81_integer (l₁ l₂ l₃ : ℕ) : ∃ G, SO3.cg l₁ l₂ l₃ = .ok G ∧ SU2Real.cg eigh l₁ l₂ l₃ = .ok ⟨_, _, _, G⟩ := by
  have hG : ∃ G, SO3.cg l₁ l₂ l₃ = .ok G := by
    by_cases hm : 2 * l₃ ∈ SU2.mulL (2 * l₁) (2 * l₂)
    · exact ⟨_, SO3.cg_eq hm⟩
    · exact ⟨_, SO3.cg_eq_nil hm⟩
  obtain ⟨G, hG⟩ := hG
  refine ⟨G, hG, ?_⟩
  have hi : ∀ l : ℕ, isInteger (l : ℚ) := fun l => isInteger_iff.2 ⟨l, rfl⟩
  unfold SU2Real.cg
  rw [if_pos ⟨hi l₁, hi l₂, hi l₃⟩, trunc_nat rfl, trunc_nat rfl, trunc_nat rfl, Int.toNat_natCast, Int.toNat_natCast,
    Int.toNat_natCast, hG]
  rfl

/-! ### The table -/

theorem su2Real_prod (n₁ n₂ : ℕ) : (SU2Real.table eigh).prod n₁ n₂ = SU2.mulL n₁ n₂ := by
  have e : (SU2Real.table eigh).prod n₁ n₂ = match mul ((n₁ : ℚ) / 2) ((n₂ : ℚ) / 2) with
    | .ok L => L.map fun j => (SU2.trunc (2 * j)).toNat
    | .error _ => [] := rfl
  rw [e, SU2Real.mul_eq (n₁ := n₁) (n₂ := n₂) (by ring) (by ring)]
  show ((SU2.mulL n₁ n₂).map fun k : ℕ => (k : ℚ) / 2).map (fun j => (SU2.trunc (2 * j)).toNat) = SU2.mulL n₁ n₂
  rw [List.map_map]
  refine (List.map_congr_left fun k _ => ?_).trans (List.map_id _)
  show (SU2.trunc (2 * ((k : ℚ) / 2))).toNat = k
  rw [trunc_nat (n := k) (by ring), Int.toNat_natCast]

theorem su2Real_cg (n₁ n₂ n₃ : ℕ) {G : List (Fin (genSig n₁).1 → Fin (genSig n₂).1 → Fin (genSig n₃).1 → ℝ)}
    (hG : SU2Real.cg eigh ((n₁ : ℚ) / 2) ((n₂ : ℚ) / 2) ((n₃ : ℚ) / 2) = .ok ⟨_, _, _, G⟩) :
    (SU2Real.table eigh).cg n₁ n₂ n₃ = G.map toC := by
  have e : (SU2Real.table eigh).cg n₁ n₂ n₃ = match SU2Real.cg eigh ((n₁ : ℚ) / 2) ((n₂ : ℚ) / 2) ((n₃ : ℚ) / 2) with
    | .ok G => G.sols.map fun C a b c =>
        if h : a.1 < G.d₁ ∧ b.1 < G.d₂ ∧ c.1 < G.d₃ then (C ⟨a, h.1⟩ ⟨b, h.2.1⟩ ⟨c, h.2.2⟩ : ℂ) else 0
    | .error _ => [] := rfl
  rw [e, hG]
  refine List.map_congr_left fun C _ => ?_
  funext a b c
  exact dif_pos ⟨a.2, b.2, c.2⟩

/-- C81: all arrays of the table are equivariant. -/
theorem C81_equivariant (he : EighSpec eigh) : Equivariant (SU2Real.table eigh) := by
  intro n₁ n₂ n₃ _ C hC
  obtain ⟨G, hG, h1, -⟩ := cg_core he n₁ n₂ n₃
  rw [su2Real_cg n₁ n₂ n₃ hG] at hC
  obtain ⟨C', hC', rfl⟩ := List.mem_map.1 hC
  exact h1 C' hC'

theorem su2Real_length (he : EighSpec eigh) {n₁ n₂ n₃ : ℕ} (hk : n₃ ∈ SU2.mulL n₁ n₂)
    (hd : (genSig n₃).1 * ((genSig n₁).1 * (genSig n₂).1) < 10 ^ 8) :
    ((SU2Real.table eigh).cg n₁ n₂ n₃).length = realMult n₁ * realMult n₂ * realMult n₃ := by
  obtain ⟨G, hG, -, h2⟩ := cg_core he n₁ n₂ n₃
  refine (congrArg List.length (su2Real_cg n₁ n₂ n₃ hG)).trans ((List.length_map _).trans ?_)
  rw [(h2 hd).1, if_pos (triangle_iff.1 hk)]

theorem dim_bound {n₁ n₂ n₃ : ℕ} (hk : n₃ ∈ SU2.mulL n₁ n₂)
    (hd : 2 * (n₁ + n₂ + 1) * (dim ((n₁ : ℚ) / 2) * dim ((n₂ : ℚ) / 2)) < 10 ^ 8) :
    (genSig n₃).1 * ((genSig n₁).1 * (genSig n₂).1) < 10 ^ 8 := by
  rw [← (good_genSig n₁).dim_eq', ← (good_genSig n₂).dim_eq'] at hd
  refine lt_of_le_of_lt (Nat.mul_le_mul_right _ ?_) hd
  rw [(good_genSig n₃).dim_eq]
  obtain ⟨-, -, h, -⟩ := triangle_iff.1 hk
  have : realMult n₃ ≤ 2 := by unfold realMult; split_ifs <;> omega
  calc (n₃ + 1) * realMult n₃ ≤ (n₁ + n₂ + 1) * 2 := Nat.mul_le_mul (by omega) this
    _ = _ := by ring

/-- The pairing of an array with a tensor. -/
noncomputable def pairL {d₁ d₂ d₃ : ℕ} (t : Fin d₁ → Fin d₂ → ℂ) (l : Fin d₃) :
    (Fin d₁ → Fin d₂ → Fin d₃ → ℂ) →ₗ[ℂ] ℂ where
  toFun C := ∑ x, ∑ y, C x y l * t x y
  map_add' C D := by
    simp only [Pi.add_apply, add_mul, Finset.sum_add_distrib]
  map_smul' c C := by
    simp only [Pi.smul_apply, smul_eq_mul, Finset.mul_sum, RingHom.id_apply, mul_assoc]

theorem pairL_apply {d₁ d₂ d₃ : ℕ} (t : Fin d₁ → Fin d₂ → ℂ) (l : Fin d₃) (C) :
    pairL t l C = ∑ x, ∑ y, C x y l * t x y := rfl

/-- A tensor annihilated by all returned arrays is zero. -/
theorem su2Real_complete (he : EighSpec eigh) (n₁ n₂ : ℕ)
    (hd : 2 * (n₁ + n₂ + 1) * (dim ((n₁ : ℚ) / 2) * dim ((n₂ : ℚ) / 2)) < 10 ^ 8)
    (t : Fin (genSig n₁).1 → Fin (genSig n₂).1 → ℂ)
    (ht : ∀ k ∈ SU2.mulL n₁ n₂, ∀ C ∈ (SU2Real.table eigh).cg n₁ n₂ k, ∀ l, ∑ x, ∑ y, C x y l * t x y = 0) : t = 0 := by
  obtain ⟨J₁, c₁⟩ := (good_genSig n₁).copy
  obtain ⟨J₂, c₂⟩ := (good_genSig n₂).copy
  have hall : ∀ k ∈ SU2.mulL n₁ n₂, ∀ D, IsCG (repOf (genSig n₁).2) (repOf (genSig n₂).2) (repOf (genSig k).2) D →
      ∀ l, ∑ x, ∑ y, D x y l * t x y = 0 := by
    intro k hk D hD l
    obtain ⟨G, hG, -, h2⟩ := cg_core he n₁ n₂ k
    have hmem := (h2 (dim_bound hk hd)).2 D hD
    have hle : mspan (G.map toC) ≤ LinearMap.ker (pairL t l) := by
      refine Submodule.span_le.2 fun C hC => ?_
      refine (pairL_apply t l C).trans (ht k hk C ?_ l)
      rw [su2Real_cg n₁ n₂ k hG]
      exact hC
    exact (pairL_apply t l D).symm.trans (hle hmem)
  set v : Fin ((genSig n₁).1 * (genSig n₂).1) → ℂ := fun r => t r.divNat r.modNat with hv
  have hvp : ∀ x y, v (finProdFinEquiv (x, y)) = t x y := by
    intro x y
    rw [hv]
    simp only [divNat_prod, modNat_prod]
  have key : ∀ c : Fin (realMult n₁) × Fin (realMult n₂), (CopiesBy.kronR (J₁ c.1) (J₂ c.2))ᴴ *ᵥ v = 0 := by
    intro c
    set w := (CopiesBy.kronR (J₁ c.1) (J₂ c.2))ᴴ *ᵥ v with hw
    have h0 : (fun a b => w (finProdFinEquiv (a, b)) : Fin (SU2.dim n₁) → Fin (SU2.dim n₂) → ℂ) = 0 := by
      refine (SU2.table_complete n₁ n₂).2 _ fun k hk C hC m => ?_
      have hk' : k ∈ SU2.mulL n₁ n₂ := (SU2.table_prod n₁ n₂) ▸ hk
      have hCG : IsCG (SU2.rep n₁) (SU2.rep n₂) (SU2.rep k) C := SU2.table_equivariant n₁ n₂ k hk C hC
      obtain ⟨J₃, c₃⟩ := (good_genSig k).copy
      obtain ⟨S, rfl⟩ := (cgL (SU2.dim n₁) (SU2.dim n₂) (SU2.dim k)).surjective C
      have hS := (isCG_iff (SU2.rep n₁) (SU2.rep n₂) (SU2.rep k) S).1 hCG
      have hpos : 0 < realMult k := by unfold realMult; split_ifs <;> omega
      have hT := CopiesBy.up c₃.all (CopiesBy.tens c₁ c₂).all hS ⟨0, hpos⟩ c
      set T := J₃ ⟨0, hpos⟩ * S * (CopiesBy.kronR (J₁ c.1) (J₂ c.2))ᴴ with hTd
      have hTv : T *ᵥ v = 0 := by
        funext l
        have := hall k hk' (cgOf T) ((isCG_iff _ _ _ T).2 hT) l
        rw [Pi.zero_apply, ← this]
        show ∑ r, T l r * v r = _
        rw [← finProdFinEquiv.sum_comp, Fintype.sum_prod_type]
        simp only [hvp]
        rfl
      have hSw : S *ᵥ w = 0 := by
        have h1 : (J₃ ⟨0, hpos⟩)ᴴ * T = S * (CopiesBy.kronR (J₁ c.1) (J₂ c.2))ᴴ := by
          rw [hTd, ← Matrix.mul_assoc, ← Matrix.mul_assoc, c₃.orth, if_pos rfl, Matrix.one_mul]
        rw [hw, Matrix.mulVec_mulVec, ← h1, ← Matrix.mulVec_mulVec, hTv, Matrix.mulVec_zero]
      have := congrFun hSw m
      change ∑ r, S m r * w r = 0 at this
      rw [← finProdFinEquiv.sum_comp, Fintype.sum_prod_type] at this
      exact this
    funext r
    obtain ⟨⟨a, b⟩, rfl⟩ := finProdFinEquiv.surjective r
    exact congrFun (congrFun h0 a) b
  have hv0 : v = 0 := by
    have := (CopiesBy.tens (s₁ := repOf (genSig n₁).2) (s₂ := repOf (genSig n₂).2) c₁ c₂).total
    calc v = (1 : Matrix _ _ ℂ) *ᵥ v := (Matrix.one_mulVec v).symm
      _ = 0 := by
        rw [← this, Matrix.sum_mulVec]
        refine Finset.sum_eq_zero fun c _ => ?_
        rw [← Matrix.mulVec_mulVec, key, Matrix.mulVec_zero]
  funext x y
  rw [← hvp, hv0]
  rfl

theorem mulL_ne (n₁ n₂ : ℕ) : SU2.mulL n₁ n₂ ≠ [] := by
  unfold SU2.mulL
  simp

/-- `tensor_product` of two irreps raises if the arrays do not form a square matrix. -/
theorem tpTab_raises {n h : ℕ} {T : Table n h} {i j : T.Ir} (hA : AllCloseA (T.rep i).A (T.rep j).A) (hp : T.prod i j ≠ [])
    (hd : ((T.prod i j).map fun k => (T.cg i j k).length * T.dim k).sum ≠ T.dim i * T.dim j) :
    tpTab i j = .error .valueError := by
  rw [← dimL_cgBlocks] at hd
  unfold tpTab
  rw [pyAssert_of hA]
  revert hp hd
  generalize T.prod i j = L
  intro hp hd
  match L, hp with
  | k :: ks, _ =>
    have hinv : SMat.invP ⟨_, _, cgRows i j (k :: ks)⟩ = .error .valueError := by
      unfold SMat.invP
      exact dif_neg hd
    show (SMat.invP ⟨_, _, cgRows i j (k :: ks)⟩ >>= _) = _
    rw [hinv]
    rfl

/-- C81: `tensor_product` of two irreps of `SU2Real` that both have an integer spin, or both a half-odd spin, succeeds
and acts as the tensor product. -/
theorem C81_tensor_product (he : EighSpec eigh) (n₁ n₂ : ℕ) (hp : n₁ % 2 = n₂ % 2)
    (hd : 2 * (n₁ + n₂ + 1) * (dim ((n₁ : ℚ) / 2) * dim ((n₂ : ℚ) / 2)) < 10 ^ 8) :
    ∃ r, tpTab (T := SU2Real.table eigh) n₁ n₂ = .ok r ∧
      Acts r (((SU2Real.table eigh).rep n₁).tensorProduct ((SU2Real.table eigh).rep n₂)) := by
  have hlen : ∀ k ∈ SU2.mulL n₁ n₂, ((SU2Real.table eigh).cg n₁ n₂ k).length = realMult n₁ * realMult n₂ := by
    intro k hk
    rw [su2Real_length he hk (dim_bound hk hd)]
    have : realMult k = 1 := by
      have := (triangle_iff.1 hk).2.2.2
      unfold realMult
      rw [if_pos (by omega)]
    rw [this, mul_one]
  have hpos : ∀ n, 0 < realMult n := fun n => by unfold realMult; split_ifs <;> omega
  have hg : GoodPair (T := SU2Real.table eigh) n₁ n₂ := by
    refine ⟨SU2Real.close, ?_, ?_, ?_, ?_⟩
    · exact fun h => mulL_ne n₁ n₂ ((su2Real_prod n₁ n₂).symm.trans h)
    · intro k hk h0
      rw [su2Real_prod] at hk
      have := hlen k hk
      rw [h0] at this
      exact absurd this.symm (Nat.mul_pos (hpos n₁) (hpos n₂)).ne'
    · rw [su2Real_prod]
      have e : (SU2.mulL n₁ n₂).map (fun k => ((SU2Real.table eigh).cg n₁ n₂ k).length * (SU2Real.table eigh).dim k) =
          (SU2.mulL n₁ n₂).map fun k => realMult n₁ * realMult n₂ * (k + 1) := by
        refine List.map_congr_left fun k hk => ?_
        rw [hlen k hk]
        congr 1
        refine (good_genSig k).dim_eq.trans ?_
        have := (triangle_iff.1 hk).2.2.2
        unfold realMult
        rw [if_pos (by omega), mul_one]
      refine (congrArg List.sum e).trans ?_
      rw [List.sum_map_mul_left, SU2.mulL_sum]
      show _ = (genSig n₁).1 * (genSig n₂).1
      rw [(good_genSig n₁).dim_eq, (good_genSig n₂).dim_eq]
      ring
    · intro t ht
      refine su2Real_complete he n₁ n₂ hd t fun k hk => ht k ?_
      rw [su2Real_prod]
      exact hk
  obtain ⟨r, hr⟩ := GoodPair.run hg
  exact ⟨r, hr, tpTab_acts (by norm_num) (C81_equivariant he) hg.sols hr⟩

/-- C81 (defect): `tensor_product` of an integer and a half-odd spin always raises: the arrays are equivariant but
there are four times too many of them, because the real irreps of half-odd spin have quaternionic endomorphisms, and
`np.linalg.inv` is applied to an array that is not square. -/
theorem C81_tensor_product_raises (he : EighSpec eigh) (n₁ n₂ : ℕ) (hp : n₁ % 2 ≠ n₂ % 2)
    (hd : 2 * (n₁ + n₂ + 1) * (dim ((n₁ : ℚ) / 2) * dim ((n₂ : ℚ) / 2)) < 10 ^ 8) :
    tpTab (T := SU2Real.table eigh) n₁ n₂ = .error .valueError := by
  have hm12 : realMult n₁ * realMult n₂ = 2 := by
    unfold realMult
    rcases Nat.mod_two_eq_zero_or_one n₁ with h | h <;> rcases Nat.mod_two_eq_zero_or_one n₂ with h' | h' <;>
      simp_all
  have hlen : ∀ k ∈ SU2.mulL n₁ n₂, ((SU2Real.table eigh).cg n₁ n₂ k).length * (SU2Real.table eigh).dim k =
      8 * (k + 1) := by
    intro k hk
    have hk2 : realMult k = 2 := by
      have := (triangle_iff.1 hk).2.2.2
      unfold realMult
      rw [if_neg (by omega)]
    have e : (SU2Real.table eigh).dim k = (k + 1) * 2 := by
      refine (good_genSig k).dim_eq.trans ?_
      rw [hk2]
    rw [su2Real_length he hk (dim_bound hk hd), hm12, hk2, e]
    ring
  have hcols : (SU2Real.table eigh).dim n₁ * (SU2Real.table eigh).dim n₂ = 2 * ((n₁ + 1) * (n₂ + 1)) := by
    show (genSig n₁).1 * (genSig n₂).1 = _
    rw [(good_genSig n₁).dim_eq, (good_genSig n₂).dim_eq, ← hm12]
    ring
  refine tpTab_raises SU2Real.close (fun h => mulL_ne n₁ n₂ ((su2Real_prod n₁ n₂).symm.trans h)) ?_
  rw [su2Real_prod, hcols]
  refine fun h => ?_
  have e := (congrArg List.sum (List.map_congr_left hlen)).symm.trans h
  rw [List.sum_map_mul_left, SU2.mulL_sum] at e
  have : 0 < (n₁ + 1) * (n₂ + 1) := by positivity
  omega

/-- Spins 1/2, 1/2, 1: four real arrays; spins 1/2, 1, 1/2: four as well; spins 1/2, 1/2, 1/2: none. -/
example : ∃ A B C, SU2Real.cg exactEigh (1 / 2) (1 / 2) 1 = .ok A ∧ A.sols.length = 4 ∧
    SU2Real.cg exactEigh (1 / 2) 1 (1 / 2) = .ok B ∧ B.sols.length = 4 ∧
    SU2Real.cg exactEigh (1 / 2) (1 / 2) (1 / 2) = .ok C ∧ C.sols.length = 0 := by
  have hh : dim (1 / 2) = 4 := by
    obtain ⟨-, h⟩ := gens_odd (j := 1 / 2) (l := 0) (by norm_num)
    exact h
  have h1 : dim 1 = 3 := by
    obtain ⟨-, -, -, h⟩ := gens_even (j := 1) (l := 1) (by norm_num)
    exact h
  obtain ⟨-, -, -, A, -, -, -, hA, lA, -⟩ := C81_cg exactEigh_spec (j₁ := 1 / 2) (j₂ := 1 / 2) (j₃ := 1) (n₁ := 1) (n₂ := 1)
    (n₃ := 2) (by norm_num) (by norm_num) (by norm_num) (by rw [hh, h1]; norm_num)
  obtain ⟨-, -, -, B, -, -, -, hB, lB, -⟩ := C81_cg exactEigh_spec (j₁ := 1 / 2) (j₂ := 1) (j₃ := 1 / 2) (n₁ := 1) (n₂ := 2)
    (n₃ := 1) (by norm_num) (by norm_num) (by norm_num) (by rw [hh, h1]; norm_num)
  obtain ⟨-, -, -, C, -, -, -, hC, lC, -⟩ := C81_cg exactEigh_spec (j₁ := 1 / 2) (j₂ := 1 / 2) (j₃ := 1 / 2) (n₁ := 1) (n₂ := 1)
    (n₃ := 1) (by norm_num) (by norm_num) (by norm_num) (by rw [hh]; norm_num)
  refine ⟨_, _, _, hA, ?_, hB, ?_, hC, ?_⟩
  · rw [lA, if_pos (by decide)]
    rfl
  · rw [lB, if_pos (by decide)]
    rfl
  · rw [lC, if_neg (by decide)]

/-- `tensor_product(SU2Real(1/2), SU2Real(1))` raises, `tensor_product(SU2Real(1/2), SU2Real(1/2))` does not. -/
example : tpTab (T := SU2Real.table exactEigh) (1 : ℕ) (2 : ℕ) = .error .valueError ∧
    ∃ r, tpTab (T := SU2Real.table exactEigh) (1 : ℕ) (1 : ℕ) = .ok r := by
  have hh : dim (((1 : ℕ) : ℚ) / 2) = 4 := by
    obtain ⟨-, h⟩ := gens_odd (j := ((1 : ℕ) : ℚ) / 2) (l := 0) (by norm_num)
    exact h
  have h1 : dim (((2 : ℕ) : ℚ) / 2) = 3 := by
    obtain ⟨-, -, -, h⟩ := gens_even (j := ((2 : ℕ) : ℚ) / 2) (l := 1) (by norm_num)
    exact h
  refine ⟨C81_tensor_product_raises exactEigh_spec 1 2 (by decide) (by rw [hh, h1]; norm_num), ?_⟩
  obtain ⟨r, hr, -⟩ := C81_tensor_product exactEigh_spec 1 1 rfl (by rw [hh]; norm_num)
  exact ⟨r, hr⟩

end LieNN.Props

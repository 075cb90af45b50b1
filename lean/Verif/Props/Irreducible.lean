import Verif.Proofs.Irreducible
import Verif.Props.Rounding
import Verif.Props.Semisimple
import Verif.Props.Reduced
import Verif.Proofs.TensorPower
/-!
# C98: `is_irreducible` of a representation, and the number of changes of basis
-/
namespace LieNN.Props

open Matrix Module LieNN LieNN.Spec LieNN.Semi

variable {n h d e : ℕ} {eigh : EighFn} {eps : ℝ}

/-- C98: whatever the small eigenvalues are, a representation in which invariant subspaces have invariant complements is
irreducible if `is_irreducible` answers `True`. -/
theorem C98_true (he : EighSpec eigh) (heps : 0 < eps) (hn : n + h ≠ 0) {r : Rep n h d} (hss : Semisimple r.allGens)
    (hd : (d * d : ℕ) * eps ^ 2 < 1) (hr : r.isIrreducible eigh eps = .ok true) : IrreducibleFamily r.allGens := by
  obtain ⟨S, h1, h2⟩ := infer_ge he heps hn r.allGens r.allGens hd
  unfold Rep.isIrreducible LieNN.isIrreducible at hr
  rw [h1] at hr
  have h3 : S.length = 1 := by simpa [bind, Except.bind, pure, Except.pure] using hr
  refine irreducible_of_semisimple hss (le_antisymm (h3 ▸ h2) ?_)
  rcases Nat.eq_zero_or_pos d with rfl | hd0
  · exfalso
    have h4 : LieNN.inferChangeOfBasis eigh eps r.allGens r.allGens = .ok ((nullspace eigh eps (icobMatrix r.allGens r.allGens)).map unvec) :=
      if_neg hn
    rw [h4] at h1
    injection h1 with h1
    have h5 : (nullspace eigh eps (icobMatrix r.allGens r.allGens)).length = 1 := by rw [← h3, ← h1, List.length_map]
    rw [oList_length (nullspace_oList heps _)] at h5
    have h6 := Submodule.finrank_le (lspan (nullspace eigh eps (icobMatrix r.allGens r.allGens)))
    rw [h5] at h6
    simp at h6
  · have : Nonempty (Fin d) := ⟨⟨0, hd0⟩⟩
    rw [Nat.one_le_iff_ne_zero]
    intro h0
    have h1' : (⟨1, one_mem_intertwiners r.allGens⟩ : intertwiners r.allGens r.allGens) ≠ 0 :=
      fun h0 => one_ne_zero (congrArg Subtype.val h0)
    exact h1' (finrank_zero_iff_forall_zero.1 h0 _)

/-- C98: if no eigenvalue lies between zero and the tolerance, `is_irreducible` answers whether the representation is irreducible,
for every representation in which invariant subspaces have invariant complements. -/
theorem C98_exact (he : EighSpec eigh) (heps : 0 < eps) (hn : n + h ≠ 0) {r : Rep n h d} (hss : Semisimple r.allGens)
    (hd : (d * d : ℕ) * eps ^ 2 < 1) (hgap : Gap eps (icobMatrix r.allGens r.allGens)) :
    ∃ b, r.isIrreducible eigh eps = .ok b ∧ (b = true ↔ IrreducibleFamily r.allGens) := by
  obtain ⟨S, h1, _, h3, _⟩ := inferChangeOfBasis_spec he heps hn r.allGens r.allGens hd hgap
  refine ⟨decide (S.length = 1), by unfold Rep.isIrreducible LieNN.isIrreducible; rw [h1]; rfl, ?_⟩
  rw [decide_eq_true_iff, h3]
  exact ⟨irreducible_of_semisimple hss, finrank_commutant_of_irreducible⟩

/-- C98: the hypothesis holds for the unitary representations and, in every basis, for the representations with the structure
constants of `SU2`, `SL2C`, `SO13` and `SUN`. -/
theorem C98_semisimple :
    (∀ {n h d : ℕ} {r : Rep n h d}, IsUnitaryRep r → Semisimple r.allGens) ∧
    (∀ {d : ℕ} {r : Rep 3 0 d}, r.A = SU2.algebra → IsRep r → Semisimple r.allGens) ∧
    (∀ {d : ℕ} {r : Rep 6 0 d}, r.A = SL2C.algebra → IsRep r → Semisimple r.allGens) ∧
    (∀ {d : ℕ} {r : Rep 6 0 d}, r.A = SO13.algebra → IsRep r → Semisimple r.allGens) ∧
    ∀ {N d₀ d : ℕ}, 2 ≤ N → ∀ {S₀ : List ℤ}, SUN.make S₀ = .ok S₀ → S₀.length = N → SUN.dim (SUN.defining N) = .ok (d₀ : ℤ) →
      ∀ {pinv : Matrix (Fin (N ^ 2 - 1)) (Fin (d₀ * d₀)) ℂ → Matrix (Fin (d₀ * d₀)) (Fin (N ^ 2 - 1)) ℂ},
      PinvOK pinv (SUN.defining N) → ∀ {r : Rep (N ^ 2 - 1) 0 d},
      (∃ F, ∀ fuel ≥ F, SUN.sunAlgebra fuel d₀ (N ^ 2 - 1) pinv S₀ = some (.ok r.A)) → IsRep r → Semisimple r.allGens := by
  refine ⟨fun {n h d r} hr => semisimple_of_unitary fun a => ?_, fun hA hr => semisimple_allGens.2 (C93_su2_semisimple hA hr),
    fun hA hr => semisimple_allGens.2 (C93_sl2c_semisimple hA hr), fun hA hr => semisimple_allGens.2 (C93_so13_semisimple hA hr),
    fun h2 _ hm hl hd _ hp _ hA hr => semisimple_allGens.2 (C93_sun_semisimple h2 hm hl hd hp hA hr)⟩
  refine Fin.addCases (fun a => ?_) (fun a => ?_) a
  · rw [allGens_left]; exact Or.inl (hr.2 a)
  · rw [allGens_right]; exact Or.inr (mul_eq_one_comm.1 (hr.1 a))

theorem small_dim (hd : d < 10 ^ 10) : (d * d : ℕ) * (1 / 10 ^ 10 : ℝ) ^ 2 < 1 := by
  have : (d : ℝ) < 10 ^ 10 := by exact_mod_cast hd
  have h0 : (0 : ℝ) ≤ d := by positivity
  push_cast
  calc (d : ℝ) * d * (1 / 10 ^ 10) ^ 2 < 10 ^ 10 * 10 ^ 10 * (1 / 10 ^ 10) ^ 2 := by
        have : (d : ℝ) * d < 10 ^ 10 * 10 ^ 10 := mul_lt_mul'' this this h0 h0
        gcongr
    _ = 1 := by norm_num

/-- C98: on anti-hermitian representations with the structure constants of `SU2`, of dimension below `10 ^ 10`, the answer at the
default tolerance `1e-10` is right without further hypothesis. -/
theorem C98_su2 (he : EighSpec eigh) {r : Rep 3 0 d} (hA : r.A = SU2.algebra) (hr : IsRep r) (hu : IsUnitaryRep r)
    (hd : d < 10 ^ 10) :
    ∃ b, r.isIrreducible eigh (1 / 10 ^ 10) = .ok b ∧ (b = true ↔ IrreducibleFamily r.X) := by
  have hg : Gap (1 / 10 ^ 10) (icobMatrix r.allGens r.allGens) :=
    CGSpace.gap_su2 (CGSpace.su2Mats_of_isRep hA hr) (CGSpace.su2Mats_of_isRep hA hr) hu.2 hu.2 Fin.elim0 Fin.elim0
      (fun b => b.elim0) (fun b => b.elim0) (by norm_num)
  obtain ⟨b, h1, h2⟩ := C98_exact he (by norm_num) (by norm_num) (C98_semisimple.1 hu) (small_dim hd) hg
  exact ⟨b, h1, h2.trans irreducible_allGens⟩

/-- C98: `infer_change_of_basis` between two representations that `ReducedRep`s act as returns, label by label, the product of the
multiplicities. -/
theorem C98_count (he : EighSpec eigh) (hn : n + h ≠ 0) {T : Table n h} (hT : Schur T) (hpos : ∀ i, 0 < T.dim i)
    {R₁ R₂ : ReducedRep T} {r₁ : Rep n h d} {r₂ : Rep n h e} (h₁ : Acts R₁ r₁) (h₂ : Acts R₂ r₂) (hA : AllCloseA r₁.A r₂.A)
    (hd : e * d < 10 ^ 8) (hgap : Gap (1 / 10 ^ 4) (icobMatrix r₂.allGens r₁.allGens)) :
    ∃ S, Rep.inferChangeOfBasis eigh r₁ r₂ = .ok S ∧ S.length = (R₂.irreps.map fun m => m.mul * mult R₁.irreps m.ir).sum := by
  obtain ⟨S, h3, -, h4, -⟩ := rep_infer_spec he hn r₁ r₂ hA hd hgap
  exact ⟨S, h3, h4.trans (finrank_acts hT hpos h₂ h₁)⟩

theorem mult_le_total {T : Table n h} (l : List (MulIr T)) (i : T.Ir) : mult l i ≤ (l.map fun m => m.mul).sum := by
  unfold mult
  refine List.sum_le_sum fun m _ => ?_
  split_ifs <;> simp

theorem le_mult {T : Table n h} {l : List (MulIr T)} {m : MulIr T} (hm : m ∈ l) : m.mul ≤ mult l m.ir := by
  classical
  unfold mult
  have := List.single_le_sum (l := l.map fun m' => if m'.ir = m.ir then m'.mul else 0) (by simp) m.mul
    (List.mem_map.2 ⟨m, hm, if_pos rfl⟩)
  convert this

theorem sum_sq_eq_one {T : Table n h} (l : List (MulIr T)) :
    (l.map fun m => m.mul * mult l m.ir).sum = 1 ↔ (l.map fun m => m.mul).sum = 1 := by
  have h1 : (l.map fun m => m.mul).sum ≤ (l.map fun m => m.mul * mult l m.ir).sum := by
    refine List.sum_le_sum fun m hm => ?_
    have := le_mult hm
    rcases Nat.eq_zero_or_pos m.mul with h0 | h0
    · simp [h0]
    · nlinarith
  have h2 : (l.map fun m => m.mul * mult l m.ir).sum ≤ (l.map fun m => m.mul).sum * (l.map fun m => m.mul).sum := by
    calc (l.map fun m => m.mul * mult l m.ir).sum ≤ (l.map fun m => m.mul * (l.map fun m => m.mul).sum).sum :=
          List.sum_le_sum fun m _ => Nat.mul_le_mul le_rfl (mult_le_total l m.ir)
      _ = _ := List.sum_map_mul_right _ _ _
  constructor
  · intro h
    rw [h] at h1 h2
    rcases Nat.eq_zero_or_pos (l.map fun m => m.mul).sum with h0 | h0
    · rw [h0] at h2; omega
    · omega
  · intro h
    rw [h] at h1 h2
    omega

/-- C98: `is_irreducible` of what a `ReducedRep` acts as is `True` exactly if it has one block, once. -/
theorem C98_reduced (he : EighSpec eigh) (heps : 0 < eps) (hn : n + h ≠ 0) {T : Table n h} (hT : Schur T) (hpos : ∀ i, 0 < T.dim i)
    {R : ReducedRep T} {r : Rep n h d} (hR : Acts R r) (hd : (d * d : ℕ) * eps ^ 2 < 1)
    (hgap : Gap eps (icobMatrix r.allGens r.allGens)) :
    ∃ b, r.isIrreducible eigh eps = .ok b ∧ (b = true ↔ (R.irreps.map fun m => m.mul).sum = 1) := by
  obtain ⟨S, h1, _, h3, _⟩ := inferChangeOfBasis_spec he heps hn r.allGens r.allGens hd hgap
  refine ⟨decide (S.length = 1), by unfold Rep.isIrreducible LieNN.isIrreducible; rw [h1]; rfl, ?_⟩
  rw [decide_eq_true_iff, h3, finrank_acts hT hpos hR hR, sum_sq_eq_one]

/-- C98: the product of two labels is irreducible for `is_irreducible` exactly if the Clebsch-Gordan series has one term. -/
theorem C98_product (he : EighSpec eigh) (heps : 0 < eps) (hn : n ≠ 0) {T : Table n h} (hT : GoodTable T) (i j : T.Ir)
    (hd : ((T.dim i * T.dim j) * (T.dim i * T.dim j) : ℕ) * eps ^ 2 < 1)
    (hgap : Gap eps (icobMatrix ((T.rep i).tensorProduct (T.rep j)).allGens ((T.rep i).tensorProduct (T.rep j)).allGens)) :
    ∃ b, ((T.rep i).tensorProduct (T.rep j)).isIrreducible eigh eps = .ok b ∧
      (b = true ↔ ((T.prod i j).map fun k => (T.cg i j k).length).sum = 1) := by
  obtain ⟨R, h1, h2⟩ := C34_tabulated hn hT.equi i j (hT.pair i j)
  obtain ⟨-, h3, -⟩ := tpTab_ok h1
  have h4 := C98_reduced he heps (by omega) hT.schur hT.pos h2 hd hgap
  rwa [h3, cgBlocks, List.map_map] at h4

/-- C98: the number of changes of basis between two anti-hermitian representations with the structure constants of `SU2`. -/
theorem C98_su2_count (he : EighSpec eigh) {R₁ R₂ : ReducedRep SU2.table} {r₁ : Rep 3 0 d} {r₂ : Rep 3 0 e} (h₁ : Acts R₁ r₁)
    (h₂ : Acts R₂ r₂) (hA₁ : r₁.A = SU2.algebra) (hA₂ : r₂.A = SU2.algebra) (hr₁ : IsRep r₁) (hr₂ : IsRep r₂)
    (hu₁ : IsUnitaryRep r₁) (hu₂ : IsUnitaryRep r₂) (hd : e * d < 10 ^ 8) :
    ∃ S, Rep.inferChangeOfBasis eigh r₁ r₂ = .ok S ∧ S.length = (R₂.irreps.map fun m => m.mul * mult R₁.irreps m.ir).sum := by
  have hT := TBasis.su2_goodTable
  refine C98_count he (by norm_num) hT.schur hT.pos h₁ h₂ ?_ hd ?_
  · rw [hA₁, hA₂]
    exact LieNN.allCloseA_refl _
  · exact CGSpace.gap_su2 (CGSpace.su2Mats_of_isRep hA₂ hr₂) (CGSpace.su2Mats_of_isRep hA₁ hr₁) hu₂.2 hu₁.2 Fin.elim0 Fin.elim0
      (fun b => b.elim0) (fun b => b.elim0) (by norm_num)

/-- C98: `is_irreducible` of the `SU2` irreps is `True`, and `False` for the product of two that are not scalars. -/
theorem C98_su2_labels (he : EighSpec eigh) :
    (∀ j, j + 1 < 10 ^ 10 → (SU2.rep j).isIrreducible eigh (1 / 10 ^ 10) = .ok true) ∧
    ∀ i j, 1 ≤ i → 1 ≤ j → (i + 1) * (j + 1) < 10 ^ 10 →
      ((SU2.rep i).tensorProduct (SU2.rep j)).isIrreducible eigh (1 / 10 ^ 10) = .ok false := by
  constructor
  · intro j hj
    obtain ⟨b, h1, h2⟩ := C98_su2 he (r := SU2.rep j) rfl (SU2.isRep j) ⟨fun a => a.elim0, SU2.skew⟩ hj
    rw [h1, h2.2 (irreducible_allGens.1 (su2_irreducible j))]
  · intro i j hi hj hd
    have hT : IsRep ((SU2.rep i).tensorProduct (SU2.rep j)) :=
      isRep_tensorProduct (r₁ := SU2.rep i) (r₂ := SU2.rep j) rfl (SU2.isRep i) (SU2.isRep j)
    have hU : IsUnitaryRep ((SU2.rep i).tensorProduct (SU2.rep j)) :=
      unitary_tensorProduct ⟨fun a => a.elim0, SU2.skew⟩ ⟨fun a => a.elim0, SU2.skew⟩
    have hs := CGSpace.su2Mats_of_isRep rfl hT
    obtain ⟨b, h1, h2⟩ := C98_product (eps := 1 / 10 ^ 10) he (by norm_num) (by norm_num) TBasis.su2_goodTable i j (small_dim hd)
      (CGSpace.gap_su2 hs hs hU.2 hU.2 Fin.elim0 Fin.elim0 (fun b => b.elim0) (fun b => b.elim0) (by norm_num))
    have h3 : b ≠ true := by
      rw [Ne, h2]
      have h4 : (SU2.table.prod i j).length ≤ ((SU2.table.prod i j).map fun k => (SU2.table.cg i j k).length).sum := by
        have := List.card_nsmul_le_sum ((SU2.table.prod i j).map fun k => (SU2.table.cg i j k).length) 1 (by
          simp only [List.mem_map]
          rintro _ ⟨k, hk, rfl⟩
          exact List.length_pos_iff.2 ((TBasis.su2_goodTable.pair i j).sols k hk))
        simpa using this
      have h5 : (SU2.table.prod i j).length = min i j + 1 :=
        (congrArg List.length (SU2.table_prod i j)).trans ((List.length_map _).trans List.length_range)
      have : 1 ≤ min i j := le_min hi hj
      omega
    rw [Bool.eq_false_of_not_eq_true h3] at h1
    exact h1

/-- The same representation with all generators and structure constants multiplied by a number. -/
def scaled (t : ℂ) (r : Rep n 0 d) : Rep n 0 d where
  A := fun i j k => t * r.A i j k
  X := fun a => t • r.X a
  H := r.H

theorem scaled_allGens (t : ℂ) (r : Rep n 0 d) (a : Fin (n + 0)) : (scaled t r).allGens a = t • r.allGens a := by
  refine Fin.addCases (fun a => ?_) (fun a => a.elim0) a
  rw [allGens_left, allGens_left]
  rfl

theorem icobMatrix_scaled (t : ℂ) (r : Rep n 0 d) (i : Fin ((n + 0) * (d * d))) (j : Fin (d * d)) :
    icobMatrix (scaled t r).allGens (scaled t r).allGens i j = t * icobMatrix r.allGens r.allGens i j := by
  simp only [icobMatrix, icobBlock, scaled_allGens, Matrix.sub_apply, kron, Matrix.smul_apply, Matrix.transpose_apply, smul_eq_mul]
  ring

/-- C98 finding: the tolerance is absolute. Multiplying the generators of any representation of dimension at least two by a small
number gives a representation on which `is_irreducible` answers `False`, even if it is irreducible. -/
theorem C98_scale (he : EighSpec eigh) (heps : 0 < eps) (hn : n ≠ 0) (h2 : 2 ≤ d) (hd : (d * d : ℕ) * eps ^ 2 < 1) {r : Rep n 0 d}
    (hr : IsRep r) (hirr : IrreducibleFamily r.X) :
    ∃ t₀ : ℝ, 0 < t₀ ∧ ∀ t : ℝ, 0 < t → t ≤ t₀ → IsRep (scaled t r) ∧ IrreducibleFamily (scaled t r).X ∧
      (scaled t r).isIrreducible eigh eps = .ok false := by
  set K : ℝ := ∑ i, ∑ j, ‖icobMatrix r.allGens r.allGens i j‖ ^ 2 with hK
  have hK0 : 0 ≤ K := by positivity
  refine ⟨min 1 (eps / (K + 1)), by positivity, fun t ht0 ht => ⟨fun i j => ?_, ⟨hirr.1, fun W hW => hirr.2 W fun a w hw => ?_⟩, ?_⟩⟩
  · have := hr i j
    simp only [scaled, smul_mul_assoc, mul_smul_comm, smul_smul, ← smul_sub, this, Finset.smul_sum]
    exact Finset.sum_congr rfl fun k _ => by congr 1; ring
  · have h1 := hW a w hw
    have h2 := W.smul_mem ((t : ℂ)⁻¹) h1
    have h3 : (t : ℂ) ≠ 0 := by exact_mod_cast ht0.ne'
    simpa only [scaled, Matrix.smul_mulVec, smul_smul, inv_mul_cancel₀ h3, one_smul] using h2
  · have h4 : ∑ i, ∑ j, ‖icobMatrix (scaled t r).allGens (scaled t r).allGens i j‖ ^ 2 < eps := by
      have e1 : ∑ i, ∑ j, ‖icobMatrix (scaled t r).allGens (scaled t r).allGens i j‖ ^ 2 = t ^ 2 * K := by
        simp only [icobMatrix_scaled, hK, Finset.mul_sum, norm_mul, mul_pow, Complex.norm_real, Real.norm_eq_abs, sq_abs]
      rw [e1]
      have h5 : t ≤ 1 := ht.trans (min_le_left _ _)
      have h6 : t ≤ eps / (K + 1) := ht.trans (min_le_right _ _)
      rw [le_div_iff₀ (by positivity)] at h6
      have h7 : t ^ 2 * K ≤ t * K := by
        have : t ^ 2 ≤ t := by nlinarith
        exact mul_le_mul_of_nonneg_right this hK0
      nlinarith
    have h5 := nullspace_all he heps (icobMatrix (scaled t r).allGens (scaled t r).allGens) hd h4
    have h6 : LieNN.inferChangeOfBasis eigh eps (scaled t r).allGens (scaled t r).allGens =
        .ok ((nullspace eigh eps (icobMatrix (scaled t r).allGens (scaled t r).allGens)).map unvec) := if_neg hn
    unfold Rep.isIrreducible LieNN.isIrreducible
    rw [h6]
    have h7 : ¬ d * d = 1 := by nlinarith
    simp [bind, Except.bind, pure, Except.pure, h5, h7]

/-- The hypotheses of `C98_true`, `C98_exact` and `C98_su2` hold for the `SU2` irrep of dimension three. -/
example (he : EighSpec eigh) : (SU2.rep 2).A = SU2.algebra ∧ IsRep (SU2.rep 2) ∧ IsUnitaryRep (SU2.rep 2) ∧
    (SU2.rep 2).isIrreducible eigh (1 / 10 ^ 10) = .ok true :=
  ⟨rfl, SU2.isRep 2, ⟨fun a => a.elim0, SU2.skew⟩, (C98_su2_labels he).1 2 (by norm_num)⟩

/-- The hypotheses of `C98_scale` hold for the `SU2` irrep of dimension two. -/
example (he : EighSpec eigh) : ∃ r : Rep 3 0 2, IsRep r ∧ IrreducibleFamily r.X ∧ r.isIrreducible eigh (1 / 10 ^ 10) = .ok false := by
  obtain ⟨t, h0, ht⟩ := C98_scale (eps := 1 / 10 ^ 10) he (by norm_num) (by norm_num) (by norm_num) (by norm_num) (SU2.isRep 1)
    (irreducible_allGens.1 (su2_irreducible 1))
  exact ⟨_, ht t h0 le_rfl⟩

theorem sum_label {T : Table n h} (i : T.Ir) :
    ((MulIr.toReduced ⟨1, i⟩).irreps.map fun m => m.mul * mult (MulIr.toReduced ⟨1, i⟩).irreps m.ir).sum = 1 := by
  simp [MulIr.toReduced, mult]

/-- The hypotheses of `C98_su2_count` hold for a label against itself: one change of basis. -/
example (he : EighSpec eigh) : ∃ S, Rep.inferChangeOfBasis eigh (SU2.rep 3) (SU2.rep 3) = .ok S ∧ S.length = 1 := by
  have h := LieNN.IrRep.acts_tab (T := SU2.table) (by norm_num) (3 : ℕ)
  have hu : IsUnitaryRep (SU2.rep 3) := ⟨fun a => a.elim0, SU2.skew⟩
  obtain ⟨S, h1, h2⟩ := C98_su2_count he h h rfl rfl (SU2.isRep 3) (SU2.isRep 3) hu hu (show 4 * 4 < 10 ^ 8 by norm_num)
  exact ⟨S, h1, h2.trans (sum_label _)⟩

end LieNN.Props

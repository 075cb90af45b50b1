import Verif.Spec.FineTable
import Verif.Proofs.ProductGap
import Verif.Proofs.TBTable
import Verif.Props.Triplet
import Verif.Props.Rep
/-!
# C84: products of groups, `TabulatedIrrepProduct`
-/
namespace LieNN.Props

open LieNN.Spec Matrix

variable {n h n₁ h₁ n₂ h₂ : ℕ} {T : Table n h} {T₁ : Table n₁ h₁} {T₂ : Table n₂ h₂} {eigh : EighFn}

theorem orth_if {α : Type} {d : ℕ} {k : α} (z z' : Fin d) {_ : Decidable (k = k ∧ (z : ℕ) = z')} :
    (if k = k ∧ (z : ℕ) = z' then (1 : ℝ) else 0) = if z = z' then 1 else 0 := by
  simp only [true_and, Fin.val_inj]

theorem su2_cg_nil {i j k : ℕ} (h : SU2.cg i j k = .ok []) : SU2.table.cg i j k = [] := by
  have e : SU2.table.cg i j k = match SU2.cg i j k with
    | .ok L => L.map fun C a b c => ((C a b c : ℝ) : ℂ)
    | .error _ => [] := rfl
  rw [e, h]
  rfl

theorem so3_cg_nil {i j k : ℕ} (h : SO3.cg i j k = .ok []) : SO3.table.cg i j k = [] := by
  have e : SO3.table.cg i j k = match SO3.cg i j k with
    | .ok L => L.map fun C a b c => ((C a b c : ℝ) : ℂ)
    | .error _ => [] := rfl
  rw [e, h]
  rfl

theorem o3_cg_nil {i j k : O3} (h : O3.cg i j k = .ok []) : O3.table.cg i j k = [] := by
  have e : O3.table.cg i j k = match O3.cg i j k with
    | .ok L => L.map fun C a b c => ((C a b c : ℝ) : ℂ)
    | .error _ => [] := rfl
  rw [e, h]
  rfl

theorem sl2c_cg_nil {i j k : SL2C} (h : SL2C.cg i j k = .ok []) : SL2C.table.cg i j k = [] := by
  have e : SL2C.table.cg i j k = match SL2C.cg i j k with
    | .ok L => L.map fun C a b c => ((C a b c : ℝ) : ℂ)
    | .error _ => [] := rfl
  rw [e, h]
  rfl

theorem su2_fine : FineTable SU2.table where
  good := TBasis.su2_goodTable
  alg := fun _ _ => rfl
  isRep := SU2.isRep
  one := fun i j k hk => by
    have hm : k ∈ SU2.mulL i j := (SU2.table_prod i j) ▸ hk
    refine ⟨SU2.ct i j k, SU2.table_cg hm, fun z z' => (SU2.ct_orth hm hm z z').trans (orth_if z z')⟩
  none := fun i j k hk => by
    have hm : k ∉ SU2.mulL i j := fun h' => hk ((SU2.table_prod i j).symm ▸ h')
    exact su2_cg_nil (SU2.cg_eq_nil hm)
  gap := fun j₁ j₂ j₃ => by
    have hT : IsRep ((SU2.rep j₁).tensorProduct (SU2.rep j₂)) :=
      isRep_tensorProduct (r₁ := SU2.rep j₁) (r₂ := SU2.rep j₂) rfl (SU2.isRep j₁) (SU2.isRep j₂)
    have hU : IsUnitaryRep ((SU2.rep j₁).tensorProduct (SU2.rep j₂)) :=
      unitary_tensorProduct ⟨fun a => a.elim0, SU2.skew⟩ ⟨fun a => a.elim0, SU2.skew⟩
    exact CGSpace.gap_su2 (CGSpace.su2Mats_of_isRep rfl (SU2.isRep j₃)) (CGSpace.su2Mats_of_isRep rfl hT)
      (SU2.skew) hU.2 Fin.elim0 Fin.elim0 (fun b => b.elim0) (fun b => b.elim0) (by norm_num)

theorem so3_fine : FineTable SO3.table where
  good := TBasis.so3_goodTable
  alg := fun _ _ => rfl
  isRep := SO3.isRep
  one := fun i j k hk => by
    have hm : k ∈ SO3.mulR i j := (SO3.table_prod i j) ▸ hk
    refine ⟨SO3.ctR i j k, SO3.table_cg hm, fun z z' => (SO3.ctR_orth hm hm z z').trans (orth_if z z')⟩
  none := fun i j k hk => by
    have hm : k ∉ SO3.mulR i j := fun h' => hk ((SO3.table_prod i j).symm ▸ h')
    exact so3_cg_nil (SO3.cg_eq_nil fun h' => hm (SO3.mem_double.1 h'))
  gap := fun l₁ l₂ l₃ => by
    have hT : IsRep ((SO3.rep l₁).tensorProduct (SO3.rep l₂)) :=
      isRep_tensorProduct (r₁ := SO3.rep l₁) (r₂ := SO3.rep l₂) rfl (SO3.isRep l₁) (SO3.isRep l₂)
    have hU : IsUnitaryRep ((SO3.rep l₁).tensorProduct (SO3.rep l₂)) :=
      unitary_tensorProduct ⟨fun a => a.elim0, SO3.skew l₁⟩ ⟨fun a => a.elim0, SO3.skew l₂⟩
    exact CGSpace.gap_su2 (CGSpace.su2Mats_of_isRep rfl (SO3.isRep l₃)) (CGSpace.su2Mats_of_isRep rfl hT)
      (SO3.skew l₃) hU.2 Fin.elim0 Fin.elim0 (fun b => b.elim0) (fun b => b.elim0) (by norm_num)

theorem o3_fine : FineTable O3.table where
  good := TBasis.o3_goodTable
  alg := fun _ _ => rfl
  isRep := o3_isRep
  one := fun i j k hk => by
    obtain ⟨h1, h2⟩ := O3.mem_mul.1 hk
    refine ⟨SO3.ctR i.l j.l k.l, O3.table_cg h1 h2, fun z z' => (SO3.ctR_orth h1 h1 z z').trans (orth_if z z')⟩
  none := fun i j k hk => by
    have e : O3.cg i j k = .ok [] := by
      unfold O3.cg
      split_ifs with hp
      · exact SO3.cg_eq_nil fun h => hk (O3.mem_mul.2 ⟨SO3.mem_double.1 h, hp⟩)
      · rfl
    exact o3_cg_nil e
  gap := o3_gap

theorem sl2c_fine : FineTable SL2C.table where
  good := TBasis.sl2c_goodTable
  alg := fun _ _ => rfl
  isRep := SL2C.isRep
  one := fun i j k hk => by
    have hm : k ∈ SL2C.mulL i j := (SL2C.table_prod i j) ▸ hk
    refine ⟨SL2C.ctS i j k, SL2C.table_cg hm, fun z z' => (SL2C.ctS_orth hm hm z z').trans (orth_if z z')⟩
  none := fun i j k hk => by
    have hm : k ∉ SL2C.mulL i j := fun h' => hk ((SL2C.table_prod i j).symm ▸ h')
    exact sl2c_cg_nil (SL2C.cg_eq_nil hm)
  gap := fun r₁ r₂ r₃ => by
    have hT : IsRep ((SL2C.rep r₁).tensorProduct (SL2C.rep r₂)) :=
      isRep_tensorProduct (r₁ := SL2C.rep r₁) (r₂ := SL2C.rep r₂) rfl (SL2C.isRep r₁) (SL2C.isRep r₂)
    have hU : IsUnitaryRep ((SL2C.rep r₁).tensorProduct (SL2C.rep r₂)) :=
      unitary_tensorProduct ⟨fun a => a.elim0, SL2C.skew r₁⟩ ⟨fun a => a.elim0, SL2C.skew r₂⟩
    exact CGSpace.gap_sl2c rfl (SL2C.isRep r₃) rfl hT (SL2C.skew r₃) hU.2 (by norm_num)

theorem z2_gap (p₁ p₂ p₃ : ℤ) : Gap (1 / 10 ^ 4) (icobMatrix (Z2.rep p₃).allGens
  ((Z2.rep p₁).tensorProduct (Z2.rep p₂)).allGens) := by
  refine gap_icob fun μ S hS hev hμ => ?_
  have hR : ((Z2.rep p₁).tensorProduct (Z2.rep p₂)).H 0 = ((p₁ * p₂ : ℤ) : ℂ) • 1 := kron_smul_one p₁ p₂
  have hs : ∀ (f : Fin (0 + 1) → Matrix (Fin 1) (Fin (1 * 1)) ℂ), ∑ a, f a = f (Fin.natAdd 0 0) := fun f => by
    rw [Fin.sum_univ_add]
    simp
  change ∑ a, (((Z2.rep p₃).allGens a)ᴴ * ((Z2.rep p₃).allGens a * S - S * ((Z2.rep p₁).tensorProduct (Z2.rep p₂)).allGens a) -
    ((Z2.rep p₃).allGens a * S - S * ((Z2.rep p₁).tensorProduct (Z2.rep p₂)).allGens a) *
      (((Z2.rep p₁).tensorProduct (Z2.rep p₂)).allGens a)ᴴ) = _ at hev
  have h3 : (Z2.rep p₃).allGens (Fin.natAdd 0 0) = (p₃ : ℂ) • 1 := Fin.append_right _ _ _
  have h4 : ((Z2.rep p₁).tensorProduct (Z2.rep p₂)).allGens (Fin.natAdd 0 0) = ((p₁ * p₂ : ℤ) : ℂ) • 1 :=
    (Fin.append_right _ _ _).trans hR
  simp only [hs, h3, h4, conjTranspose_smul, conjTranspose_one] at hev
  simp only [Matrix.smul_mul, Matrix.mul_smul, Matrix.one_mul, Matrix.mul_one, star_intCast] at hev
  have h5 : (((p₃ - p₁ * p₂) ^ 2 : ℤ) : ℂ) • S = (μ : ℂ) • S := by
    rw [← hev]
    push_cast
    module
  have h6 : (((p₃ - p₁ * p₂) ^ 2 : ℤ) : ℂ) = (μ : ℂ) := smul_left_injective ℂ hS h5
  have h7 : (((p₃ - p₁ * p₂) ^ 2 : ℤ) : ℝ) = μ := by exact_mod_cast h6
  have h8 : (1 : ℤ) ≤ (p₃ - p₁ * p₂) ^ 2 := by
    rw [← h7] at hμ
    exact_mod_cast hμ
  have h9 : (1 : ℝ) ≤ μ := by rw [← h7]; exact_mod_cast h8
  exact le_trans (by norm_num) h9

theorem z2_fine : FineTable Z2.table where
  good := TBasis.z2_goodTable
  alg := fun _ _ => rfl
  isRep := fun _ a => a.elim0
  one := fun (i j k : ℤ) hk => by
    have hm : i * j = k := (List.mem_singleton.1 hk).symm
    have e : (fun _ _ _ => 1 : Fin 1 → Fin 1 → Fin 1 → ℂ) = fun _ _ _ => ((1 : ℝ) : ℂ) := by simp
    refine ⟨fun _ _ _ => 1, (if_pos hm).trans (congrArg (fun x => [x]) e), fun (z z' : Fin 1) => ?_⟩
    exact (show ∑ x : Fin 1, ∑ y : Fin 1, (1 : ℝ) * 1 = 1 by simp).trans (if_pos (Subsingleton.elim z z')).symm
  none := fun (i j k : ℤ) hk => if_neg fun e => hk (List.mem_singleton.2 e.symm)
  gap := z2_gap

/-- C84: the tables of the repository. -/
theorem C84_tables : FineTable SU2.table ∧ FineTable SO3.table ∧ FineTable O3.table ∧ FineTable Z2.table ∧
    FineTable SL2C.table := ⟨su2_fine, so3_fine, o3_fine, z2_fine, sl2c_fine⟩

theorem mem_product {i j k : (T₁.product T₂).Ir} : k ∈ (T₁.product T₂).prod i j ↔ k.1 ∈ T₁.prod i.1 j.1 ∧ k.2 ∈ T₂.prod i.2 j.2 := by
  obtain ⟨a, b⟩ := k
  show (a, b) ∈ List.flatMap (fun a => List.map (fun b => (a, b)) (T₂.prod i.2 j.2)) (T₁.prod i.1 j.1) ↔ _
  rw [List.mem_flatMap]
  constructor
  · rintro ⟨a', ha, hb⟩
    obtain ⟨b', hb', e⟩ := List.mem_map.1 hb
    obtain ⟨rfl, rfl⟩ := Prod.mk.inj e
    exact ⟨ha, hb'⟩
  · rintro ⟨ha, hb⟩
    exact ⟨a, ha, List.mem_map.2 ⟨b, hb, rfl⟩⟩

theorem cg_nil_of {i j k : (T₁.product T₂).Ir} (h' : T₁.cg i.1 j.1 k.1 = [] ∨ T₂.cg i.2 j.2 k.2 = []) :
    (T₁.product T₂).cg i j k = [] := by
  rcases h' with h' | h' <;> simp [Table.product, h']

/-- C84: the product of two such tables is such a table, so that the classes can be multiplied any number of times. -/
theorem C84_product (H₁ : FineTable T₁) (H₂ : FineTable T₂) : FineTable (T₁.product T₂) where
  good := TBasis.product_goodTable H₁.good H₂.good
  alg := fun i j => by
    funext a b c
    simp only [Table.product, Rep.tabulatedProduct]
    rw [H₁.alg i.1 j.1, H₂.alg i.2 j.2]
  isRep := fun i => by
    have := (C28_group_product (T₁.rep i.1) (T₂.rep i.2)).1 (H₁.isRep i.1) (H₂.isRep i.2)
    rwa [← C28_tabulated_product] at this
  one := fun i j k hk => by
    obtain ⟨k₁, k₂⟩ := mem_product.1 hk
    obtain ⟨C₁, e₁, o₁⟩ := H₁.one _ _ _ k₁
    obtain ⟨C₂, e₂, o₂⟩ := H₂.one _ _ _ k₂
    refine ⟨fun x y z => C₁ x.divNat y.divNat z.divNat * C₂ x.modNat y.modNat z.modNat, ?_, ?_⟩
    · simp only [Table.product, e₁, e₂, List.flatMap_cons, List.map_cons, List.map_nil, List.flatMap_nil, List.append_nil]
      congr 1
      funext x y z
      simp [cgProd]
    · intro z z'
      obtain ⟨⟨a, b⟩, rfl⟩ := finProdFinEquiv.surjective (show Fin (T₁.dim k.1 * T₂.dim k.2) from z)
      obtain ⟨⟨a', b'⟩, rfl⟩ := finProdFinEquiv.surjective (show Fin (T₁.dim k.1 * T₂.dim k.2) from z')
      have key : ∑ x : Fin (T₁.dim i.1 * T₂.dim i.2), ∑ y : Fin (T₁.dim j.1 * T₂.dim j.2),
          (C₁ x.divNat y.divNat a * C₂ x.modNat y.modNat b) * (C₁ x.divNat y.divNat a' * C₂ x.modNat y.modNat b') =
          (∑ x, ∑ y, C₁ x y a * C₁ x y a') * ∑ x, ∑ y, C₂ x y b * C₂ x y b' := by
        rw [← finProdFinEquiv.sum_comp, Fintype.sum_prod_type, Finset.sum_mul]
        refine Finset.sum_congr rfl fun x _ => ?_
        rw [Finset.mul_sum]
        refine Finset.sum_congr rfl fun x' _ => ?_
        rw [← finProdFinEquiv.sum_comp, Fintype.sum_prod_type, Finset.sum_mul]
        refine Finset.sum_congr rfl fun y _ => ?_
        rw [Finset.mul_sum]
        refine Finset.sum_congr rfl fun y' _ => ?_
        simp only [divNat_prod, modNat_prod]
        ring
      have e : ∀ (p : Fin (T₁.dim k.1)) (q : Fin (T₂.dim k.2)), (finProdFinEquiv (p, q)).divNat = p ∧
        (finProdFinEquiv (p, q)).modNat = q := fun p q => ⟨divNat_prod p q, modNat_prod p q⟩
      refine Eq.trans ?_ (key.trans ?_)
      · refine Finset.sum_congr rfl fun x _ => Finset.sum_congr rfl fun y _ => ?_
        simp only [(e a b).1, (e a b).2, (e a' b').1, (e a' b').2]
      · rw [o₁, o₂]
        have e' : finProdFinEquiv (a, b) = finProdFinEquiv (a', b') ↔ a = a' ∧ b = b' := by
          rw [finProdFinEquiv.injective.eq_iff, Prod.mk.injEq]
        by_cases ha : a = a'
        · by_cases hb : b = b'
          · rw [if_pos ha, if_pos hb, mul_one]
            exact (if_pos (e'.2 ⟨ha, hb⟩)).symm
          · rw [if_neg hb, mul_zero]
            exact (if_neg fun h' => hb (e'.1 h').2).symm
        · rw [if_neg ha, zero_mul]
          exact (if_neg fun h' => ha (e'.1 h').1).symm
  none := fun i j k hk => by
    rw [mem_product, not_and_or] at hk
    exact cg_nil_of (hk.imp (H₁.none _ _ _) (H₂.none _ _ _))
  gap := fun i j k => ProductGap.gap_product (H₁.gap i.1 j.1 k.1) (H₂.gap i.2 j.2 k.2)

/-- C84: the generic `clebsch_gordan` gives the arrays of the table up to a common sign. -/
theorem C84_recompute (he : EighSpec eigh) (hT : FineTable T) (hn : n + h ≠ 0) (i j k : T.Ir)
    (hd : T.dim k * (T.dim i * T.dim j) < 10 ^ 8) :
    ∃ G, Rep.clebschGordan eigh (T.rep i) (T.rep j) (T.rep k) = .ok G ∧
      SameUpToSign ((T.cg i j k).map fun C x y z => (C x y z).re) G := by
  refine recompute_table he hT.good hn i j k (hT.good.pair i k).algebra hd (hT.gap i j k) _ (fun hk => ?_) fun hk => ?_
  · obtain ⟨C, hC, ho⟩ := hT.one i j k hk
    refine ⟨C, ?_, hC, fun z => (ho z z).trans (if_pos rfl)⟩
    rw [hC]
    simp
  · rw [hT.none i j k hk]
    rfl

/-- C84: there is one array up to a factor exactly if the third irrep is in the product. -/
theorem C84_selection (hT : FineTable T) (i j k : T.Ir) [Decidable (k ∈ T.prod i j)] :
    Module.finrank ℂ (cgSpace (T.rep i) (T.rep j) (T.rep k)) = (if k ∈ T.prod i j then 1 else 0) ∧
      (T.cg i j k).length = if k ∈ T.prod i j then 1 else 0 := by
  have h' := C78_space hT.good i j k
  by_cases hk : k ∈ T.prod i j
  · obtain ⟨C, hC, -⟩ := hT.one i j k hk
    rw [if_pos hk, (h'.1 hk).2, hC]
    exact ⟨rfl, rfl⟩
  · rw [if_neg hk, h'.2 hk, hT.none i j k hk]
    exact ⟨finrank_bot ℂ _, rfl⟩

/-- C84: the check of the tests passes on all labels with the arrays of the table. -/
theorem C84_triplet {rtol atol : ℝ} (hr : 0 ≤ rtol) (ha : 0 ≤ atol) (hT : FineTable T) (i j k : T.Ir) :
    checkTriplet rtol atol (T.rep i) (T.rep j) (T.rep k) (.ok (T.cg i j k)) = .ok () := by
  refine C83_pass hr ha (hT.alg i j) (hT.alg i k) (hT.isRep i) (hT.isRep j) (hT.isRep k) fun C hC => ?_
  by_cases hk : k ∈ T.prod i j
  · exact hT.good.equi i j k hk C hC
  · rw [hT.none i j k hk] at hC
    exact absurd hC (by simp)

/-- C84: and with the generic ones. -/
theorem C84_triplet_generic {rtol atol : ℝ} (hr : 0 ≤ rtol) (ha : 0 ≤ atol) (he : EighSpec eigh) (hT : FineTable T)
    (hn : n + h ≠ 0) (i j k : T.Ir) (hd : T.dim k * (T.dim i * T.dim j) < 10 ^ 8) :
    checkTriplet rtol atol (T.rep i) (T.rep j) (T.rep k) (Rep.clebschGordan eigh (T.rep i) (T.rep j) (T.rep k)) = .ok () :=
  C83_generic hr ha he hn _ _ _ (hT.alg i j) (hT.alg i k) (hT.isRep i) (hT.isRep j) (hT.isRep k) hd (hT.gap i j k)

/-- The tables of the tests of the repository: `SU2 x SU2` and, with the overload for three arguments, which nests to
the left, `SO3 x Z2 x Z2`. -/
noncomputable abbrev su2su2 : Table 6 0 := SU2.table.product SU2.table
noncomputable abbrev so3z2z2 : Table 3 2 := (SO3.table.product Z2.table).product Z2.table

theorem su2_mem {i j k : ℕ} : k ∈ SU2.table.prod i j ↔ Triangle i j k := by
  rw [SU2.table_prod]
  exact triangle_iff

theorem so3_mem {i j k : ℕ} : k ∈ SO3.table.prod i j ↔ Triangle (2 * i) (2 * j) (2 * k) := by
  rw [SO3.table_prod]
  exact SO3.mem_double.symm.trans triangle_iff

theorem z2_mem {i j k : ℤ} : k ∈ Z2.table.prod i j ↔ k = i * j := List.mem_singleton

/-- Their labels. -/
def su2su2Label (i j : ℕ) : su2su2.Ir := (i, j)
def so3z2z2Label (l : ℕ) (p q : ℤ) : so3z2z2.Ir := ((l, p), q)

theorem C84_su2su2 : FineTable su2su2 := C84_product su2_fine su2_fine
theorem C84_so3z2z2 : FineTable so3z2z2 := C84_product (C84_product so3_fine z2_fine) z2_fine

/-- C84 (finding): three of the five calls of `check_representation_triplet` in the tests compare nothing, because
there is no array for these labels. -/
theorem C84_tests_vacuous : su2su2.cg (su2su2Label 1 1) (su2su2Label 1 2) (su2su2Label 2 2) = [] ∧
    su2su2.cg (su2su2Label 1 2) (su2su2Label 1 3) (su2su2Label 2 2) = [] ∧
    so3z2z2.cg (so3z2z2Label 1 (-1) (-1)) (so3z2z2Label 2 1 (-1)) (so3z2z2Label 2 1 1) = [] := by
  refine ⟨cg_nil_of (Or.inr (su2_fine.none _ _ _ (su2_mem.not.2 ?_))),
    cg_nil_of (Or.inr (su2_fine.none _ _ _ (su2_mem.not.2 ?_))),
    cg_nil_of (Or.inl (cg_nil_of (Or.inr (z2_fine.none _ _ _ (z2_mem.not.2 ?_)))))⟩
  · show ¬ Triangle 1 2 2
    unfold Triangle
    omega
  · show ¬ Triangle 2 3 2
    unfold Triangle
    omega
  · show ¬ (1 : ℤ) = -1 * 1
    decide

/-- C84: the other two compare one array each. -/
theorem C84_tests_one : (su2su2.cg (su2su2Label 1 1) (su2su2Label 1 1) (su2su2Label 2 2)).length = 1 ∧
    (so3z2z2.cg (so3z2z2Label 1 (-1) (-1)) (so3z2z2Label 1 (-1) (-1)) (so3z2z2Label 2 1 1)).length = 1 := by
  classical
  have ht : Triangle 1 1 2 := by unfold Triangle; omega
  have ht' : Triangle (2 * 1) (2 * 1) (2 * 2) := by unfold Triangle; omega
  constructor
  · exact ((C84_selection C84_su2su2 _ _ _).2).trans (if_pos (mem_product.2 ⟨su2_mem.2 ht, su2_mem.2 ht⟩))
  · refine ((C84_selection C84_so3z2z2 _ _ _).2).trans (if_pos (mem_product.2 ⟨mem_product.2 ⟨so3_mem.2 ht', z2_mem.2 ?_⟩, z2_mem.2 ?_⟩))
    · show (1 : ℤ) = -1 * -1
      decide
    · show (1 : ℤ) = -1 * -1
      decide

/-- The hypotheses are met: the generic solver for two spinors of `SU2 x SU2` finds one array. -/
example : ∃ G, Rep.clebschGordan exactEigh (su2su2.rep (su2su2Label 1 1)) (su2su2.rep (su2su2Label 1 1)) (su2su2.rep (su2su2Label 2 2)) = .ok G ∧ G.length = 1 := by
  obtain ⟨G, hG, s, -, rfl, -⟩ := C84_recompute exactEigh_spec C84_su2su2 (by norm_num) (su2su2Label 1 1) (su2su2Label 1 1) (su2su2Label 2 2)
    (show 3 * 3 * (2 * 2 * (2 * 2)) < 10 ^ 8 by norm_num)
  exact ⟨_, hG, by rw [List.length_map, List.length_map]; exact C84_tests_one.1⟩

/-- A product of four classes. -/
example : FineTable (((SL2C.table.product O3.table).product SU2.table).product Z2.table) :=
  C84_product (C84_product (C84_product sl2c_fine o3_fine) su2_fine) z2_fine

end LieNN.Props

import Verif.Proofs.RecomputeGap
import Verif.Props.LinAlg

/-!
# C78: the generic `clebsch_gordan` recomputes the tabulated coefficients up to a sign
-/
namespace LieNN.Props

open LieNN.Spec Matrix

/-- The result of the generic solver agrees with a tabulated list: it is the list with all signs
kept or all signs flipped, and every array of the result has a first entry of absolute value above
`1e-4 * sqrt(dim)` in the order `(k, i, j)`, and that entry is positive. -/
def SameUpToSign {d₁ d₂ d₃ : ℕ} (L : List (Fin d₁ → Fin d₂ → Fin d₃ → ℝ))
    (G : List (Fin d₁ → Fin d₂ → Fin d₃ → ℂ)) : Prop :=
  ∃ s : ℝ, (s = 1 ∨ s = -1) ∧ G = L.map (fun C i j k => ((s * C i j k : ℝ) : ℂ)) ∧
    ∀ C ∈ L, ∃ i j k, √d₃ / 10 ^ 4 < s * C i j k ∧
      ∀ i' j' k', (k' < k ∨ k' = k ∧ (i' < i ∨ i' = i ∧ j' < j)) → |C i' j' k'| ≤ √d₃ / 10 ^ 4

variable {n h : ℕ} {T : Table n h} {eigh : EighFn}

theorem pos_lt {d₁ d₂ d₃ : ℕ} {i i' : Fin d₁} {j j' : Fin d₂} {k k' : Fin d₃}
    (hlt : k' < k ∨ k' = k ∧ (i' < i ∨ i' = i ∧ j' < j)) :
    (CGSpace.pos i' j' k' : ℕ) < CGSpace.pos i j k := by
  have e : ∀ (i : Fin d₁) (j : Fin d₂) (k : Fin d₃), (CGSpace.pos i j k : ℕ) = (j + d₂ * i) + d₁ * d₂ * k :=
    fun _ _ _ => rfl
  rw [e, e]
  have hj := j.2
  have hj' := j'.2
  have b1 : (j' : ℕ) + d₂ * i' < d₁ * d₂ := by
    have : d₂ * (i' + 1) ≤ d₂ * d₁ := Nat.mul_le_mul_left _ i'.2
    nlinarith
  rcases hlt with h1 | ⟨rfl, h1 | ⟨rfl, h1⟩⟩
  · have h2 : d₁ * d₂ * (k' + 1) ≤ d₁ * d₂ * k := Nat.mul_le_mul_left _ h1
    nlinarith
  · have h2 : d₂ * (i' + 1) ≤ d₂ * i := Nat.mul_le_mul_left _ h1
    nlinarith
  · have : (j' : ℕ) < j := h1
    omega

theorem recompute_table (he : EighSpec eigh) (hT : GoodTable T) (hn : n + h ≠ 0) (i j k : T.Ir)
    (h₁₃ : AllCloseA (T.rep i).A (T.rep k).A) (hd : T.dim k * (T.dim i * T.dim j) < 10 ^ 8)
    (hgap : Gap (1 / 10 ^ 4) (icobMatrix (T.rep k).allGens ((T.rep i).tensorProduct (T.rep j)).allGens))
    (L : List (Fin (T.dim i) → Fin (T.dim j) → Fin (T.dim k) → ℝ))
    (hin : k ∈ T.prod i j → ∃ C, L = [C] ∧ T.cg i j k = [fun x y z => (C x y z : ℂ)] ∧
      ∀ z, ∑ x, ∑ y, C x y z * C x y z = 1)
    (hout : k ∉ T.prod i j → L = []) :
    ∃ G, Rep.clebschGordan eigh (T.rep i) (T.rep j) (T.rep k) = .ok G ∧ SameUpToSign L G := by
  have hp := hT.pair i j
  by_cases hk : k ∈ T.prod i j
  · obtain ⟨C, rfl, hC, hCn⟩ := hin hk
    have hIs : IsCG (T.rep i) (T.rep j) (T.rep k) fun x y z => (C x y z : ℂ) :=
      hT.equi i j k hk _ (by rw [hC]; simp)
    obtain ⟨s, hs, hG, x, y, z, h1, h2⟩ := CGSpace.generic_one he hn (T.rep i) (T.rep j) (T.rep k) hp.algebra h₁₃ hd
      (hT.pos k) hgap C hIs (by
        have : ∑ x, ∑ y, ∑ z, C x y z ^ 2 = ∑ z, ∑ x, ∑ y, C x y z * C x y z := by
          simp only [pow_two]
          rw [Finset.sum_comm]
          rw [Finset.sum_congr rfl fun y _ => Finset.sum_comm (s := Finset.univ) (t := Finset.univ)
            (f := fun x z => C x y z * C x y z)]
          rw [Finset.sum_comm]
          exact Finset.sum_congr rfl fun z _ => Finset.sum_comm
        rw [this, Finset.sum_congr rfl fun z _ => hCn z]
        simp) (by
        intro D hD
        have hD' : D ∈ cgSpace (T.rep i) (T.rep j) (T.rep k) := hD
        rw [CGSpace.span_eq hT.schur hT.equi hp.complete hk, hC] at hD'
        have e : {C' | C' ∈ [fun x y z => (C x y z : ℂ)]} = {fun x y z => (C x y z : ℂ)} := by
          ext; simp
        rw [e, Submodule.mem_span_singleton] at hD'
        obtain ⟨c, hc⟩ := hD'
        exact ⟨c, hc.symm⟩)
    refine ⟨_, hG, s, hs, rfl, ?_⟩
    intro C' hC'
    rw [List.mem_singleton.1 hC']
    exact ⟨x, y, z, h1, fun x' y' z' hlt => h2 x' y' z' (pos_lt hlt)⟩
  · rw [hout hk]
    refine ⟨[], CGSpace.generic_none he hn _ _ _ hp.algebra h₁₃ hd hgap fun D hD =>
      CGSpace.eq_zero hT.schur hT.equi hp.complete hk hD, 1, .inl rfl, rfl, by simp⟩

theorem kron_smul_one {a b : ℕ} (p q : ℤ) : kron ((p : ℂ) • (1 : Matrix (Fin a) (Fin a) ℂ))
    ((q : ℂ) • (1 : Matrix (Fin b) (Fin b) ℂ)) = ((p * q : ℤ) : ℂ) • 1 := by
  rw [← kron_one]
  apply kron_ext
  intro i k j l
  rw [kron_apply, Matrix.smul_apply, Matrix.smul_apply, Matrix.smul_apply, kron_apply]
  push_cast
  simp only [smul_eq_mul]
  ring

/-- C78, `SU2`: for all spins the numerical coefficients are the tabulated ones up to a sign, and
there are none exactly when there are none in the table. -/
theorem C78_su2 (he : EighSpec eigh) (j₁ j₂ j₃ : ℕ) (hd : (j₃ + 1) * ((j₁ + 1) * (j₂ + 1)) < 10 ^ 8) :
    ∃ L G, SU2.cg j₁ j₂ j₃ = .ok L ∧
      Rep.clebschGordan eigh (SU2.rep j₁) (SU2.rep j₂) (SU2.rep j₃) = .ok G ∧ SameUpToSign L G := by
  have hT : IsRep ((SU2.rep j₁).tensorProduct (SU2.rep j₂)) :=
    isRep_tensorProduct (r₁ := SU2.rep j₁) (r₂ := SU2.rep j₂) rfl (SU2.isRep j₁) (SU2.isRep j₂)
  have hU : IsUnitaryRep ((SU2.rep j₁).tensorProduct (SU2.rep j₂)) :=
    unitary_tensorProduct ⟨fun a => a.elim0, SU2.skew⟩ ⟨fun a => a.elim0, SU2.skew⟩
  have gap : Gap (1 / 10 ^ 4) (icobMatrix (SU2.rep j₃).allGens
      ((SU2.rep j₁).tensorProduct (SU2.rep j₂)).allGens) :=
    CGSpace.gap_su2 (CGSpace.su2Mats_of_isRep rfl (SU2.isRep j₃)) (CGSpace.su2Mats_of_isRep rfl hT)
      (SU2.skew) hU.2 Fin.elim0 Fin.elim0 (fun b => b.elim0) (fun b => b.elim0) (by norm_num)
  by_cases ht : Triangle j₁ j₂ j₃
  · have hm := triangle_iff.2 ht
    obtain ⟨G, hG, hs⟩ := recompute_table (T := SU2.table) he TBasis.su2_goodTable (by norm_num) j₁ j₂ j₃
      (TBasis.su2_goodTable.pair j₁ j₃).algebra hd gap [SU2.ct j₁ j₂ j₃]
      (fun _ => ⟨_, rfl, SU2.table_cg hm, fun z => (SU2.ct_orth hm hm z z).trans (if_pos ⟨rfl, rfl⟩)⟩)
      (fun hk => absurd (by rw [SU2.table_prod]; exact hm) hk)
    exact ⟨_, G, SU2.cg_eq_ct hm, hG, hs⟩
  · have hm : j₃ ∉ SU2.mulL j₁ j₂ := fun h => ht (triangle_iff.1 h)
    obtain ⟨G, hG, hs⟩ := recompute_table (T := SU2.table) he TBasis.su2_goodTable (by norm_num) j₁ j₂ j₃
      (TBasis.su2_goodTable.pair j₁ j₃).algebra hd gap []
      (fun hk => absurd (by rw [SU2.table_prod] at hk; exact hk) hm) (fun _ => rfl)
    exact ⟨_, G, SU2.cg_eq_nil hm, hG, hs⟩

/-- C78, `SO3`. -/
theorem C78_so3 (he : EighSpec eigh) (l₁ l₂ l₃ : ℕ)
    (hd : (2 * l₃ + 1) * ((2 * l₁ + 1) * (2 * l₂ + 1)) < 10 ^ 8) :
    ∃ L G, SO3.cg l₁ l₂ l₃ = .ok L ∧
      Rep.clebschGordan eigh (SO3.rep l₁) (SO3.rep l₂) (SO3.rep l₃) = .ok G ∧ SameUpToSign L G := by
  have hT : IsRep ((SO3.rep l₁).tensorProduct (SO3.rep l₂)) :=
    isRep_tensorProduct (r₁ := SO3.rep l₁) (r₂ := SO3.rep l₂) rfl (SO3.isRep l₁) (SO3.isRep l₂)
  have hU : IsUnitaryRep ((SO3.rep l₁).tensorProduct (SO3.rep l₂)) :=
    unitary_tensorProduct ⟨fun a => a.elim0, SO3.skew l₁⟩ ⟨fun a => a.elim0, SO3.skew l₂⟩
  have gap : Gap (1 / 10 ^ 4) (icobMatrix (SO3.rep l₃).allGens
      ((SO3.rep l₁).tensorProduct (SO3.rep l₂)).allGens) :=
    CGSpace.gap_su2 (CGSpace.su2Mats_of_isRep rfl (SO3.isRep l₃)) (CGSpace.su2Mats_of_isRep rfl hT)
      (SO3.skew l₃) hU.2 Fin.elim0 Fin.elim0 (fun b => b.elim0) (fun b => b.elim0) (by norm_num)
  by_cases hm : l₃ ∈ SO3.mulR l₁ l₂
  · obtain ⟨G, hG, hs⟩ := recompute_table (T := SO3.table) he TBasis.so3_goodTable (by norm_num) l₁ l₂ l₃
      (TBasis.so3_goodTable.pair l₁ l₃).algebra hd gap [SO3.ctR l₁ l₂ l₃]
      (fun _ => ⟨_, rfl, SO3.table_cg hm, fun z => (SO3.ctR_orth hm hm z z).trans (if_pos ⟨rfl, rfl⟩)⟩)
      (fun hk => absurd (by rw [SO3.table_prod]; exact hm) hk)
    exact ⟨_, G, SO3.cg_eq (SO3.mem_double.2 hm), hG, hs⟩
  · obtain ⟨G, hG, hs⟩ := recompute_table (T := SO3.table) he TBasis.so3_goodTable (by norm_num) l₁ l₂ l₃
      (TBasis.so3_goodTable.pair l₁ l₃).algebra hd gap []
      (fun hk => absurd (by rw [SO3.table_prod] at hk; exact hk) hm) (fun _ => rfl)
    exact ⟨_, G, SO3.cg_eq_nil fun h => hm (SO3.mem_double.1 h), hG, hs⟩

theorem o3_isRep (r : O3) : IsRep (O3.rep r) := SO3.isRep r.l

theorem o3_skew (r : O3) (a : Fin 3) : ((O3.rep r).X a)ᴴ = -(O3.rep r).X a := SO3.skew r.l a

theorem o3_tensor_skew (r₁ r₂ : O3) (a : Fin 3) : (((O3.rep r₁).tensorProduct (O3.rep r₂)).X a)ᴴ =
    -((O3.rep r₁).tensorProduct (O3.rep r₂)).X a := by
  show (kron _ _ + kron _ _)ᴴ = - (kron _ _ + kron _ _)
  rw [conjTranspose_add, kron_conjTranspose, kron_conjTranspose, o3_skew, o3_skew, kron_neg_left,
    kron_neg_right, conjTranspose_one, conjTranspose_one, neg_add]

theorem o3_tensor_isRep (r₁ r₂ : O3) : IsRep ((O3.rep r₁).tensorProduct (O3.rep r₂)) :=
  isRep_tensorProduct (r₁ := O3.rep r₁) (r₂ := O3.rep r₂) rfl (o3_isRep r₁) (o3_isRep r₂)

theorem o3_tensor_H (r₁ r₂ : O3) (b : Fin 1) : ((O3.rep r₁).tensorProduct (O3.rep r₂)).H b =
    ((r₁.p * r₂.p : ℤ) : ℂ) • 1 := kron_smul_one r₁.p r₂.p

theorem o3_gap (r₁ r₂ r₃ : O3) : Gap (1 / 10 ^ 4) (icobMatrix (O3.rep r₃).allGens
    ((O3.rep r₁).tensorProduct (O3.rep r₂)).allGens) :=
  CGSpace.gap_su2 (r₃ := O3.rep r₃) (R := (O3.rep r₁).tensorProduct (O3.rep r₂))
    (CGSpace.su2Mats_of_isRep (r := O3.rep r₃) rfl (o3_isRep r₃))
    (CGSpace.su2Mats_of_isRep rfl (o3_tensor_isRep r₁ r₂))
    (o3_skew r₃) (o3_tensor_skew r₁ r₂) (fun _ => r₃.p) (fun _ => r₁.p * r₂.p) (fun b => rfl)
    (o3_tensor_H r₁ r₂) (by norm_num)

/-- C78, `O3`: with the parity as a discrete generator. -/
theorem C78_o3 (he : EighSpec eigh) (r₁ r₂ r₃ : O3) (hd : r₃.dim * (r₁.dim * r₂.dim) < 10 ^ 8) :
    ∃ L G, O3.cg r₁ r₂ r₃ = .ok L ∧
      Rep.clebschGordan eigh (O3.rep r₁) (O3.rep r₂) (O3.rep r₃) = .ok G ∧ SameUpToSign L G := by
  have key := recompute_table (T := O3.table) he TBasis.o3_goodTable (Nat.succ_ne_zero _) r₁ r₂ r₃
      (TBasis.o3_goodTable.pair r₁ r₃).algebra hd (o3_gap r₁ r₂ r₃)
  by_cases hm : r₃ ∈ O3.mul r₁ r₂
  · obtain ⟨h1, h2⟩ := O3.mem_mul.1 hm
    obtain ⟨G, hG, hs⟩ := key [SO3.ctR r₁.l r₂.l r₃.l]
      (fun _ => ⟨_, rfl, O3.table_cg h1 h2, fun z => (SO3.ctR_orth h1 h1 z z).trans (if_pos ⟨rfl, rfl⟩)⟩)
      (fun hk => absurd hm hk)
    have e : O3.cg r₁ r₂ r₃ = .ok [SO3.ctR r₁.l r₂.l r₃.l] := by
      unfold O3.cg; rw [if_pos h2]; exact SO3.cg_eq (SO3.mem_double.2 h1)
    exact ⟨_, G, e, hG, hs⟩
  · obtain ⟨G, hG, hs⟩ := key [] (fun hk => absurd hk hm) (fun _ => rfl)
    have e : O3.cg r₁ r₂ r₃ = .ok [] := by
      unfold O3.cg
      split_ifs with hp
      · exact SO3.cg_eq_nil fun h => hm (O3.mem_mul.2 ⟨SO3.mem_double.1 h, hp⟩)
      · rfl
    exact ⟨_, G, e, hG, hs⟩

/-- C78, `SL2C`. -/
theorem C78_sl2c (he : EighSpec eigh) (r₁ r₂ r₃ : SL2C) (hd : r₃.dim * (r₁.dim * r₂.dim) < 10 ^ 8) :
    ∃ L G, SL2C.cg r₁ r₂ r₃ = .ok L ∧
      Rep.clebschGordan eigh (SL2C.rep r₁) (SL2C.rep r₂) (SL2C.rep r₃) = .ok G ∧ SameUpToSign L G := by
  have hT : IsRep ((SL2C.rep r₁).tensorProduct (SL2C.rep r₂)) :=
    isRep_tensorProduct (r₁ := SL2C.rep r₁) (r₂ := SL2C.rep r₂) rfl (SL2C.isRep r₁) (SL2C.isRep r₂)
  have hU : IsUnitaryRep ((SL2C.rep r₁).tensorProduct (SL2C.rep r₂)) :=
    unitary_tensorProduct ⟨fun a => a.elim0, SL2C.skew r₁⟩ ⟨fun a => a.elim0, SL2C.skew r₂⟩
  have gap : Gap (1 / 10 ^ 4) (icobMatrix (SL2C.rep r₃).allGens
      ((SL2C.rep r₁).tensorProduct (SL2C.rep r₂)).allGens) :=
    CGSpace.gap_sl2c rfl (SL2C.isRep r₃) rfl hT (SL2C.skew r₃) hU.2 (by norm_num)
  by_cases hm : r₃ ∈ SL2C.mulL r₁ r₂
  · obtain ⟨G, hG, hs⟩ := recompute_table (T := SL2C.table) he TBasis.sl2c_goodTable (by norm_num) r₁ r₂ r₃
      (TBasis.sl2c_goodTable.pair r₁ r₃).algebra hd gap [SL2C.ctS r₁ r₂ r₃]
      (fun _ => ⟨_, rfl, SL2C.table_cg hm, fun z => (SL2C.ctS_orth hm hm z z).trans (if_pos ⟨rfl, rfl⟩)⟩)
      (fun hk => absurd (by rw [SL2C.table_prod]; exact hm) hk)
    exact ⟨_, G, SL2C.cg_eq hm, hG, hs⟩
  · obtain ⟨G, hG, hs⟩ := recompute_table (T := SL2C.table) he TBasis.sl2c_goodTable (by norm_num) r₁ r₂ r₃
      (TBasis.sl2c_goodTable.pair r₁ r₃).algebra hd gap []
      (fun hk => absurd (by rw [SL2C.table_prod] at hk; exact hk) hm) (fun _ => rfl)
    exact ⟨_, G, SL2C.cg_eq_nil hm, hG, hs⟩

/-- C78: every equivariant array between three irreps of a table is a combination of the tabulated
ones, which are independent; there is none if the third irrep is not in the product. -/
theorem C78_space (hT : GoodTable T) (i j k : T.Ir) :
    (k ∈ T.prod i j → cgSpace (T.rep i) (T.rep j) (T.rep k) = Submodule.span ℂ {C | C ∈ T.cg i j k} ∧
      Module.finrank ℂ (cgSpace (T.rep i) (T.rep j) (T.rep k)) = (T.cg i j k).length) ∧
    (k ∉ T.prod i j → cgSpace (T.rep i) (T.rep j) (T.rep k) = ⊥) :=
  ⟨fun hk => ⟨CGSpace.span_eq hT.schur hT.equi (hT.pair i j).complete hk,
    CGSpace.finrank_cg hT.schur hT.equi (hT.pair i j).complete hk (hT.pos k)⟩,
   fun hk => (Submodule.eq_bot_iff _).2 fun D hD =>
    CGSpace.eq_zero hT.schur hT.equi (hT.pair i j).complete hk hD⟩

/-- C78: the tables of the repository meet the hypothesis of `C78_space`. -/
theorem C78_tables : GoodTable SU2.table ∧ GoodTable SO3.table ∧ GoodTable O3.table ∧
    GoodTable Z2.table ∧ GoodTable SL2C.table :=
  ⟨TBasis.su2_goodTable, TBasis.so3_goodTable, TBasis.o3_goodTable, TBasis.z2_goodTable,
    TBasis.sl2c_goodTable⟩

/-- C78: selection rule of `SU2`: as many independent equivariant arrays as the triangle rule says. -/
theorem C78_selection (j₁ j₂ j₃ : ℕ) :
    Module.finrank ℂ (cgSpace (SU2.rep j₁) (SU2.rep j₂) (SU2.rep j₃)) =
      if j₁ ≤ j₂ + j₃ ∧ j₂ ≤ j₁ + j₃ ∧ j₃ ≤ j₁ + j₂ ∧ 2 ∣ j₁ + j₂ + j₃ then 1 else 0 := by
  have h := C78_space TBasis.su2_goodTable j₁ j₂ j₃
  have ht : (j₁ ≤ j₂ + j₃ ∧ j₂ ≤ j₁ + j₃ ∧ j₃ ≤ j₁ + j₂ ∧ 2 ∣ j₁ + j₂ + j₃) ↔ j₃ ∈ SU2.mulL j₁ j₂ := by
    rw [triangle_iff]
    unfold Triangle
    omega
  by_cases hm : j₃ ∈ SU2.mulL j₁ j₂
  · rw [if_pos (ht.2 hm)]
    refine (h.1 (by rw [SU2.table_prod]; exact hm)).2.trans ?_
    rw [SU2.table_cg hm]
    rfl
  · rw [if_neg fun h' => hm (ht.1 h')]
    have e := h.2 (by rw [SU2.table_prod]; exact hm)
    have e' : cgSpace (SU2.rep j₁) (SU2.rep j₂) (SU2.rep j₃) = ⊥ := e
    rw [e', finrank_bot]

/-- The hypotheses are met with the exact eigenvalue decomposition and spins 1/2, 1/2 and 1, which
satisfy the triangle rule: one array is found. -/
example : ∃ C G, SU2.cg 1 1 2 = .ok [C] ∧
    Rep.clebschGordan exactEigh (SU2.rep 1) (SU2.rep 1) (SU2.rep 2) = .ok G ∧ G.length = 1 ∧
    SameUpToSign [C] G := by
  obtain ⟨L, G, hL, hG, hs⟩ := C78_su2 exactEigh_spec 1 1 2 (by norm_num)
  rw [SU2.cg_eq_ct (triangle_iff.2 (by unfold Triangle; omega))] at hL
  obtain rfl := Except.ok.inj hL
  refine ⟨_, G, SU2.cg_eq_ct (triangle_iff.2 (by unfold Triangle; omega)), hG, ?_, hs⟩
  obtain ⟨s, _, rfl, _⟩ := hs
  rfl

/-- No array is found for spins 1/2, 1/2 and 1/2. -/
example : Rep.clebschGordan exactEigh (SU2.rep 1) (SU2.rep 1) (SU2.rep 1) = .ok [] := by
  obtain ⟨L, G, hL, hG, hs⟩ := C78_su2 exactEigh_spec 1 1 1 (by norm_num)
  rw [SU2.cg_eq_nil fun h => by have := triangle_iff.1 h; unfold Triangle at this; omega] at hL
  obtain rfl := Except.ok.inj hL
  obtain ⟨s, _, rfl, _⟩ := hs
  exact hG

example : EighSpec exactEigh ∧ (⟨1, 1⟩ : SL2C).dim * ((⟨1, 0⟩ : SL2C).dim * (⟨0, 1⟩ : SL2C).dim) < 10 ^ 8 ∧
    (⟨1, -1⟩ : O3).dim * ((⟨1, -1⟩ : O3).dim * (⟨1, 1⟩ : O3).dim) < 10 ^ 8 :=
  ⟨exactEigh_spec, by norm_num [SL2C.dim], by norm_num [O3.dim, SO3.dim]⟩

end LieNN.Props

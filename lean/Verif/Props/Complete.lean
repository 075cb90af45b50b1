import Verif.Proofs.CompleteAux
/-!
# C92: the tables of irreps are complete

Every irreducible representation is equivalent to the representation of exactly one label.
-/
namespace LieNN.Props

open Matrix NormedSpace LieNN LieNN.Spec LieNN.Highest

variable {d : ℕ}

/-! ## `SU2` -/

/-- C92: an irreducible representation with the structure constants of `SU2` is equivalent to exactly one `SU2(j)`. -/
theorem C92_su2 {r : Rep 3 0 d} (hA : r.A = SU2.algebra) (hr : IsRep r) (hirr : IrreducibleFamily r.X) :
    ∃! j, Equivalent r.X (SU2.rep j).X := by
  obtain ⟨j, hj⟩ := su2_complete (CGSpace.su2Mats_of_isRep hA hr) hirr
  refine ⟨j, hj, fun k hk => ?_⟩
  have h : SU2.dim j = SU2.dim k := (hj.symm.trans hk).dim_eq
  unfold SU2.dim at h
  omega

/-- C92: the label is the dimension minus one. -/
theorem C92_su2_dim {r : Rep 3 0 d} (hA : r.A = SU2.algebra) (hr : IsRep r) (hirr : IrreducibleFamily r.X) (j : ℕ) :
    Equivalent r.X (SU2.rep j).X ↔ d = j + 1 := by
  refine ⟨fun h => h.dim_eq, fun h => ?_⟩
  obtain ⟨k, hk, -⟩ := C92_su2 hA hr hirr
  have : d = k + 1 := hk.dim_eq
  obtain rfl : k = j := by omega
  exact hk

/-! ## `SL2C` -/

/-- C92: an irreducible representation with the structure constants of `SL2C` is equivalent to exactly one `SL2C(l, k)`. -/
theorem C92_sl2c {r : Rep 6 0 d} (hA : r.A = SL2C.algebra) (hr : IsRep r) (hirr : IrreducibleFamily r.X) :
    ∃! s : SL2C, Equivalent r.X (SL2C.rep s).X := by
  obtain ⟨s, hs⟩ := sl2c_complete hA hr hirr
  refine ⟨s, hs, fun t ht => ?_⟩
  by_contra hne
  exact (hs.symm.trans ht).intertwiner (C64_irreducible s).1 (C64_inequivalent (Ne.symm hne))

/-! ## `SO3` -/

/-- `ρ` is what `exp_map` computes on rotations. -/
def ComputesSO3 (r : Rep 3 0 d) (ρ : specialOrthogonalGroup (Fin 3) ℝ →* Matrix (Fin d) (Fin d) ℂ) : Prop :=
  ∀ (c : Fin 3 → ℝ) (R : specialOrthogonalGroup (Fin 3) ℝ),
    (SO3.rep 1).expMap (fun a => (c a : ℂ)) Fin.elim0 = .ok (R.1.map Complex.ofReal) →
    r.expMap (fun a => (c a : ℂ)) Fin.elim0 = .ok (ρ R)

/-- Where `exp_map` of `SO3(1)` is one, that of `r` is one. -/
def KernelSO3 (r : Rep 3 0 d) : Prop :=
  ∀ c : Fin 3 → ℝ, (SO3.rep 1).expMap (fun a => (c a : ℂ)) Fin.elim0 = .ok 1 → r.expMap (fun a => (c a : ℂ)) Fin.elim0 = .ok 1

theorem ComputesSO3.kernel {r : Rep 3 0 d} {ρ : specialOrthogonalGroup (Fin 3) ℝ →* Matrix (Fin d) (Fin d) ℂ} (hρ : ComputesSO3 r ρ) :
    KernelSO3 r := by
  intro c h1
  have h2 := hρ c 1 (by
    rw [h1]
    congr 1
    exact (map_one (ofRealMat 3)).symm)
  rwa [map_one] at h2

theorem exists_so3_label {r : Rep 3 0 d} (hA : r.A = SU2.algebra) (hr : IsRep r) (hirr : IrreducibleFamily r.X) (hk : KernelSO3 r) :
    ∃ l, Equivalent r.X (SO3.rep l).X := by
  obtain ⟨j, hj, -⟩ := C92_su2 hA hr hirr
  have he : Even j := by
    rcases Nat.eq_zero_or_pos j with h0 | hpos
    · rw [h0]; exact Even.zero
    have hm : (-1 : Matrix (Fin 2) (Fin 2) ℂ) ∈ specialUnitaryGroup (Fin 2) ℂ := by
      rw [mem_specialUnitaryGroup_iff, mem_unitaryGroup_iff, star_neg, star_one, neg_mul_neg, Matrix.mul_one, det_neg, det_one]
      exact ⟨rfl, by norm_num⟩
    obtain ⟨c, hc⟩ := (C90_su2_group _).1 hm
    have h1 : (SO3.rep 1).expMap (fun a => (c a : ℂ)) Fin.elim0 = .ok 1 := (C90_so3_kernel le_rfl c).2.2 (.inr hc)
    have h3 : (SU2.rep j).expMap (fun a => (c a : ℂ)) Fin.elim0 = .ok 1 := exp_one_of_equivalent hj (hk c h1)
    rcases (C90_su2_kernel hpos c).1 h3 with h4 | h4
    · rw [hc] at h4
      have := congrFun (congrFun (Except.ok.inj h4) 0) 0
      norm_num at this
    · exact h4.1
  obtain ⟨l, rfl⟩ := he.exists_two_nsmul
  rw [smul_eq_mul] at hj
  exact ⟨l, hj.trans (so3_equivalent l).symm⟩

/-- C92: an irreducible representation with the structure constants of `SO3` whose `exp_map` is a homomorphism from the
rotations is equivalent to exactly one `SO3(l)`. -/
theorem C92_so3 {r : Rep 3 0 d} (hA : r.A = SU2.algebra) (hr : IsRep r) (hirr : IrreducibleFamily r.X)
    {ρ : specialOrthogonalGroup (Fin 3) ℝ →* Matrix (Fin d) (Fin d) ℂ} (hρ : ComputesSO3 r ρ) :
    ∃! l, Equivalent r.X (SO3.rep l).X := by
  obtain ⟨l, hl⟩ := exists_so3_label hA hr hirr hρ.kernel
  refine ⟨l, hl, fun k hk => ?_⟩
  have h1 : d = 2 * l + 1 := hl.dim_eq
  have h2 : d = 2 * k + 1 := hk.dim_eq
  omega

/-- C92: without the homomorphism it fails: `SU2(1)` has the structure constants and is irreducible, and no `SO3(l)` is
equivalent to it. -/
theorem C92_so3_spin : (SU2.rep 1).A = SU2.algebra ∧ IsRep (SU2.rep 1) ∧ IrreducibleFamily (SU2.rep 1).X ∧
    ∀ l, ¬ Equivalent (SU2.rep 1).X (SO3.rep l).X := by
  refine ⟨rfl, SU2.isRep 1, (C36_irreducible 1).2, fun l h => ?_⟩
  have : 1 + 1 = 2 * l + 1 := h.dim_eq
  omega

/-! ## `O3` -/

/-- `ρ` is what `exp_map` computes on orthogonal matrices. -/
def ComputesO3 (r : Rep 3 1 d) (ρ : orthogonalGroup (Fin 3) ℝ →* Matrix (Fin d) (Fin d) ℂ) : Prop :=
  ∀ (c : Fin 3 → ℝ) (k : Fin 1 → ℤ) (R : orthogonalGroup (Fin 3) ℝ),
    (O3.rep ⟨1, -1⟩).expMap (fun a => (c a : ℂ)) k = .ok (R.1.map Complex.ofReal) →
    r.expMap (fun a => (c a : ℂ)) k = .ok (ρ R)

/-- What `ρ` is on rotations and on rotations times the inversion. -/
theorem ComputesO3.at {r : Rep 3 1 d} {ρ : orthogonalGroup (Fin 3) ℝ →* Matrix (Fin d) (Fin d) ℂ} (hρ : ComputesO3 r ρ)
    (c : Fin 3 → ℝ) (R : orthogonalGroup (Fin 3) ℝ)
    (h : (SO3.rep 1).expMap (fun a => (c a : ℂ)) Fin.elim0 = .ok (R.1.map Complex.ofReal)) :
    ρ R = exp (∑ a, (c a : ℂ) • r.X a) ∧ ρ (-R) = r.H 0 * exp (∑ a, (c a : ℂ) • r.X a) := by
  constructor
  · obtain ⟨S, h1, h2⟩ := C38_exp_map ⟨1, -1⟩ (Or.inr rfl) (fun a => (c a : ℂ)) 0
    obtain rfl : S = R.1.map Complex.ofReal := Except.ok.inj (h1.symm.trans h)
    rw [zpow_zero, one_smul] at h2
    exact (expMap_one_gen (hρ c (fun _ => 0) R h2)).1 rfl
  · obtain ⟨S, h1, h2⟩ := C38_exp_map ⟨1, -1⟩ (Or.inr rfl) (fun a => (c a : ℂ)) 1
    obtain rfl : S = R.1.map Complex.ofReal := Except.ok.inj (h1.symm.trans h)
    refine (expMap_one_gen (hρ c (fun _ => 1) (-R) (h2.trans ?_))).2 rfl
    rw [zpow_one]
    congr 1
    ext i j
    change ((-1 : ℤ) : ℂ) * ((R.1 i j : ℝ) : ℂ) = ((-(R.1 i j) : ℝ) : ℂ)
    push_cast
    ring

theorem ComputesO3.inversion {r : Rep 3 1 d} {ρ : orthogonalGroup (Fin 3) ℝ →* Matrix (Fin d) (Fin d) ℂ} (hρ : ComputesO3 r ρ) :
    r.H 0 = ρ (-1) := by
  have h1 : (SO3.rep 1).expMap (fun a => ((0 : Fin 3 → ℝ) a : ℂ)) Fin.elim0 =
      .ok ((1 : orthogonalGroup (Fin 3) ℝ).1.map Complex.ofReal) := by
    rw [Rep.expMap_ok _ _ _ (fun a => a.elim0)]
    congr 1
    refine Eq.trans ?_ (map_one (ofRealMat 3)).symm
    simp [Rep.discreteVal]
  have h2 := (ComputesO3.at hρ 0 1 h1).2
  rw [h2]
  simp

theorem ComputesO3.sq {r : Rep 3 1 d} {ρ : orthogonalGroup (Fin 3) ℝ →* Matrix (Fin d) (Fin d) ℂ} (hρ : ComputesO3 r ρ) : r.H 0 * r.H 0 = 1 := by
  rw [hρ.inversion, ← map_mul, neg_mul_neg, one_mul, map_one]

theorem ComputesO3.comm {r : Rep 3 1 d} {ρ : orthogonalGroup (Fin 3) ℝ →* Matrix (Fin d) (Fin d) ℂ} (hρ : ComputesO3 r ρ)
    (a : Fin 3) : r.H 0 * r.X a = r.X a * r.H 0 := by
  refine commute_of_exp fun t => ?_
  obtain ⟨R, hR, e⟩ := so3_rotation 1 (Rep.expMap_ok (SO3.rep 1) (fun b => ((Pi.single a t : Fin 3 → ℝ) b : ℂ)) Fin.elim0
    (fun a => a.elim0))
  have hO : R ∈ orthogonalGroup (Fin 3) ℝ := (mem_specialOrthogonalGroup_iff.1 hR).1
  have h3 := (ComputesO3.at hρ (Pi.single a t) ⟨R, hO⟩ (by
    rw [Rep.expMap_ok _ _ _ (fun a => a.elim0)]
    exact congrArg Except.ok e.symm)).1
  have h4 : ∑ b, ((Pi.single a t : Fin 3 → ℝ) b : ℂ) • r.X b = (t : ℂ) • r.X a := by
    rw [Finset.sum_eq_single a]
    · rw [Pi.single_eq_same]
    · intro b _ hb
      rw [Pi.single_eq_of_ne hb, Complex.ofReal_zero, zero_smul]
    · simp
  rw [h4] at h3
  rw [← h3, hρ.inversion, ← map_mul, ← map_mul, neg_one_mul, mul_neg_one]

/-- The rotations among the orthogonal matrices. -/
theorem ComputesO3.rotations {r : Rep 3 1 d} {ρ : orthogonalGroup (Fin 3) ℝ →* Matrix (Fin d) (Fin d) ℂ} (hρ : ComputesO3 r ρ) :
    ∃ σ, ComputesSO3 (⟨r.A, r.X, Fin.elim0⟩ : Rep 3 0 d) σ := by
  let σ : specialOrthogonalGroup (Fin 3) ℝ →* Matrix (Fin d) (Fin d) ℂ :=
    { toFun := fun R => ρ ⟨R.1, (mem_specialOrthogonalGroup_iff.1 R.2).1⟩
      map_one' := map_one ρ
      map_mul' := fun R S => map_mul ρ ⟨R.1, (mem_specialOrthogonalGroup_iff.1 R.2).1⟩ ⟨S.1, (mem_specialOrthogonalGroup_iff.1 S.2).1⟩ }
  refine ⟨σ, ?_⟩
  intro c R h
  rw [Rep.expMap_ok _ _ _ (fun a => a.elim0)]
  refine congrArg Except.ok (Eq.trans ?_ (ComputesO3.at hρ c ⟨R.1, (mem_specialOrthogonalGroup_iff.1 R.2).1⟩ h).1.symm)
  simp [Rep.discreteVal]

/-- C92: an irreducible representation with the structure constants of `O3` whose `exp_map` is a homomorphism from the
orthogonal matrices is equivalent to exactly one `O3(l, p)`. -/
theorem C92_o3 {r : Rep 3 1 d} (hA : r.A = SU2.algebra) (hr : IsRep r) (hirr : IrreducibleFamily r.allGens)
    {ρ : orthogonalGroup (Fin 3) ℝ →* Matrix (Fin d) (Fin d) ℂ} (hρ : ComputesO3 r ρ) :
    ∃! s : O3, (s.p = 1 ∨ s.p = -1) ∧ Equivalent r.allGens (O3.rep s).allGens := by
  obtain ⟨p, hp, hH⟩ := scalar_of_square hρ.sq hρ.comm hirr
  obtain ⟨σ, hσ⟩ := hρ.rotations
  obtain ⟨l, hl, hu⟩ := C92_so3 (r := (⟨r.A, r.X, Fin.elim0⟩ : Rep 3 0 d)) hA hr (irreducible_of_scalar hH hirr) hσ
  refine ⟨⟨l, p⟩, ⟨hp, equivalent_withScalar (s := O3.rep ⟨l, p⟩) hH rfl hl⟩, ?_⟩
  rintro ⟨k, q⟩ ⟨-, hE⟩
  obtain rfl := hu k (equivalent_left (r := r) (s := O3.rep ⟨k, q⟩) hE)
  obtain rfl := sign_unique hirr.1 hH rfl hE
  rfl

/-! ## `Z2` -/

/-- C92: an irreducible representation of the group with two elements is equivalent to exactly one `Z2(p)`. -/
theorem C92_z2 {r : Rep 0 1 d} (hH : r.H 0 * r.H 0 = 1) (hirr : IrreducibleFamily r.allGens) :
    ∃! p : ℤ, (p = 1 ∨ p = -1) ∧ Equivalent r.allGens (Z2.rep p).allGens := by
  obtain ⟨p, hp, hs⟩ := scalar_of_square hH (fun a => a.elim0) hirr
  have hX := irreducible_of_scalar hs hirr
  have hd : d = 1 := by
    by_contra hne
    have h2 : 1 < d := by have := hX.1; omega
    rcases hX.2 (Submodule.span ℂ {Pi.single ⟨0, hX.1⟩ 1}) (fun a => a.elim0) with h | h
    · rw [Submodule.span_singleton_eq_bot] at h
      have := congrFun h ⟨0, hX.1⟩
      simp at this
    · have h3 : (Pi.single ⟨1, h2⟩ 1 : Fin d → ℂ) ∈ Submodule.span ℂ {(Pi.single ⟨0, hX.1⟩ 1 : Fin d → ℂ)} := by
        rw [h]; trivial
      obtain ⟨z, hz⟩ := Submodule.mem_span_singleton.1 h3
      have := congrFun hz ⟨1, h2⟩
      simp at this
  subst hd
  refine ⟨p, ⟨hp, equivalent_withScalar hs rfl ⟨1, 1, Matrix.mul_one _, Matrix.mul_one _, fun a => a.elim0⟩⟩, ?_⟩
  rintro q ⟨-, hE⟩
  exact (sign_unique hirr.1 hs rfl hE).symm

/-! ## `SO13` -/

theorem so13_label_even {r : Rep 6 0 d} (hirr : IrreducibleFamily r.X) (hk : r.expMap (fun a => (SO13.turn a : ℂ)) Fin.elim0 = .ok 1)
    {s : SL2C} (h1 : Equivalent r.X (SO13.X₀ s)) : Even (s.l + s.k) := by
  have hdim : d = s.dim := h1.dim_eq
  by_contra ho
  rw [Nat.not_even_iff_odd] at ho
  have h4 := exp_one_of_equivalent (r := r) (s := SO13.rep₀ s) h1 hk
  rw [SO13.turn_exp, ho.neg_one_pow] at h4
  have := congrFun (congrFun (Except.ok.inj h4) ⟨0, hdim ▸ hirr.1⟩) ⟨0, hdim ▸ hirr.1⟩
  norm_num at this

theorem turn_one {r : Rep 6 0 d} {ρ : lorentz →* Matrix (Fin d) (Fin d) ℂ} (hρ : Computes13 r.X ρ) :
    r.expMap (fun a => (SO13.turn a : ℂ)) Fin.elim0 = .ok 1 := by
  have h2 : SO13.fourVector.expMap (fun a => (SO13.turn a : ℂ)) Fin.elim0 = .ok ((1 : lorentz).1.map Complex.ofReal) := by
    rw [SO13.turn_vector]
    congr 1
    exact (map_one (ofRealMat 4)).symm
  have h3 := hρ _ _ h2
  rwa [map_one, expMap_zero] at h3

theorem so13_make {s : SL2C} (hev : Even (s.l + s.k)) : SO13.make s.l s.k = .ok (s.l, s.k) := by
  unfold SO13.make
  have h5 : ((s.l : ℤ) + s.k) % 2 = 0 := by
    have := Nat.even_iff.1 hev
    omega
  simp [pyAssert, h5, bind, Except.bind, pure, Except.pure]

/-- C92: an irreducible representation with the structure constants of `SO13` whose `exp_map` is a homomorphism from the
restricted Lorentz group is equivalent to exactly one accepted `SO13(l, k)`. -/
theorem C92_so13 {eigh : EighFn} {sqrtm : {d : ℕ} → Matrix (Fin d) (Fin d) ℂ → Matrix (Fin d) (Fin d) ℂ}
    (he : EighSpec eigh) (hs : SqrtmInvSpec sqrtm) {r : Rep 6 0 d} (hd : d < 10 ^ 4) (hA : r.A = SO13.algebra) (hr : IsRep r)
    (hirr : IrreducibleFamily r.X) {ρ : lorentz →* Matrix (Fin d) (Fin d) ℂ} (hρ : Computes13 r.X ρ) :
    ∃! s : SL2C, SO13.make s.l s.k = .ok (s.l, s.k) ∧
      ∃ X, SO13.gens eigh (1 / 10 ^ 4) sqrtm s = .ok X ∧ Equivalent r.X X := by
  obtain ⟨s, h1⟩ := so13_complete hA hr hirr
  have hdim : d = s.dim := h1.dim_eq
  have hev := so13_label_even hirr (turn_one hρ) h1
  obtain ⟨X, hX, -, W, hW⟩ := SO13.gens_twist he hs s (hdim ▸ hd)
  refine ⟨s, ⟨so13_make hev, X, hX, h1.trans (twist_equivalent hW)⟩, ?_⟩
  · rintro t ⟨-, X', hX', h6⟩
    have hdt : d = t.dim := h6.dim_eq
    obtain ⟨X'', hX'', -, W', hW'⟩ := SO13.gens_twist he hs t (hdt ▸ hd)
    rw [hX'] at hX''
    cases hX''
    exact (X₀_inequivalent (h1.symm.trans (h6.trans (twist_equivalent hW').symm))).symm

/-! ## `SUN` -/

/-- C92: an irreducible representation with the structure constants that `SUN.algebra` computes is equivalent to exactly one
accepted label. -/
theorem C92_sun {n d₀ : ℕ} (h2 : 2 ≤ n) {r : Rep (n ^ 2 - 1) 0 d} {S₀ : List ℤ} (hm : SUN.make S₀ = .ok S₀) (hl : S₀.length = n)
    (hd : SUN.dim (SUN.defining n) = .ok (d₀ : ℤ))
    (pinv : Matrix (Fin (n ^ 2 - 1)) (Fin (d₀ * d₀)) ℂ → Matrix (Fin (d₀ * d₀)) (Fin (n ^ 2 - 1)) ℂ)
    (hpinv : PinvOK pinv (SUN.defining n))
    (hA : ∃ F, ∀ fuel ≥ F, SUN.sunAlgebra fuel d₀ (n ^ 2 - 1) pinv S₀ = some (.ok r.A)) (hr : IsRep r)
    (hirr : IrreducibleFamily r.X) :
    ∃! S, ∃ (e : ℕ) (s : Rep (n ^ 2 - 1) 0 e), SUN.IsLabel n S s ∧ Equivalent r.X s.X := by
  subst hl
  obtain ⟨A, ⟨F, hF⟩, -, hAe⟩ := C69_algebra hm h2 hd pinv hpinv
  obtain ⟨F', hF'⟩ := hA
  have : r.A = A := by
    have h1 := hF (max F F') (le_max_left _ _)
    rw [hF' _ (le_max_right _ _)] at h1
    exact Except.ok.inj (Option.some.inj h1)
  subst this
  obtain ⟨S, hS, hE⟩ := exists_label_of_irreducible h2 hAe hr hirr
  refine ⟨S, ⟨_, _, hS, hE⟩, ?_⟩
  rintro T ⟨e, s, hT, hE'⟩
  by_contra hne
  obtain ⟨L, hL, eL⟩ := hS.g
  obtain ⟨L', hL', eL'⟩ := hT.g
  have h3 := C72_inequivalent hS.m hT.m (hT.l.trans hS.l.symm) (by rw [hS.l]; exact h2) (Ne.symm hne) hS.d hT.d hL hL'
  have h4 := hE.symm.trans hE'
  rw [eL, eL'] at h4
  refine h4.intertwiner (hS.irreducible h2).1 ?_
  rw [← hS.l]
  exact h3

/-! ## Cases -/

/-- Case: the real matrices of `SO3(3)` meet the hypotheses and are equivalent to those of `SU2(6)`. -/
example : IrreducibleFamily (SO3.rep 3).X ∧ Equivalent (SO3.rep 3).X (SU2.rep 6).X := by
  have h := (so3_equivalent 3).symm.irreducible (C36_irreducible 6).2
  exact ⟨h, (C92_su2_dim rfl (SO3.isRep 3) h 6).2 rfl⟩

/-- Case: every label of `SL2C` is found back. -/
example (s : SL2C) : ∃! t : SL2C, Equivalent (SL2C.rep s).X (SL2C.rep t).X :=
  C92_sl2c rfl (SL2C.isRep s) (C64_irreducible s)

/-- Case: `SO3(2)` with its homomorphism. -/
example : ∃! l, Equivalent (SO3.rep 2).X (SO3.rep l).X := by
  obtain ⟨ρ, hρ, -⟩ := C90_so3 2
  exact C92_so3 rfl (SO3.isRep 2) ((so3_equivalent 2).symm.irreducible (C36_irreducible 4).2)
    (ρ := (ofRealMat _).comp ((specialOrthogonalGroup (Fin (SO3.dim 2)) ℝ).subtype.comp ρ)) hρ

/-- Case: `O3(2, -1)` with its homomorphism. -/
example : ∃! s : O3, (s.p = 1 ∨ s.p = -1) ∧ Equivalent (O3.rep ⟨2, -1⟩).allGens (O3.rep s).allGens := by
  obtain ⟨ρ, hρ, -⟩ := C90_o3 ⟨2, -1⟩ (.inr rfl)
  have h := (so3_equivalent 2).symm.irreducible (C36_irreducible 4).2
  refine C92_o3 rfl (SO3.isRep 2) ⟨h.1, fun W hW => h.2 W fun a w hw => ?_⟩
    (ρ := (ofRealMat _).comp ((orthogonalGroup (Fin (O3.dim ⟨2, -1⟩)) ℝ).subtype.comp ρ)) hρ
  have := hW (Fin.castAdd 1 a) w hw
  unfold Rep.allGens at this
  rwa [Fin.append_left] at this

/-- Case: the sign. -/
example : ∃! p : ℤ, (p = 1 ∨ p = -1) ∧ Equivalent (⟨fun i => i.elim0, fun i => i.elim0, fun _ => -1⟩ : Rep 0 1 1).allGens
    (Z2.rep p).allGens :=
  C92_z2 (by simp) ⟨one_pos, fun W _ => by
    by_cases h : W = ⊥
    · exact .inl h
    · obtain ⟨w, hw, h0⟩ := W.ne_bot_iff.1 h
      have hne : w 0 ≠ 0 := fun h => h0 (funext fun i => by rw [Subsingleton.elim i 0, h]; rfl)
      refine .inr (Submodule.eq_top_iff'.2 fun x => ?_)
      have : x = (x 0 / w 0) • w := funext fun i => by
        rw [Subsingleton.elim i 0, Pi.smul_apply, smul_eq_mul, div_mul_cancel₀ _ hne]
      rw [this]
      exact W.smul_mem _ hw⟩

/-- Case: the four vector is equivalent to exactly one label. -/
example : ∃ sqrtm : {d : ℕ} → Matrix (Fin d) (Fin d) ℂ → Matrix (Fin d) (Fin d) ℂ, SqrtmInvSpec sqrtm ∧
    ∃! s : SL2C, SO13.make s.l s.k = .ok (s.l, s.k) ∧
      ∃ X, SO13.gens exactEigh (1 / 10 ^ 4) sqrtm s = .ok X ∧ Equivalent SO13.fourVector.X X := by
  obtain ⟨sqrtm, hs⟩ := SO13.exists_sqrtm
  refine ⟨sqrtm, hs, C92_so13 exactEigh_spec hs (r := SO13.fourVector) (by norm_num) rfl C39_four_vector.1 ?_
    (ρ := (ofRealMat 4).comp lorentz.subtype) fun c L h => h⟩
  have h0 : IrreducibleFamily (SO13.X₀ ⟨1, 1⟩) := by
    have h1 := irreducible_scale (p := SO13.phase) (fun a h => by
      have := phase_cancel a
      rw [h, zero_mul] at this
      exact zero_ne_one this) (C64_irreducible ⟨1, 1⟩)
    convert h1 using 1
    funext a
    exact SO13.X₀_phase _ a
  exact Equivalent.irreducible ⟨_, _, SO13.vector_inv, mul_eq_one_comm.1 SO13.vector_inv, SO13.vector_inter⟩ h0

/-- Case: the octet of `SU(3)` meets the hypotheses. -/
example : ∃ (r : Rep (3 ^ 2 - 1) 0 8) (pinv : Matrix (Fin (3 ^ 2 - 1)) (Fin (3 * 3)) ℂ → Matrix (Fin (3 * 3)) (Fin (3 ^ 2 - 1)) ℂ),
    PinvOK pinv (SUN.defining 3) ∧ (∃ F, ∀ fuel ≥ F, SUN.sunAlgebra fuel 3 (3 ^ 2 - 1) pinv [2, 1, 0] = some (.ok r.A)) ∧
    IsRep r ∧ IrreducibleFamily r.X ∧ ∃! S, ∃ (e : ℕ) (s : Rep (3 ^ 2 - 1) 0 e), SUN.IsLabel 3 S s ∧ Equivalent r.X s.X := by
  have hd : SUN.dim (SUN.defining 3) = .ok ((3 : ℕ) : ℤ) := by decide +kernel
  obtain ⟨r₀, h0⟩ := sun_exists (n := 3) (by norm_num) (S := SUN.defining 3) (defining_make 3 (by norm_num)) rfl hd
  obtain ⟨r, h⟩ := sun_exists (n := 3) (by norm_num) (S := [2, 1, 0]) rfl rfl (d := 8) (by decide +kernel)
  obtain ⟨L, hL, -⟩ := h0.g
  have hi := C69_faithful h0.m ⟨1, by simp [SUN.defining], one_ne_zero⟩ hd hL
  obtain ⟨P, hP⟩ := exists_pinv hi
  have hp : PinvOK (fun _ => P) (SUN.defining 3) := fun L' hL' => by rw [hL] at hL'; cases hL'; exact hP
  obtain ⟨A, hA, -, hAe⟩ := C69_algebra (S := [2, 1, 0]) rfl (by norm_num) hd (fun _ => P) hp
  have hrep := h.isRep (by norm_num) hAe
  have hirr := h.irreducible (by norm_num)
  exact ⟨⟨A, r.X, r.H⟩, fun _ => P, hp, hA, hrep, hirr, C92_sun (by norm_num) rfl rfl hd (fun _ => P) hp hA hrep hirr⟩

end LieNN.Props

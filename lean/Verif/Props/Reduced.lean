import Verif.Proofs.ReducedExamples
import Verif.Proofs.RepOps
/-!
# C33-C35: `MulIrrep`, `ReducedRep` and the overloads of `tensor_product`
-/
namespace LieNN.Props

open Matrix LieNN LieNN.Spec

variable {n h : ℕ} {T : Table n h}

/-! ## C33 -/

/-- C33: a `MulIrrep` of multiplicity `mul ≥ 1` acts as `mul` diagonal copies of its irrep. -/
theorem C33_mulirrep (m : MulIr T) (hm : m.mul ≠ 0) :
    ∃ R : Rep n h (m.mul * T.dim m.ir), IsCopies m.mul (T.rep m.ir) R ∧
      m.gens (fun ir => (T.rep ir).X) = .ok (List.ofFn fun a => ⟨_, _, R.X a⟩) ∧
      m.gens (fun ir => (T.rep ir).H) = .ok (List.ofFn fun a => ⟨_, _, R.H a⟩) := by
  refine ⟨copies m.mul (T.rep m.ir), isCopies_iff.2 rfl, ?_, ?_⟩
  · rcases Nat.eq_zero_or_pos n with h0 | h0
    · subst h0
      simp [MulIr.gens]
    · rw [MulIr.gens_ok (by omega) hm, List.ofFn_eq_map]
      rfl
  · rcases Nat.eq_zero_or_pos h with h0 | h0
    · subst h0
      simp [MulIr.gens]
    · rw [MulIr.gens_ok (by omega) hm, List.ofFn_eq_map]
      rfl

/-- C33: a `ReducedRep` acts as `Q (⊕ blocks) Q⁻¹`, on a space whose dimension is the sum of the
`mul * dim`. -/
theorem C33_reduced_rep (r : ReducedRep T) (hn : n ≠ 0) (hne : r.irreps ≠ [])
    (hmul : ∀ m ∈ r.irreps, m.mul ≠ 0)
    (hQ : ∀ Q ∈ r.Q, ∃ q : Matrix (Fin (offset r.irreps)) (Fin (offset r.irreps)) ℂ,
      Q = ⟨_, _, q⟩ ∧ IsUnit q) :
    ∃ R : Rep n h (offset r.irreps), Acts r R ∧
    ∃ q : Matrix (Fin (offset r.irreps)) (Fin (offset r.irreps)) ℂ, IsUnit q ∧
      (r.Q = none ∧ q = 1 ∨ r.Q = some ⟨_, _, q⟩) ∧
      (∀ a, IsBlockDiag r.irreps (fun ir => (T.rep ir).X a) ⟨_, _, q⁻¹ * R.X a * q⟩) ∧
      (∀ a, IsBlockDiag r.irreps (fun ir => (T.rep ir).H a) ⟨_, _, q⁻¹ * R.H a * q⟩) := by
  rw [offset_eq] at *
  obtain ⟨q, hq, hu, hcase⟩ : ∃ q : Matrix (Fin (dimL r.irreps)) (Fin (dimL r.irreps)) ℂ,
      r.q = .ok q ∧ IsUnit q ∧ (r.Q = none ∧ q = 1 ∨ r.Q = some ⟨_, _, q⟩) := by
    unfold ReducedRep.q
    cases hr : r.Q with
    | none => exact ⟨1, rfl, isUnit_one, Or.inl ⟨rfl, rfl⟩⟩
    | some Q =>
      obtain ⟨q, rfl, hu⟩ := hQ Q (by rw [hr]; rfl)
      exact ⟨q, SMat.view_mk q, hu, Or.inr rfl⟩
  have hu' := (isUnit_iff_isUnit_det q).1 hu
  have key (Y : T.Mats) : q⁻¹ * (q * diagMat Y r.irreps * q⁻¹) * q = diagMat Y r.irreps := by
    rw [Matrix.mul_assoc q, ← Matrix.mul_assoc q⁻¹, nonsing_inv_mul _ hu', Matrix.one_mul,
      Matrix.mul_assoc, nonsing_inv_mul _ hu', Matrix.mul_one]
  refine ⟨blockRep r.A r.irreps q, acts_of hn hne hmul hq hu, q, hu, hcase, fun a => ?_,
    fun a => ?_⟩
  · have := isBlockDiag_diagMat (fun ir => (T.rep ir).X a) r.irreps
    rw [← key] at this
    exact this
  · have := isBlockDiag_diagMat (fun ir => (T.rep ir).H a) r.irreps
    rw [← key] at this
    exact this

/-- C33: if every irrep satisfies the algebra then so does the `ReducedRep`. -/
theorem C33_algebra (r : ReducedRep T) {d : ℕ} (R : Rep n h d) (hr : Acts r R)
    (hirr : ∀ m ∈ r.irreps, IsRep (T.rep m.ir) ∧ (T.rep m.ir).A = r.A) : IsRep R := by
  obtain ⟨hn, hne, hmul, q, hq, hu⟩ := acts_inv hr
  obtain ⟨e, rfl⟩ := acts_unique (acts_of hn hne hmul hq hu) hr
  subst e
  have hu' := (isUnit_iff_isUnit_det q).1 hu
  intro i j
  have key (l : List (MulIr T)) (hl : ∀ m ∈ l, IsRep (T.rep m.ir) ∧ (T.rep m.ir).A = r.A) :
      diagMat (fun ir => (T.rep ir).X i) l * diagMat (fun ir => (T.rep ir).X j) l -
      diagMat (fun ir => (T.rep ir).X j) l * diagMat (fun ir => (T.rep ir).X i) l =
      ∑ k, r.A i j k • diagMat (fun ir => (T.rep ir).X k) l := by
    induction l with
    | nil => ext x; exact Fin.elim0 x
    | cons m l ih =>
      have ih := ih fun m hm => hl m (by simp [hm])
      obtain ⟨h1, h2⟩ := hl m (by simp)
      have h1 := h1 i j
      rw [h2] at h1
      exact diag_step _ _ _ _ _ _ _ ih h1
  show q * diagMat (fun ir => (T.rep ir).X i) r.irreps * q⁻¹ *
      (q * diagMat (fun ir => (T.rep ir).X j) r.irreps * q⁻¹) -
      q * diagMat (fun ir => (T.rep ir).X j) r.irreps * q⁻¹ *
      (q * diagMat (fun ir => (T.rep ir).X i) r.irreps * q⁻¹) =
      ∑ k, r.A i j k • (q * diagMat (fun ir => (T.rep ir).X k) r.irreps * q⁻¹)
  have e (M N : Matrix (Fin (dimL r.irreps)) (Fin (dimL r.irreps)) ℂ) :
      q * M * q⁻¹ * (q * N * q⁻¹) = q * (M * N) * q⁻¹ := by
    rw [Matrix.mul_assoc, Matrix.mul_assoc q N, ← Matrix.mul_assoc q⁻¹, nonsing_inv_mul _ hu',
      Matrix.one_mul]
    simp only [Matrix.mul_assoc]
  rw [e, e, ← Matrix.sub_mul, ← Matrix.mul_sub, key _ hirr, Matrix.mul_sum, Matrix.sum_mul]
  refine Finset.sum_congr rfl fun k _ => ?_
  rw [Matrix.mul_smul, Matrix.smul_mul]

/-- C33: with multiplicity 0 `direct_sum()` is called without an argument: `TypeError`. -/
theorem C33_mul_zero (m : MulIr T) (hm : m.mul = 0) :
    (n ≠ 0 → m.gens (fun ir => (T.rep ir).X) = .error .typeError) ∧
    (h ≠ 0 → m.gens (fun ir => (T.rep ir).H) = .error .typeError) :=
  ⟨fun hn => MulIr.gens_zero hn hm _, fun hh => MulIr.gens_zero hh hm _⟩

/-- C33: the generators of a `ReducedRep` are not returned when there is no block, when some
multiplicity is 0, or when the Lie algebra has dimension 0. -/
theorem C33_raises (r : ReducedRep T)
    (hr : r.irreps = [] ∨ (∃ m ∈ r.irreps, m.mul = 0) ∨ n = 0) :
    ∀ Xs, r.continuousGenerators ≠ .ok Xs := by
  intro Xs hXs
  unfold ReducedRep.continuousGenerators at hXs
  obtain ⟨L, hL, hXs⟩ := bind_ok hXs
  rcases Nat.eq_zero_or_pos n with h0 | h0
  · subst h0
    change Except.ok [] = _ at hL
    simp only [Except.ok.injEq] at hL
    subst hL
    exact absurd hXs (by simp)
  · obtain ⟨X, hX⟩ := mapM_ok_inv hL 0 (by simpa using h0)
    obtain ⟨h1, h2⟩ := ReducedRep.genAt_ok_mul h0 hX
    rcases hr with hr | ⟨m, hm, hr⟩ | hr
    · exact h1 hr
    · exact h2 m hm hr
    · omega

/-- C33: `ReducedRep.X` raises `ValueError` (from `np.stack([])`) for finite groups, whatever the
blocks. -/
theorem C33_raises_lie_dim_zero {T : Table 0 h} (r : ReducedRep T) :
    r.continuousGenerators = .error .valueError := rfl

/-- C33: `ReducedRep.H` raises `IndexError` when there is no block. -/
theorem C33_raises_empty (r : ReducedRep T) (hr : r.irreps = []) :
    r.discreteGenerators = .error .indexError ∧
    (n ≠ 0 → r.continuousGenerators = .error .typeError) := by
  constructor
  · unfold ReducedRep.discreteGenerators
    rw [hr]
  · intro hn
    unfold ReducedRep.continuousGenerators
    obtain ⟨n, rfl⟩ := Nat.exists_eq_succ_of_ne_zero hn
    have : r.genAt (fun ir => (T.rep ir).X) 0 = .error .typeError := by
      unfold ReducedRep.genAt ReducedRep.sumAt
      rw [hr]
      rfl
    rw [List.range_succ_eq_map, List.mapM_cons, this]
    rfl

/-- C33: `from_irreps` accepts a list of blocks with the same structure constants and a square `Q`
of the right size, and keeps the three. -/
theorem C33_from_irreps (m : MulIr T) (l : List (MulIr T)) (Q : Option SMat)
    (hA : ∀ m' ∈ l, (T.rep m'.ir).A = (T.rep m.ir).A) :
    (∀ q ∈ Q, q.rows = offset (m :: l) ∧ q.cols = offset (m :: l)) →
    ReducedRep.fromIrreps m l Q = .ok ⟨(T.rep m.ir).A, m :: l, Q⟩ := by
  intro hQ
  unfold ReducedRep.fromIrreps
  rw [pyAssert_of (fun m' hm' => by
    rw [hA m' hm']
    exact fun _ _ _ => isClose_refl (by positivity) (by positivity) _), pyAssert_of (by
    intro q hq
    rw [← offset_eq]
    exact hQ q hq)]
  rfl

/-- C33: and refuses a `Q` of any other shape. -/
theorem C33_from_irreps_bad_shape (m : MulIr T) (l : List (MulIr T)) (Q : SMat)
    (hQ : Q.rows ≠ offset (m :: l) ∨ Q.cols ≠ offset (m :: l)) :
    ReducedRep.fromIrreps m l (some Q) = .error .assertionError := by
  have hno : ¬ ∀ q ∈ some Q, q.rows = dimL (m :: l) ∧ q.cols = dimL (m :: l) := by
    intro hall
    have := hall Q rfl
    rw [offset_eq] at hQ
    omega
  unfold ReducedRep.fromIrreps pyAssert
  rw [if_neg hno]
  split_ifs <;> rfl

/-- A non-trivial `Q` and two different blocks, one of them with multiplicity 2. -/
example : ∃ r : ReducedRep charT, r.irreps ≠ [] ∧ (∀ m ∈ r.irreps, m.mul ≠ 0) ∧
    (∀ Q ∈ r.Q, ∃ q : Matrix (Fin (offset r.irreps)) (Fin (offset r.irreps)) ℂ,
      Q = ⟨_, _, q⟩ ∧ IsUnit q) ∧ r.Q ≠ none ∧ offset r.irreps = 3 ∧
      ∀ m ∈ r.irreps, IsRep (charT.rep m.ir) ∧ (charT.rep m.ir).A = r.A := by
  refine ⟨⟨fun _ _ _ => 0, [⟨2, (1 : ℤ)⟩, ⟨1, (5 : ℤ)⟩],
    some ⟨3, 3, (2 : ℂ) • (1 : Matrix (Fin 3) (Fin 3) ℂ)⟩⟩, by simp, by simp, ?_, by simp, rfl, ?_⟩
  · intro Q hQ
    simp only [Option.mem_def, Option.some.injEq] at hQ
    subst hQ
    refine ⟨(2 : ℂ) • (1 : Matrix (Fin 3) (Fin 3) ℂ), rfl, ?_⟩
    show IsUnit ((2 : ℂ) • (1 : Matrix (Fin 3) (Fin 3) ℂ))
    rw [isUnit_iff_isUnit_det]
    simp
  · intro m _
    refine ⟨fun i j => ?_, rfl⟩
    obtain rfl : i = j := Subsingleton.elim _ _
    rw [sub_self]
    refine (Finset.sum_eq_zero fun k _ => ?_).symm
    show (0 : ℂ) • _ = _
    rw [zero_smul]

/-! ## C34 -/

/-- C34: `tensor_product` of two tabulated irreps whose Clebsch-Gordan coefficients are equivariant
and jointly invertible succeeds and acts as the tensor product of the two irreps. -/
theorem C34_tabulated (hn : n ≠ 0) (hT : Equivariant T) (i j : T.Ir) (hij : GoodPair i j) :
    ∃ r, tpTab i j = .ok r ∧ Acts r ((T.rep i).tensorProduct (T.rep j)) := by
  obtain ⟨r, hr⟩ := GoodPair.run hij
  exact ⟨r, hr, tpTab_acts hn hT hij.sols hr⟩

/-- C34: the same with multiplicities. -/
theorem C34_mulirrep (hn : n ≠ 0) (hT : Equivariant T) (a b : MulIr T) (ha : a.mul ≠ 0)
    (hb : b.mul ≠ 0) (hab : GoodPair a.ir b.ir) {Ra : Rep n h (a.mul * T.dim a.ir)}
    {Rb : Rep n h (b.mul * T.dim b.ir)} (hRa : IsCopies a.mul (T.rep a.ir) Ra)
    (hRb : IsCopies b.mul (T.rep b.ir) Rb) :
    ∃ r, tpMul a b = .ok r ∧ Acts r (Ra.tensorProduct Rb) := by
  rw [isCopies_iff] at hRa hRb
  subst hRa hRb
  obtain ⟨r, hr⟩ := tpMul_run (GoodPair.run hab)
  exact ⟨r, hr, tpMul_acts hn hT ha hb hab.sols hr⟩

/-- C34: `tensor_product(MulIrrep, TabulatedIrrep)` and `tensor_product(TabulatedIrrep, MulIrrep)`. -/
theorem C34_mulirrep_tabulated (hn : n ≠ 0) (hT : Equivariant T) (a : MulIr T) (j : T.Ir)
    (ha : a.mul ≠ 0) {Ra : Rep n h (a.mul * T.dim a.ir)} (hRa : IsCopies a.mul (T.rep a.ir) Ra) :
    (GoodPair a.ir j → ∃ Rj : Rep n h (1 * T.dim j), IsCopies 1 (T.rep j) Rj ∧
      ∃ r, tpMulTab a j = .ok r ∧ Acts r (Ra.tensorProduct Rj)) ∧
    (GoodPair j a.ir → ∃ Rj : Rep n h (1 * T.dim j), IsCopies 1 (T.rep j) Rj ∧
      ∃ r, tpTabMul j a = .ok r ∧ Acts r (Rj.tensorProduct Ra)) :=
  ⟨fun hg => ⟨copies 1 (T.rep j), isCopies_iff.2 rfl,
      C34_mulirrep hn hT a ⟨1, j⟩ ha one_ne_zero hg hRa (isCopies_iff.2 rfl)⟩,
    fun hg => ⟨copies 1 (T.rep j), isCopies_iff.2 rfl,
      C34_mulirrep hn hT ⟨1, j⟩ a one_ne_zero ha hg (isCopies_iff.2 rfl) hRa⟩⟩

/-- C34: `tensor_product` of two `ReducedRep`s with any changes of basis `Q1`, `Q2` succeeds (in
particular its internal assertion holds), and acts as the tensor product, provided that the
tolerance tests on the final `Q` only fire on exact equalities. -/
theorem C34_reduced_rep (hT : Equivariant T) (r₁ r₂ : ReducedRep T)
    (hg : ∀ a ∈ r₁.irreps, ∀ b ∈ r₂.irreps, GoodPair a.ir b.ir)
    {d₁ d₂ : ℕ} {R₁ : Rep n h d₁} {R₂ : Rep n h d₂} (h₁ : Acts r₁ R₁) (h₂ : Acts r₂ R₂) :
    (∃ r, tpRed r₁ r₂ = .ok r) ∧
    ((∀ out Q, tpRedRaw r₁ r₂ = .ok (out, Q) → RoundExact Q) →
      ∀ r, tpRed r₁ r₂ = .ok r → Acts r (R₁.tensorProduct R₂)) := by
  obtain ⟨-, -, -, q₁, hq₁, -⟩ := acts_inv h₁
  obtain ⟨-, -, -, q₂, hq₂, -⟩ := acts_inv h₂
  exact ⟨tpRed_run ⟨q₁, hq₁⟩ ⟨q₂, hq₂⟩ fun a ha b hb => GoodPair.run (hg a ha b hb),
    fun hround r hr => tpRed_acts hT (fun a ha b hb => (hg a ha b hb).sols) h₁ h₂ hround hr⟩

example : Equivariant charT ∧ (∀ i j : ℤ, GoodPair (T := charT) i j) ∧
    (∃ d, ∃ R : Rep 1 1 d, Acts charR R) ∧
    (∀ out Q, tpRedRaw charR charB.toReduced = .ok (out, Q) → RoundExact Q) :=
  ⟨fun i j => charT_isCG i j, charT_good, ⟨_, _, charR_acts⟩, charT_round rfl rfl⟩

/-- C34: without any hypothesis on the tolerances, the stored change of basis is near one with which
the result acts exactly as the tensor product: within `1e-8` per entry if it is kept, and within
`2e-8` (off the diagonal) and `1e-5 + 2e-8` (on the diagonal) of the identity if it is dropped. -/
theorem C34_rounding_bound (hT : Equivariant T) (r₁ r₂ : ReducedRep T)
    (hg : ∀ a ∈ r₁.irreps, ∀ b ∈ r₂.irreps, GoodPair a.ir b.ir)
    {d₁ d₂ : ℕ} {R₁ : Rep n h d₁} {R₂ : Rep n h d₂} (h₁ : Acts r₁ R₁) (h₂ : Acts r₂ R₂)
    (r : ReducedRep T) (hr : tpRed r₁ r₂ = .ok r) :
    ∃ (p : ℕ) (Q : Matrix (Fin p) (Fin p) ℂ),
      Acts ⟨r.A, r.irreps, some ⟨p, p, Q⟩⟩ (R₁.tensorProduct R₂) ∧
      ((r.Q = none ∧ (∀ i, ‖Q i i - 1‖ ≤ 1 / 10 ^ 5 + 2 / 10 ^ 8) ∧ ∀ i j, i ≠ j → ‖Q i j‖ ≤ 2 / 10 ^ 8) ∨
        ∃ Q' : Matrix (Fin p) (Fin p) ℂ, r.Q = some ⟨p, p, Q'⟩ ∧ ∀ i j, ‖Q i j - Q' i j‖ ≤ 1 / 10 ^ 8) := by
  unfold tpRed at hr
  obtain ⟨⟨out, Q⟩, hraw, hr⟩ := bind_ok hr
  change Except.ok _ = _ at hr
  simp only [Except.ok.injEq] at hr
  subst hr
  exact ⟨_, Q, tpRedRaw_acts hT (fun a ha b hb => (hg a ha b hb).sols) h₁ h₂ hraw (Or.inr rfl), roundQ_close Q⟩

/-- A case where the tolerances do matter (`charN` has an entry `1e-9`). -/
example : Equivariant charT ∧ (∀ i j : ℤ, GoodPair (T := charT) i j) ∧ Acts charN charNR ∧
    tpRed charN (MulIr.toReduced ⟨1, (0 : ℤ)⟩) = .ok charR :=
  ⟨fun i j => charT_isCG i j, charT_good, charN_acts, charN_tp⟩

/-- C34 (defect): without the hypothesis on the tolerances the claim is false.  The change of basis
`[[1, 1e-9], [0, 1]]` of the first factor is lost in the product with the trivial irrep. -/
theorem C34_rounding_false : ∃ (r₁ r₂ r : ReducedRep charT) (R₁ : Rep 1 1 2) (R₂ : Rep 1 1 1),
    Equivariant charT ∧ (∀ i j : ℤ, GoodPair (T := charT) i j) ∧ Acts r₁ R₁ ∧ Acts r₂ R₂ ∧
    tpRed r₁ r₂ = .ok r ∧ ¬ Acts r (R₁.tensorProduct R₂) := by
  refine ⟨charN, MulIr.toReduced ⟨1, (0 : ℤ)⟩, charR, charNR, charZR, fun i j => charT_isCG i j,
    charT_good, charN_acts, charZ_acts, charN_tp, fun hbad => ?_⟩
  obtain ⟨e, he⟩ := acts_unique charRR_acts hbad
  have hX := congrArg (fun (R : Rep 1 1 2) => R.X 0 0 1) he
  change (0 : ℂ) = Complex.I / 10 ^ 9 * 1 + 0 * 0 at hX
  have h10 : (10 : ℂ) ^ 9 ≠ 0 := by norm_num
  exact (div_ne_zero Complex.I_ne_zero h10) (by linear_combination -hX)

/-! ## C35 -/

/-- C35: `tensor_product(MulIrrep, ReducedRep)` acts as `rho_a ⊗ rho_b`. -/
theorem C35_mul_reduced (hT : Equivariant T) (a : MulIr T) (r : ReducedRep T) (ha : a.mul ≠ 0)
    (hg : ∀ b ∈ r.irreps, GoodPair a.ir b.ir) {d : ℕ} {R : Rep n h d} (hR : Acts r R)
    {Ra : Rep n h (a.mul * T.dim a.ir)} (hRa : IsCopies a.mul (T.rep a.ir) Ra)
    (hround : ∀ out Q, tpRedRaw a.toReduced r = .ok (out, Q) → RoundExact Q) :
    ∃ s, tpMulRed a r = .ok s ∧ Acts s (Ra.tensorProduct R) := by
  rw [isCopies_iff] at hRa
  subst hRa
  have hg' : ∀ a' ∈ a.toReduced.irreps, ∀ b ∈ r.irreps, GoodPair a'.ir b.ir := by
    intro a' ha' b hb
    obtain rfl : a' = a := List.mem_singleton.1 ha'
    exact hg b hb
  have := C34_reduced_rep hT a.toReduced r hg' (toReduced_acts (acts_inv hR).1 ha) hR
  obtain ⟨⟨s, hs⟩, h2⟩ := this
  exact ⟨s, hs, h2 hround s hs⟩

/-- C35: `tensor_product(TabulatedIrrep, ReducedRep)` acts as `rho_a ⊗ rho_b`. -/
theorem C35_tab_reduced (hT : Equivariant T) (i : T.Ir) (r : ReducedRep T)
    (hg : ∀ b ∈ r.irreps, GoodPair i b.ir) {d : ℕ} {R : Rep n h d} (hR : Acts r R)
    {Ri : Rep n h (1 * T.dim i)} (hRi : IsCopies 1 (T.rep i) Ri)
    (hround : ∀ out Q, tpRedRaw (MulIr.toReduced ⟨1, i⟩) r = .ok (out, Q) → RoundExact Q) :
    ∃ s, tpTabRed i r = .ok s ∧ Acts s (Ri.tensorProduct R) :=
  C35_mul_reduced hT ⟨1, i⟩ r one_ne_zero hg hR hRi hround

/-- C35 (defect): `tensor_product(ReducedRep, MulIrrep)` acts as `rho_b ⊗ rho_a`: the factors are
swapped. -/
theorem C35_reduced_mul_swapped (hT : Equivariant T) (r : ReducedRep T) (b : MulIr T)
    (hb : b.mul ≠ 0) (hg : ∀ a ∈ r.irreps, GoodPair b.ir a.ir) {d : ℕ} {R : Rep n h d}
    (hR : Acts r R) {Rb : Rep n h (b.mul * T.dim b.ir)} (hRb : IsCopies b.mul (T.rep b.ir) Rb)
    (hround : ∀ out Q, tpRedRaw b.toReduced r = .ok (out, Q) → RoundExact Q) :
    ∃ s, tpRedMul r b = .ok s ∧ Acts s (Rb.tensorProduct R) :=
  C35_mul_reduced hT b r hb hg hR hRb hround

/-- C35 (defect): the same for `tensor_product(ReducedRep, TabulatedIrrep)`. -/
theorem C35_reduced_tab_swapped (hT : Equivariant T) (r : ReducedRep T) (j : T.Ir)
    (hg : ∀ a ∈ r.irreps, GoodPair j a.ir) {d : ℕ} {R : Rep n h d} (hR : Acts r R)
    {Rj : Rep n h (1 * T.dim j)} (hRj : IsCopies 1 (T.rep j) Rj)
    (hround : ∀ out Q, tpRedRaw (MulIr.toReduced ⟨1, j⟩) r = .ok (out, Q) → RoundExact Q) :
    ∃ s, tpRedTab r j = .ok s ∧ Acts s (Rj.tensorProduct R) :=
  C35_mul_reduced hT ⟨1, j⟩ r one_ne_zero hg hR hRj hround

/-- C35 (defect): the claim is false for `tensor_product(ReducedRep, MulIrrep)`: with
`r = 1x(0) + 1x(1)` and `b = 2x(1)` the result does not act as `rho_r ⊗ rho_b`. -/
theorem C35_reduced_mul_false : ∃ (r : ReducedRep charT) (b : MulIr charT) (R : Rep 1 1 2)
    (Rb : Rep 1 1 (b.mul * charT.dim b.ir)) (s : ReducedRep charT), Acts r R ∧
    IsCopies b.mul (charT.rep b.ir) Rb ∧ tpRedMul r b = .ok s ∧
    ¬ Acts s (R.tensorProduct Rb) := by
  obtain ⟨s, hs, hs'⟩ := C35_reduced_mul_swapped (fun i j => charT_isCG i j) charR charB
    (by simp [charB]) (fun a _ => charT_good _ _) charRR_acts charBR_copies (charT_round rfl rfl)
  refine ⟨charR, charB, charRR, charBR, s, charRR_acts, charBR_copies, hs, fun hbad => ?_⟩
  obtain ⟨e, he⟩ := acts_unique hs' hbad
  have hX := congrArg (fun (R : Rep 1 1 4) => R.X 0 1 1) he
  change Complex.I * 1 + 1 * Complex.I = 0 * 1 + 1 * Complex.I at hX
  have := Complex.I_ne_zero
  simp at hX

end LieNN.Props

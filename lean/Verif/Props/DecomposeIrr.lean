import Verif.Props.LinAlg
import Verif.Props.Reduce
import Verif.Proofs.DecomposeIrr
import Verif.Proofs.PolyNull
/-!
# C85: `decompose_rep_into_irreps` returns irreducible blocks for almost all random weights
-/
namespace LieNN.Props

open Matrix Spec MeasureTheory

variable {n h d : ℕ}

/-- C85: the matrices that commute with orthogonal or anti-hermitian generators are spanned by a finite
family `Q`, and for almost all real weights `w` (Lebesgue measure) the matrix `∑ l, w l • Q l` has a
basis of eigenvectors and each of its eigenspaces is a minimal invariant subspace. -/
theorem C85_weights (X : Fin n → Matrix (Fin d) (Fin d) ℂ)
    (hX : ∀ a, (X a)ᴴ = -X a ∨ (X a)ᴴ * X a = 1) {N : ℕ} (Q : Fin N → Matrix (Fin d) (Fin d) ℂ)
    (hQ : Submodule.span ℂ (Set.range Q) = intertwiners X X) :
    ∀ᵐ w : Fin N → ℝ,
      (∃ e, IsEigenbasis (∑ l, ((w l : ℝ) : ℂ) • Q l) e) ∧
      ∀ (μ : ℂ) (U : Submodule ℂ (Fin d → ℂ)), (∀ a, ∀ u ∈ U, X a *ᵥ u ∈ U) → U ≠ ⊥ →
        (∀ u ∈ U, (∑ l, ((w l : ℝ) : ℂ) • Q l) *ᵥ u = μ • u) →
        ∀ v, (∑ l, ((w l : ℝ) : ℂ) • Q l) *ᵥ v = μ • v → v ∈ U := by
  obtain ⟨P, hP, hgen⟩ := exists_generic hX Q hQ
  have hae : ∀ᵐ w : Fin N → ℝ, MvPolynomial.eval (fun l => ((w l : ℝ) : ℂ)) P ≠ 0 := by
    rw [ae_iff]
    simpa using volume_zeros P hP
  filter_upwards [hae] with w hw
  have hmax := hgen _ hw
  have hM : (∑ l, ((w l : ℝ) : ℂ) • Q l) ∈ intertwiners X X := by
    rw [← hQ]
    exact Submodule.sum_mem _ fun l _ => Submodule.smul_mem _ _ (Submodule.subset_span ⟨l, rfl⟩)
  refine ⟨exists_eigenbasis (eigSpace_span hX hM hmax), ?_⟩
  intro μ U hU hU0 hle v hv
  rw [eigSpace_minimal hX hM hmax U hU hU0 fun u hu => mem_eigSpace.2 (hle u hu)]
  exact mem_eigSpace.2 hv

/-- C85: for real generators that are anti-symmetric or orthogonal, almost all weights, every `eig` that
finds eigenbases and every small enough tolerance, `decompose_rep_into_irreps` returns irreducible
blocks; each is the restriction of the generators to a subspace, and their dimensions add up to `d`. -/
theorem C85_decompose {eigh : EighFn} (he : EighSpec eigh) (hn : n ≠ 0) (hd0 : d ≠ 0)
    (X : Fin n → Matrix (Fin d) (Fin d) ℂ) (hX : ∀ a, (X a)ᴴ = -X a ∨ (X a)ᴴ * X a = 1)
    (hreal : ∀ a p q, (X a p q).im = 0) :
    ∀ᵐ w : Fin (Module.finrank ℂ (intertwiners X X)) → ℝ,
      ∀ w' : ℕ → ℝ, (∀ l : Fin _, w' l = w l) → ∀ eig, EigSpec eig →
      ∃ e : ℝ, 0 < e ∧ ∀ eps, 0 < eps → eps < e → ∀ fuel, d < fuel →
        ∃ Ys, decomposeRep eigh eig w' eps X fuel = some (.ok Ys) ∧
          (∀ Y ∈ Ys, IrreducibleFamily Y.2 ∧
            ∃ V : Matrix (Fin d) (Fin Y.1) ℂ, Vᴴ * V = 1 ∧ ∀ a, X a * V = V * Y.2 a) ∧
          (Ys.map fun Y => Y.1).sum = d ∧
          (∀ Q, inferChangeOfBasis eigh eps X X = .ok Q →
            GoodEig eig eps X (∑ l : Fin Q.length, ((w' l : ℝ) : ℂ) • Q.get l)) ∧
          Gap eps (icobMatrix X X) ∧ ((d * d : ℕ) : ℝ) * eps ^ 2 < 1 := by
  obtain ⟨Q, hQ, e0, he0, hrun⟩ := inferChangeOfBasis_small he hn X
  obtain ⟨e1, he1, hgap⟩ := exists_gap (icobMatrix X X)
  obtain ⟨e2, he2, hdd⟩ : ∃ e2 : ℝ, 0 < e2 ∧ ∀ eps, 0 < eps → eps < e2 →
      ((d * d : ℕ) : ℝ) * eps ^ 2 < 1 := by
    refine ⟨1 / ((d * d + 1 : ℕ) : ℝ), by positivity, fun eps hp hl => ?_⟩
    have hx2 : eps * ((d * d + 1 : ℕ) : ℝ) < 1 := by
      rwa [lt_div_iff₀ (by positivity)] at hl
    push_cast at hx2 ⊢
    nlinarith [mul_self_nonneg (d : ℝ)]
  -- the length of the list is the dimension of the commutant
  have hlen : Q.length = Module.finrank ℂ (intertwiners X X) := by
    set eps := min (min e0 e1) e2 / 2 with heps
    have hpos : 0 < min (min e0 e1) e2 := lt_min (lt_min he0 he1) he2
    have hp : 0 < eps := by rw [heps]; linarith
    have hlt : eps < min (min e0 e1) e2 := by rw [heps]; linarith
    obtain ⟨S, hS, _, h3, _⟩ := inferChangeOfBasis_spec he hp hn X X
      (hdd eps hp (hlt.trans_le (min_le_right _ _)))
      (hgap eps (hlt.le.trans ((min_le_left _ _).trans (min_le_right _ _))))
    rw [hrun eps hp (hlt.trans_le ((min_le_left _ _).trans (min_le_left _ _)))] at hS
    rw [Except.ok.inj hS, h3]
  rw [← hlen]
  have hQ' : Submodule.span ℂ (Set.range fun l : Fin Q.length => Q.get l) = intertwiners X X := by
    rw [← hQ]
    unfold mspan
    congr 1
    ext x
    simp [List.mem_iff_get]
  obtain ⟨P, hP, hgen⟩ := exists_generic hX (fun l : Fin Q.length => Q.get l) hQ'
  have hae : ∀ᵐ w : Fin Q.length → ℝ, MvPolynomial.eval (fun l => ((w l : ℝ) : ℂ)) P ≠ 0 := by
    rw [ae_iff]
    simpa using volume_zeros P hP
  filter_upwards [hae] with w hw w' hw' eig heig
  have hmax := hgen _ hw
  set M := ∑ l : Fin Q.length, ((w l : ℝ) : ℂ) • Q.get l with hMdef
  have hMw : (∑ l : Fin Q.length, ((w' l : ℝ) : ℂ) • Q.get l) = M := by
    rw [hMdef]
    exact Finset.sum_congr rfl fun l _ => by rw [hw' l]
  have hM : M ∈ intertwiners X X := by
    rw [← hQ']
    exact Submodule.sum_mem _ fun l _ => Submodule.smul_mem _ _ (Submodule.subset_span ⟨l, rfl⟩)
  have hbas := heig d M (exists_eigenbasis (eigSpace_span hX hM hmax))
  -- small tolerances for `gram_schmidt` and for the clusters
  obtain ⟨e3, he3, hgs⟩ : ∃ e3 : ℝ, 0 < e3 ∧ ∀ eps, 0 < eps → eps < e3 →
      ∀ W : List (Vec d), W.Sublist (List.ofFn (eig d M).2) →
        lspan (gramSchmidt eps W) = lspan W := by
    have key : ∀ L : List (List (Vec d)), ∃ e3 : ℝ, 0 < e3 ∧ ∀ eps, 0 < eps → eps < e3 →
        ∀ W ∈ L, lspan (gramSchmidt eps W) = lspan W := by
      intro L
      induction L with
      | nil => exact ⟨1, one_pos, by simp⟩
      | cons W L ih =>
        obtain ⟨e, hp, hl⟩ := ih
        obtain ⟨e', hp', hl'⟩ := gsLoop_small W []
        refine ⟨min e e', lt_min hp hp', fun eps h1 h2 W' hW' => ?_⟩
        rcases List.mem_cons.1 hW' with rfl | hW'
        · have := hl' eps h1 (h2.trans_le (min_le_right _ _))
          unfold gramSchmidt
          rw [this]
          exact C12_gram_schmidt_exact W'
        · exact hl eps h1 (h2.trans_le (min_le_left _ _)) W' hW'
    obtain ⟨e3, he3, hall⟩ := key (List.ofFn (eig d M).2).sublists
    exact ⟨e3, he3, fun eps h1 h2 W hW => hall eps h1 h2 W (List.mem_sublists.2 hW)⟩
  obtain ⟨e4, he4, hsep⟩ := exists_pos_lt fun p : Fin d × Fin d =>
    ‖(eig d M).1 p.1 - (eig d M).1 p.2‖
  refine ⟨min (min e0 e1) (min e2 (min e3 e4)),
    lt_min (lt_min he0 he1) (lt_min he2 (lt_min he3 he4)), fun eps hp hl fuel hf => ?_⟩
  have l0 := hl.trans_le ((min_le_left _ _).trans (min_le_left _ _))
  have l1 := hl.trans_le ((min_le_left _ _).trans (min_le_right _ _))
  have l2 := hl.trans_le ((min_le_right _ _).trans (min_le_left _ _))
  have l3 := hl.trans_le ((min_le_right _ _).trans ((min_le_right _ _).trans (min_le_left _ _)))
  have l4 := hl.trans_le ((min_le_right _ _).trans ((min_le_right _ _).trans (min_le_right _ _)))
  have hd2 := hdd eps hp l2
  have hd1 : (d : ℝ) * eps ^ 2 < 1 := by
    refine lt_of_le_of_lt ?_ hd2
    gcongr
    exact_mod_cast Nat.le_mul_of_pos_left d (Nat.pos_of_ne_zero hd0)
  obtain ⟨Ys, hYs, hirr⟩ := decomposeFrom_irreducible hp hd0 hd1 hX hreal hM hmax hbas
    (hgs eps hp l3) (fun i j hij => by
      by_contra hc
      push Not at hc
      have := hsep (i, j) (hc.trans l4)
      exact hij (sub_eq_zero.1 (norm_le_zero_iff.1 this))) fuel hf
  have hgood : ∀ Q, inferChangeOfBasis eigh eps X X = .ok Q →
      GoodEig eig eps X (∑ l : Fin Q.length, ((w' l : ℝ) : ℂ) • Q.get l) := by
    intro Q₁ hQ₁
    rw [hrun eps hp l0] at hQ₁
    obtain rfl := Except.ok.inj hQ₁
    rw [hMw]
    exact ⟨hbas.2, hbas.1, hgs eps hp l3, Or.inl hreal⟩
  have hdec : decomposeRep eigh eig w' eps X fuel = some (.ok Ys) := by
    unfold decomposeRep
    rw [hrun eps hp l0]
    simp only
    rw [hMw]
    exact hYs
  obtain ⟨h1, h2⟩ := C20_decompose_rep he hp hn hd0 X hd2 (hgap eps l1.le) eig w' hgood fuel hf Ys hdec
  exact ⟨Ys, hdec, fun Y hY => ⟨hirr Y hY, h1 Y hY⟩, h2, hgood, hgap eps l1.le, hd2⟩

/-- A block of a family whose commutant is commutative occurs once. -/
theorem finrank_block {X : Fin n → Matrix (Fin d) (Fin d) ℂ}
    (hX : ∀ a, (X a)ᴴ = -X a ∨ (X a)ᴴ * X a = 1)
    (hcomm : ∀ S ∈ intertwiners X X, ∀ T ∈ intertwiners X X, S * T = T * S) {k : ℕ}
    {Y : Fin n → Matrix (Fin k) (Fin k) ℂ} (hY : IrreducibleFamily Y)
    {V : Matrix (Fin d) (Fin k) ℂ} (hV : Vᴴ * V = 1) (hXV : ∀ a, X a * V = V * Y a) :
    Module.finrank ℂ (intertwiners X Y) = 1 := by
  have hYV : ∀ a, Y a = Vᴴ * X a * V := by
    intro a
    rw [Matrix.mul_assoc, hXV a, ← Matrix.mul_assoc, hV, Matrix.one_mul]
  -- the adjoint intertwines in the other direction
  have hVX : ∀ a, Vᴴ * X a = Y a * Vᴴ := by
    intro a
    rcases hX a with h | h
    · have h1 := congrArg conjTranspose (hXV a)
      simp only [conjTranspose_mul, h, Matrix.mul_neg] at h1
      have h2 : (Y a)ᴴ = -Y a := by
        rw [hYV a]
        simp only [conjTranspose_mul, conjTranspose_conjTranspose, h, Matrix.neg_mul, Matrix.mul_neg,
          Matrix.mul_assoc]
      rw [h2, Matrix.neg_mul, neg_inj] at h1
      exact h1
    · have h2 : (Y a)ᴴ * Y a = 1 := by
        have h3 := congrArg (fun Z => Zᴴ * Z) (hXV a)
        simp only [conjTranspose_mul] at h3
        rw [Matrix.mul_assoc, ← Matrix.mul_assoc (X a)ᴴ, h, Matrix.one_mul, hV, Matrix.mul_assoc,
          ← Matrix.mul_assoc Vᴴ, hV, Matrix.one_mul] at h3
        exact h3.symm
      have h3 : Y a * (Y a)ᴴ = 1 := mul_eq_one_comm.1 h2
      have h1 := congrArg conjTranspose (hXV a)
      simp only [conjTranspose_mul] at h1
      -- `Vᴴ Xᴴ = Yᴴ Vᴴ`
      calc Vᴴ * X a = Y a * (Y a)ᴴ * (Vᴴ * X a) := by rw [h3, Matrix.one_mul]
        _ = Y a * ((Y a)ᴴ * Vᴴ) * X a := by simp only [Matrix.mul_assoc]
        _ = Y a * (Vᴴ * (X a)ᴴ) * X a := by rw [← h1]
        _ = Y a * Vᴴ * ((X a)ᴴ * X a) := by simp only [Matrix.mul_assoc]
        _ = Y a * Vᴴ := by rw [h, Matrix.mul_one]
  have hk := finrank_commutant_of_irreducible hY
  have hkpos := hY.1
  have : Nonempty (Fin k) := ⟨⟨0, hkpos⟩⟩
  rw [finrank_eq_one_iff_of_nonzero' (⟨1, one_mem_intertwiners Y⟩ : intertwiners Y Y) (by
    intro h0; exact one_ne_zero (congrArg Subtype.val h0))] at hk
  have hV0 : V ≠ 0 := by
    intro h0
    rw [h0, Matrix.mul_zero] at hV
    exact zero_ne_one hV
  rw [finrank_eq_one_iff_of_nonzero' (⟨V, hXV⟩ : intertwiners X Y) (by
    intro h0; exact hV0 (congrArg Subtype.val h0))]
  rintro ⟨S, hS⟩
  have hS' : ∀ a, X a * S = S * Y a := hS
  have hSV : S * Vᴴ ∈ intertwiners X X := by
    intro a
    rw [← Matrix.mul_assoc, hS' a, Matrix.mul_assoc, ← hVX a, Matrix.mul_assoc]
  have hVV : V * Vᴴ ∈ intertwiners X X := by
    intro a
    rw [← Matrix.mul_assoc, hXV a, Matrix.mul_assoc, ← hVX a, Matrix.mul_assoc]
  have hVS : Vᴴ * S ∈ intertwiners Y Y := by
    intro a
    rw [← Matrix.mul_assoc, ← hVX a, Matrix.mul_assoc, hS' a, Matrix.mul_assoc]
  obtain ⟨c, hc⟩ := hk ⟨Vᴴ * S, hVS⟩
  have hc' : c • (1 : Matrix (Fin k) (Fin k) ℂ) = Vᴴ * S := congrArg Subtype.val hc
  refine ⟨c, Subtype.ext ?_⟩
  show c • V = S
  have h1 := congrArg (· * V) (hcomm _ hSV _ hVV)
  simp only [Matrix.mul_assoc, hV, Matrix.mul_one] at h1
  rw [h1, ← hc', Matrix.mul_smul, Matrix.mul_one]

/-- C85: for a real orthogonal representation and almost all weights, `reduce` succeeds exactly when
the representation is free of multiplicities (matrices commuting with it commute with each other); the
irreps of the result are then irreducible. -/
theorem C85_reduce {eigh : EighFn} (he : EighSpec eigh) (hn : n ≠ 0) (hd0 : d ≠ 0)
    (hd' : d * d < 10 ^ 8) (r : Rep n h d)
    (hX : ∀ a, (r.allGens a)ᴴ = -r.allGens a ∨ (r.allGens a)ᴴ * r.allGens a = 1)
    (hreal : ∀ a p q, (r.allGens a p q).im = 0)
    (hgaps : ∀ (Y : Block (n + h)) (V : Matrix (Fin d) (Fin Y.1) ℂ), Vᴴ * V = 1 →
      (∀ a, r.allGens a * V = V * Y.2 a) → IrreducibleFamily Y.2 →
      Gap (1 / 10 ^ 4) (icobMatrix r.allGens Y.2)) :
    ∀ᵐ w : Fin (Module.finrank ℂ (intertwiners r.allGens r.allGens)) → ℝ,
      ∀ w' : ℕ → ℝ, (∀ l : Fin _, w' l = w l) → ∀ eig, EigSpec eig →
      ∃ e : ℝ, 0 < e ∧ ∀ eps, 0 < eps → eps < e → ∀ fuel, d < fuel →
        ((∀ S T : Matrix (Fin d) (Fin d) ℂ, (∀ a, r.allGens a * S = S * r.allGens a) →
            (∀ a, r.allGens a * T = T * r.allGens a) → S * T = T * S) →
          ∃ R : ReducedRep (genericTable n h), reduceRep eigh eig w' eps r fuel = some (.ok R) ∧
            Acts R r ∧ ∀ m ∈ R.irreps, m.mul = 1 ∧ IrreducibleFamily m.ir.2.allGens) ∧
        ((∃ S T : Matrix (Fin d) (Fin d) ℂ, (∀ a, r.allGens a * S = S * r.allGens a) ∧
            (∀ a, r.allGens a * T = T * r.allGens a) ∧ S * T ≠ T * S) →
          reduceRep eigh eig w' eps r fuel = some (.error .valueError)) := by
  have hnh : n + h ≠ 0 := by omega
  filter_upwards [C85_decompose he hnh hd0 r.allGens hX hreal] with w hw w' hw' eig heig
  obtain ⟨e, he0, hrun⟩ := hw w' hw' eig heig
  refine ⟨e, he0, fun eps hp hl fuel hf => ?_⟩
  obtain ⟨Ys, hdec, hirr, _, hgood, hgap, hdd⟩ := hrun eps hp hl fuel hf
  have hgaps' : ∀ Y ∈ Ys, Gap (1 / 10 ^ 4) (icobMatrix r.allGens Y.2) := by
    intro Y hY
    obtain ⟨hi, V, hV, hXV⟩ := hirr Y hY
    exact hgaps Y V hV hXV hi
  constructor
  · intro hcomm
    obtain ⟨R, h1, h2, h3, _, h5⟩ := C59_reduce he hp hn hd0 hdd hd' hgap hgood hf hdec hgaps' (by
      intro Y hY
      obtain ⟨hi, V, hV, hXV⟩ := hirr Y hY
      exact finrank_block hX (fun S hS T hT => hcomm S T hS hT) hi hV hXV)
    refine ⟨R, h1, h2, fun m hm => ⟨h3 m hm, ?_⟩⟩
    have hmem : (⟨m.ir.1, m.ir.2.allGens⟩ : Block (n + h)) ∈ Ys :=
      h5.mem_iff.1 (List.mem_map.2 ⟨m, hm, rfl⟩)
    exact (hirr _ hmem).1
  · intro hmult
    exact C59_reduce_multiplicity he hp hn hd0 hdd hd' hgap hgood hf hdec hgaps' hmult

/-! ### Non-vacuity -/

open Classical in
/-- There is an `eig` as assumed. -/
theorem exists_eigSpec : ∃ eig, EigSpec eig := by
  refine ⟨fun d M => if h : ∃ e, IsEigenbasis M e then h.choose else (0, 0), ?_⟩
  intro d M h
  simp only [dif_pos h]
  exact h.choose_spec

/-- The exchange of two coordinates. -/
def swapX : Fin 1 → Matrix (Fin 2) (Fin 2) ℂ := fun _ => !![0, 1; 1, 0]

theorem swapX_adj (a : Fin 1) : (swapX a)ᴴ = swapX a := by
  ext i j; fin_cases i <;> fin_cases j <;> simp [swapX]

theorem swapX_sq (a : Fin 1) : swapX a * swapX a = 1 := by
  ext i j; fin_cases i <;> fin_cases j <;> simp [swapX]

theorem swapX_real (a : Fin 1) (p q : Fin 2) : (swapX a p q).im = 0 := by
  fin_cases p <;> fin_cases q <;> simp [swapX]

/-- `C85_weights` on the exchange of two coordinates: the commuting matrices are `a + b * swap`. -/
example : ∃ w : Fin 2 → ℝ, ∃ e, IsEigenbasis (∑ l, ((w l : ℝ) : ℂ) • (![1, swapX 0] l)) e := by
  obtain ⟨w, hw⟩ := (C85_weights swapX (fun a => Or.inr (by rw [swapX_adj, swapX_sq]))
    ![1, swapX 0] (by
      apply le_antisymm
      · rw [Submodule.span_le]
        rintro _ ⟨l, rfl⟩ a
        rw [Subsingleton.elim a 0]
        fin_cases l <;> simp
      · intro S hS
        have h := hS 0
        have h1 := congrFun (congrFun h 0) 0
        have h2 := congrFun (congrFun h 0) 1
        simp [swapX, Matrix.mul_apply, Fin.sum_univ_two] at h1 h2
        rw [Submodule.mem_span_range_iff_exists_fun]
        refine ⟨![S 0 0, S 0 1], ?_⟩
        ext i j
        fin_cases i <;> fin_cases j <;> simp [Fin.sum_univ_two, swapX, h1, h2])).exists
  exact ⟨w, hw.1⟩

/-- `C85_decompose` on the exchange of two coordinates: there are weights, a tolerance and an `eig` for
which the blocks are irreducible. -/
example : ∃ (w : ℕ → ℝ) (eig : EigFn) (eps : ℝ) (Ys : List (Block 1)), 0 < eps ∧
    decomposeRep exactEigh eig w eps swapX 3 = some (.ok Ys) ∧
    (∀ Y ∈ Ys, IrreducibleFamily Y.2) ∧ (Ys.map fun Y => Y.1).sum = 2 := by
  obtain ⟨eig, heig⟩ := exists_eigSpec
  obtain ⟨w, hw⟩ := (C85_decompose exactEigh_spec one_ne_zero two_ne_zero swapX
    (fun a => Or.inr (by rw [swapX_adj, swapX_sq])) swapX_real).exists
  obtain ⟨e, he, hrun⟩ := hw (fun l => if h : l < _ then w ⟨l, h⟩ else 0)
    (fun l => by rw [dif_pos l.2]) eig heig
  obtain ⟨Ys, h1, h2, h3, _⟩ := hrun (e / 2) (by linarith) (by linarith) 3 (by norm_num)
  exact ⟨_, eig, e / 2, Ys, by linarith, h1, fun Y hY => (h2 Y hY).1, h3⟩

/-- The same generator as a (discrete) representation of a one-dimensional algebra acting by zero. -/
noncomputable def swapRep : Rep 1 1 2 := ⟨0, 0, swapX⟩

theorem swapRep_gens_zero : swapRep.allGens (Fin.castAdd 1 0) = 0 := by
  rw [Rep.allGens, Fin.append_left]; rfl

theorem swapRep_gens_one : swapRep.allGens (Fin.natAdd 1 0) = swapX 0 := by
  rw [Rep.allGens, Fin.append_right]; rfl

theorem swapRep_gap (Y : Block (1 + 1)) (V : Matrix (Fin 2) (Fin Y.1) ℂ) (hV : Vᴴ * V = 1)
    (hXV : ∀ a, swapRep.allGens a * V = V * Y.2 a) :
    Gap (1 / 10 ^ 4) (icobMatrix swapRep.allGens Y.2) := by
  have hY : ∀ a, Y.2 a = Vᴴ * (swapRep.allGens a * V) := by
    intro a
    rw [hXV a, ← Matrix.mul_assoc, hV, Matrix.one_mul]
  have h0 : Y.2 (Fin.castAdd 1 0) = 0 := by
    rw [hY, swapRep_gens_zero, Matrix.zero_mul, Matrix.mul_zero]
  set y := Y.2 (Fin.natAdd 1 0) with hy
  have hyV : swapX 0 * V = V * y := by rw [← swapRep_gens_one, hXV]
  have hy1 : y = Vᴴ * (swapX 0 * V) := by rw [hyV, ← Matrix.mul_assoc, hV, Matrix.one_mul]
  have hyadj : yᴴ = y := by
    rw [hy1]
    simp only [conjTranspose_mul, conjTranspose_conjTranspose, swapX_adj, Matrix.mul_assoc]
  have hysq : y * y = 1 := by
    have h1 : V * (y * y) = V := by
      rw [← Matrix.mul_assoc, ← hyV, Matrix.mul_assoc, ← hyV, ← Matrix.mul_assoc, swapX_sq,
        Matrix.one_mul]
    have h2 := congrArg (Vᴴ * ·) h1
    simpa only [← Matrix.mul_assoc Vᴴ V, hV, Matrix.one_mul] using h2
  apply gap_icob
  intro μ S hS hev hμ
  rw [Fin.sum_univ_add, Fin.sum_univ_one, Fin.sum_univ_one, swapRep_gens_zero, swapRep_gens_one, h0,
    ← hy, hyadj, swapX_adj] at hev
  set T := swapX 0 * S * y with hT
  have e1 : (2 : ℂ) • S - (2 : ℂ) • T = (μ : ℂ) • S := by
    rw [← hev]
    simp only [conjTranspose_zero, Matrix.zero_mul, Matrix.mul_zero, sub_self, zero_add,
      Matrix.mul_sub, Matrix.sub_mul, hT]
    rw [← Matrix.mul_assoc, swapX_sq, Matrix.one_mul, Matrix.mul_assoc S y y, hysq, Matrix.mul_one,
      Matrix.mul_assoc, two_smul, two_smul]
    abel
  have e2 : swapX 0 * T * y = S := by
    rw [hT]
    simp only [Matrix.mul_assoc, hysq, Matrix.mul_one]
    rw [← Matrix.mul_assoc, swapX_sq, Matrix.one_mul]
  have e3 : (2 : ℂ) • T - (2 : ℂ) • S = (μ : ℂ) • T := by
    have := congrArg (fun Z => swapX 0 * Z * y) e1
    simpa only [Matrix.mul_sub, Matrix.sub_mul, Matrix.mul_smul, Matrix.smul_mul, e2, ← hT] using this
  have e4 : (μ : ℂ) • (S + T) = 0 := by
    rw [smul_add, ← e1, ← e3]; abel
  have hμ0 : (μ : ℂ) ≠ 0 := by exact_mod_cast hμ.ne'
  have e5 : T = -S := by
    have := (smul_eq_zero.1 e4).resolve_left hμ0
    exact eq_neg_of_add_eq_zero_right this
  rw [e5, smul_neg, sub_neg_eq_add, ← add_smul] at e1
  have e6 : ((2 + 2 - μ : ℂ)) • S = 0 := by rw [sub_smul, e1, sub_self]
  have e7 := (smul_eq_zero.1 e6).resolve_right hS
  have e8 : μ = 4 := by
    have : ((4 - μ : ℝ) : ℂ) = 0 := by push_cast; rw [← e7]; ring
    have := Complex.ofReal_eq_zero.1 this
    linarith
  rw [e8]; norm_num

/-- `C85_reduce` on this representation, whose commuting matrices commute: `reduce` succeeds. -/
example : ∃ (w : ℕ → ℝ) (eig : EigFn) (eps : ℝ) (R : ReducedRep (genericTable 1 1)), 0 < eps ∧
    reduceRep exactEigh eig w eps swapRep 3 = some (.ok R) ∧ Acts R swapRep ∧
    ∀ m ∈ R.irreps, m.mul = 1 ∧ IrreducibleFamily m.ir.2.allGens := by
  obtain ⟨eig, heig⟩ := exists_eigSpec
  obtain ⟨w, hw⟩ := (C85_reduce exactEigh_spec one_ne_zero two_ne_zero (by norm_num) swapRep
    (fun a => by
      refine Fin.addCases (fun i => ?_) (fun i => ?_) a
      · rw [Subsingleton.elim i 0, swapRep_gens_zero]; left; simp
      · rw [Subsingleton.elim i 0, swapRep_gens_one, swapX_adj, swapX_sq]; right; rfl)
    (fun a p q => by
      refine Fin.addCases (fun i => ?_) (fun i => ?_) a
      · rw [Subsingleton.elim i 0, swapRep_gens_zero]; simp
      · rw [Subsingleton.elim i 0, swapRep_gens_one]; exact swapX_real _ _ _)
    (fun Y V hV hXV _ => swapRep_gap Y V hV hXV)).exists
  obtain ⟨e, he, hrun⟩ := hw (fun l => if h : l < _ then w ⟨l, h⟩ else 0)
    (fun l => by rw [dif_pos l.2]) eig heig
  obtain ⟨h1, _⟩ := hrun (e / 2) (by linarith) (by linarith) 3 (by norm_num)
  obtain ⟨R, r1, r2, r3⟩ := h1 (by
    -- matrices that commute with the exchange commute
    intro S T hS hT
    have key : ∀ S : Matrix (Fin 2) (Fin 2) ℂ, (∀ a, swapRep.allGens a * S = S * swapRep.allGens a) →
        S 0 0 = S 1 1 ∧ S 0 1 = S 1 0 := by
      intro S hS
      have h := hS (Fin.natAdd 1 0)
      rw [swapRep_gens_one] at h
      have h1 := congrFun (congrFun h 0) 0
      have h2 := congrFun (congrFun h 0) 1
      simp [swapX, Matrix.mul_apply, Fin.sum_univ_two] at h1 h2
      exact ⟨h2.symm, h1.symm⟩
    obtain ⟨s1, s2⟩ := key S hS
    obtain ⟨t1, t2⟩ := key T hT
    ext i j
    fin_cases i <;> fin_cases j <;> simp [Matrix.mul_apply, Fin.sum_univ_two, s1, s2, t1, t2] <;> ring)
  exact ⟨_, eig, e / 2, R, by linarith, r1, r2, r3⟩

end LieNN.Props

import Verif.Model.Scalar
import Verif.Proofs.Scalar
import Verif.Props.Dims
import Verif.Props.Iter
import Verif.Props.SUNGen
import Verif.Proofs.GroupRepSUN
/-! # C97: `is_scalar` -/
namespace LieNN.Props

open Matrix LieNN.Spec

theorem isTrivial_dim {n h d : ℕ} {r : Rep n h d} (H : r.isTrivial) : d = 1 := H.1

/-- C97 for `SU2`: `is_scalar` answers `True` exactly for the irreps of dimension one, which are the trivial ones. -/
theorem C97_su2 (j : ℕ) : (SU2.isScalar j = true ↔ SU2.dim j = 1) ∧ (SU2.isScalar j = true ↔ (SU2.rep j).isTrivial) := by
  have h1 : SU2.isScalar j = true ↔ SU2.dim j = 1 := by simp [SU2.isScalar, SU2.dim]
  refine ⟨h1, fun h => ?_, fun h => h1.2 (isTrivial_dim h)⟩
  obtain rfl : j = 0 := by simpa [SU2.isScalar] using h
  exact SU2.trivial_rep

/-- C97 for `SL2C`. -/
theorem C97_sl2c (r : SL2C) : (r.isScalar = true ↔ r.dim = 1) ∧ (r.isScalar = true ↔ (SL2C.rep r).isTrivial) := by
  have h1 : r.isScalar = true ↔ r.dim = 1 := by simp [SL2C.isScalar, SL2C.dim]
  refine ⟨h1, fun h => ?_, fun h => h1.2 (isTrivial_dim h)⟩
  obtain ⟨l, k⟩ := r
  obtain ⟨rfl, rfl⟩ : l = 0 ∧ k = 0 := by simpa [SL2C.isScalar] using h
  exact SL2C.trivial_rep

/-- C97 for `SO13`, on the generators that `continuous_generators` computes. -/
theorem C97_so13 {eigh : EighFn} (he : EighSpec eigh)
    {sqrtm : {d : ℕ} → Matrix (Fin d) (Fin d) ℂ → Matrix (Fin d) (Fin d) ℂ} (hs : SqrtmInvSpec sqrtm) (r : SL2C) :
    (SO13.isScalar (r.l, r.k) = true ↔ r.dim = 1) ∧
    (SO13.isScalar (r.l, r.k) = true ↔ r.dim = 1 ∧ ∃ X, SO13.gens eigh (1 / 10 ^ 4) sqrtm r = .ok X ∧ ∀ i, X i = 0) := by
  have h1 : SO13.isScalar (r.l, r.k) = true ↔ r.dim = 1 := by simp [SO13.isScalar, SL2C.dim]
  refine ⟨h1, fun h => ?_, fun h => h1.2 h.1⟩
  obtain ⟨l, k⟩ := r
  obtain ⟨rfl, rfl⟩ : l = 0 ∧ k = 0 := by simpa [SO13.isScalar] using h
  exact C40_so13_trivial he hs

/-- C97 for `O3`: `is_scalar` answers `True` exactly in dimension one, but is blind to the parity: the trivial irreps are those
that are scalar and of parity `1`. -/
theorem C97_o3 (r : O3) : (r.isScalar = true ↔ r.dim = 1) ∧ ((O3.rep r).isTrivial ↔ r.isScalar = true ∧ r.p = 1) := by
  have h1 : r.isScalar = true ↔ r.dim = 1 := by simp [O3.isScalar, O3.dim]
  refine ⟨h1, fun h => ⟨h1.2 (isTrivial_dim h), ?_⟩, ?_⟩
  · have h2 := h.2.2 0 ⟨0, by simp [O3.dim]⟩ ⟨0, by simp [O3.dim]⟩
    simp [O3.rep] at h2
    exact_mod_cast h2
  · rintro ⟨h, h2⟩
    obtain ⟨l, p⟩ := r
    obtain rfl : l = 0 := by simpa [O3.isScalar] using h
    obtain rfl : p = 1 := h2
    exact O3.trivial_rep

/-- C97 finding: the pseudo-scalar `O3(0, -1)` is a scalar for `is_scalar` though the inversion acts on it by `-1`. -/
theorem C97_pseudoscalar : O3.isScalar ⟨0, -1⟩ = true ∧ ¬ (O3.rep ⟨0, -1⟩).isTrivial := by
  refine ⟨rfl, fun h => ?_⟩
  have := ((C97_o3 ⟨0, -1⟩).2.1 h).2
  simp at this

/-- C97 for `SUN`, for every number of labels: `is_scalar` answers `True` exactly in dimension one, which is the trivial
irrep. -/
theorem C97_sun {N : ℕ} (h2 : 2 ≤ N) {S : List ℤ} {d : ℕ} {r : Rep (N ^ 2 - 1) 0 d} (hr : SUN.IsLabel N S r) :
    (SUN.isScalar S ↔ d = 1) ∧ (SUN.isScalar S ↔ r.isTrivial) := by
  obtain ⟨w, p, hz⟩ := make_weight hr.m
  have key : d = 1 → SUN.isScalar S := by
    rintro rfl
    by_contra hc
    have hlen := hr.l
    have hlast : S.getD (N - 1) 0 = 0 := hlen ▸ hz
    have hpos : 0 < S.getD 0 0 := by
      simp only [SUN.isScalar, not_forall] at hc
      obtain ⟨s, hs, h0⟩ := hc
      obtain ⟨i, hi, rfl⟩ := List.mem_iff_getElem.1 hs
      have h1 : S[i] ≤ S.getD 0 0 := by
        rw [List.getD_eq_getElem _ _ (by omega)]
        rcases Nat.eq_zero_or_pos i with rfl | h
        · exact le_rfl
        · exact List.pairwise_iff_getElem.1 w.2 0 i _ _ h
      have := p _ hs
      omega
    have h3 := SUN.dimProd_gt w.2 (i := N - 1) (by omega) (by rw [hlast]; exact hpos)
    have h4 := hr.d
    rw [SUN.dim_eq S w] at h4
    rw [SUN.dimProd_eq S w] at h3
    injection h4 with h4
    have h5 : 1 < (SUN.pats S).length := by exact_mod_cast h3
    omega
  have key2 : SUN.isScalar S → r.isTrivial := by
    intro h
    obtain ⟨hd, L, hL, hlen, hL0⟩ := C69_scalar hr.m (by rw [hr.l]; exact h2) h
    obtain rfl : d = 1 := by
      have := hr.d.symm.trans hd
      injection this with e
      exact_mod_cast e
    obtain ⟨L', hL', e⟩ := hr.g
    rw [hL] at hL'
    cases hL'
    refine ⟨rfl, fun a i j => ?_, fun a => a.elim0⟩
    have : r.X a = 0 := by
      rw [e]
      unfold SUN.genFn
      rcases Nat.lt_or_ge a L.length with ha | ha
      · rw [List.getD_eq_getElem _ _ ha]
        exact hL0 _ (List.getElem_mem _)
      · rw [List.getD_eq_default _ _ ha]
    rw [this]; rfl
  exact ⟨⟨fun h => isTrivial_dim (key2 h), key⟩, key2, fun h => key (isTrivial_dim h)⟩

/-- C97 for `SPN`: for non-negative labels, `is_scalar` answers `True` exactly if `dim` is one. -/
theorem C97_spn (S : List ℤ) (hr : 2 ≤ S.length) (hS : ∀ s ∈ S, 0 ≤ s) :
    Roots.isScalar S = true ↔ Roots.dimSP S = .ok 1 := by
  constructor
  · intro h
    obtain ⟨n, hn⟩ : ∃ n, S.length = n + 1 := ⟨S.length - 1, by omega⟩
    rw [Roots.isScalar_replicate h, hn, List.replicate_succ]
    exact (C67_sp_small n (by omega)).1
  · intro h
    by_contra hc
    have h1 := Roots.weylSp_gt hS (by simpa using hc)
    obtain ⟨d, -, h2, h3⟩ := C67_sp_dim S hr hS
    rw [h2] at h
    injection h with h
    obtain rfl : d = 1 := by exact_mod_cast h
    rw [h3] at h1
    simp at h1

theorem weylSoEven_zero (n : ℕ) : weylSoEven (0 :: List.replicate (n + 1) 0) = 1 := by
  rw [weylSoEven]
  refine Finset.prod_eq_one fun i hi => Finset.prod_eq_one fun j hj => ?_
  rw [Finset.mem_range] at hi hj
  have hs : ∀ k, soEvenShift (0 :: List.replicate (n + 1) 0) k = ((0 : ℤ) :: List.replicate (n + 1) 0).length - k - 1 := by
    intro k
    rw [← List.replicate_succ, soEvenShift]
    simp only [Roots.zero_getD]
    simp
  rw [hs, hs]
  exact div_self (Roots.rho_D_ne _ j i hj hi)

/-- C97 for `SON`, in spite of the wrong dimensions of C67 for an even number of labels. -/
theorem C97_son (S : List ℤ) (hr : 2 ≤ S.length) (hS : ∀ s ∈ S, 0 ≤ s) :
    Roots.isScalar S = true ↔ Roots.dimSO S = .ok 1 := by
  rcases Nat.mod_two_eq_zero_or_one S.length with ho | ho
  · rcases Nat.lt_or_ge 2 S.length with h3 | h3
    · obtain ⟨a, S', rfl⟩ : ∃ a S', S = a :: S' := by
        cases S with
        | nil => simp at hr
        | cons a S' => exact ⟨a, S', rfl⟩
      obtain ⟨M, z, rfl⟩ : ∃ M z, S' = M ++ [z] := by
        rcases List.eq_nil_or_concat S' with rfl | ⟨M, z, rfl⟩
        · simp at h3
        · exact ⟨M, z, by simp⟩
      have hM : 2 ≤ M.length := by simp at h3 ho; omega
      obtain ⟨d, -, h4, h5⟩ := C67_so_even_dim a z M hM (by simp at ho; omega) hS
      have ha : 0 ≤ a := hS a (by simp)
      have hz : 0 ≤ z := hS z (by simp)
      have hS' : ∀ s ∈ (a + z) :: (M ++ [0]), 0 ≤ s := by
        intro s hs
        simp only [List.mem_cons, List.mem_append, List.not_mem_nil, or_false] at hs
        rcases hs with rfl | hs | rfl
        · omega
        · exact hS s (by simp [hs])
        · exact le_rfl
      have hsc : Roots.isScalar (a :: (M ++ [z])) = Roots.isScalar ((a + z) :: (M ++ [0])) := by
        rw [Bool.eq_iff_iff]
        simp only [Roots.isScalar, List.all_cons, List.all_append, List.all_nil, Bool.and_eq_true, beq_iff_eq]
        constructor
        · rintro ⟨rfl, h, rfl, -⟩; exact ⟨rfl, h, trivial, trivial⟩
        · rintro ⟨h, h', -⟩; exact ⟨by omega, h', by omega, trivial⟩
      rw [hsc, h4]
      constructor
      · intro h
        have e := Roots.isScalar_replicate h
        have hl : ((a + z) :: (M ++ [0])).length = M.length + 1 + 1 := by simp
        rw [hl, List.replicate_succ] at e
        rw [e, weylSoEven_zero] at h5
        rw [show d = 1 by exact_mod_cast h5.symm]; rfl
      · intro h
        by_contra hc
        have h1 := Roots.weylSoEven_gt hS' (by simp) (by simpa using hc)
        injection h with h
        obtain rfl : d = 1 := by exact_mod_cast h
        rw [h5] at h1
        simp at h1
    · match S, h3, hr with
      | [a, b], _, _ =>
        have ha := hS a (by simp)
        have hb := hS b (by simp)
        rw [C67_so4_dim a b ha hb]
        simp only [Roots.isScalar, List.all_cons, List.all_nil, Bool.and_eq_true, beq_iff_eq, Except.ok.injEq]
        constructor
        · rintro ⟨rfl, rfl, -⟩; rfl
        · intro h
          refine ⟨?_, ?_, trivial⟩ <;> nlinarith
  · constructor
    · intro h
      obtain ⟨n, hn⟩ : ∃ n, S.length = n + 1 := ⟨S.length - 1, by omega⟩
      rw [Roots.isScalar_replicate h, hn, List.replicate_succ]
      exact (C67_so_odd_small n (by omega) (by omega)).1
    · intro h
      by_contra hc
      have h1 := Roots.weylSoOdd_gt hS (by simpa using hc)
      obtain ⟨d, -, h2, h3⟩ := C67_so_odd_dim S hr ho hS
      rw [h2] at h
      injection h with h
      obtain rfl : d = 1 := by exact_mod_cast h
      rw [h3] at h1
      simp at h1

/-- C97 finding: nothing checks the labels of `SPN`, and for a negative one dimension one does not mean scalar: `(-2, -2)`. -/
theorem C97_negative : Roots.isScalar [-2, -2] = false ∧ Roots.dimSP [-2, -2] = .ok 1 := by
  refine ⟨rfl, ?_⟩
  rw [Roots.dimSP_eq _ (by simp)]
  have : weylSp [-2, -2] = 1 := by
    norm_num [weylSp, spShift, Finset.prod_range_succ, Finset.sum_Ico_eq_sum_range, Finset.sum_range_succ]
  rw [this, SU2Real.trunc_nat (n := 1) (by norm_num)]
  rfl

example : SU2.isScalar 0 = true ∧ SU2.isScalar 3 = false := by decide
example : SL2C.isScalar ⟨0, 0⟩ = true ∧ SL2C.isScalar ⟨0, 2⟩ = false ∧ SL2C.isScalar ⟨1, 0⟩ = false := by decide
example : SO13.isScalar (0, 0) = true ∧ SO13.isScalar (1, 1) = false := by decide
/-- The hypotheses of `C97_sun`: the adjoint irrep of SU(3). -/
example : SUN.IsLabel 3 [2, 1, 0] (Props.labelRep 3 [2, 1, 0]) ∧ ¬ SUN.isScalar [2, 1, 0] :=
  ⟨SUN.exists_label (by norm_num) (by decide) rfl, by simp [SUN.isScalar]⟩
example : EighSpec exactEigh ∧ ∃ sqrtm : {d : ℕ} → Matrix (Fin d) (Fin d) ℂ → Matrix (Fin d) (Fin d) ℂ, SqrtmInvSpec sqrtm :=
  ⟨exactEigh_spec, SO13.exists_sqrtm⟩
example : Roots.isScalar [0, 0, 0] = true ∧ Roots.isScalar [0, 1, 0] = false ∧ (∀ s ∈ [0, 1, (0 : ℤ)], 0 ≤ s) := by decide

end LieNN.Props

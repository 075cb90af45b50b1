import Verif.Proofs.SUNAlg
import Verif.Proofs.SUNMul
import Verif.Spec.Rep
import Mathlib.LinearAlgebra.Matrix.PosDef
/-!
# C69: the generators of `SU(N)` are a unitary representation
-/
namespace LieNN.Props

open Matrix Spec SUN

/-- A label that is accepted is a weight without negative entries. -/
theorem make_weight {S : List ℤ} (h : SUN.make S = .ok S) :
    IsWeight S ∧ (∀ s ∈ S, 0 ≤ s) ∧ S.getD (S.length - 1) 0 = 0 := by
  obtain ⟨-, -, hp, hl⟩ := (make_ok_iff _ _).1 h
  have hne : S ≠ [] := by rintro rfl; simp at hl
  have hpos := List.length_pos_iff.2 hne
  have hlast : S.getD (S.length - 1) 0 = 0 := by
    rw [List.getLast?_eq_getElem?, List.getElem?_eq_getElem (by omega)] at hl
    rw [List.getD_eq_getElem _ _ (by omega)]
    exact Option.some.inj hl
  refine ⟨⟨hne, hp⟩, fun s hs => ?_, hlast⟩
  obtain ⟨i, hi, rfl⟩ := List.mem_iff_getElem.1 hs
  rw [← hlast, List.getD_eq_getElem _ _ (by omega)]
  rcases Nat.lt_or_ge i (S.length - 1) with h1 | h1
  · exact List.pairwise_iff_getElem.1 hp i (S.length - 1) _ _ h1
  · have : i = S.length - 1 := by omega
    subst this
    exact le_rfl

/-- C69: for every accepted label with at least two entries, `generators(S)` does not raise and returns
the images of the standard basis of the traceless skew-Hermitian matrices under a linear map that
preserves commutators and adjoints. -/
theorem C69_generators {S : List ℤ} (hm : SUN.make S = .ok S) (h2 : 2 ≤ S.length) {d : ℕ}
    (hd : dim S = .ok (d : ℤ)) :
    ∃ f : Matrix (Fin S.length) (Fin S.length) ℂ →ₗ[ℂ] Matrix (Fin d) (Fin d) ℂ,
      generators d S = .ok ((suBasis S.length).map f) ∧
      (∀ x y, f (x * y - y * x) = f x * f y - f y * f x) ∧ ∀ x, f xᴴ = (f x)ᴴ := by
  obtain ⟨hS, h0, -⟩ := make_weight hm
  rw [dim_eq S hS] at hd
  have hd : (pats S).length = d := by
    injection hd with h
    exact_mod_cast h
  subst hd
  exact ⟨Phi S, generators_eq hS h0 h2, Phi_lie hS, fun x => (Phi_conj hS x).symm⟩

/-- C69: the standard basis is linearly independent, consists of traceless skew-Hermitian matrices, and
every such matrix is a combination with real coefficients. -/
theorem C69_basis (N : ℕ) :
    (suBasis N).length = N ^ 2 - 1 ∧
    (LinearIndependent ℂ fun k : Fin (suBasis N).length => (suBasis N).getD k 0) ∧
    (∀ x ∈ suBasis N, xᴴ = -x ∧ x.trace = 0) ∧
    ∀ y : Matrix (Fin N) (Fin N) ℂ, yᴴ = -y → y.trace = 0 → ∃ c : Fin (suBasis N).length → ℝ,
      y = ∑ k, (c k : ℂ) • (suBasis N).getD k 0 := by
  refine ⟨length_suBasis' N, suBasis_indep N, fun x hx => ⟨suBasis_skew hx, suBasis_trace hx⟩, fun y hy ht => ?_⟩
  refine ⟨fun k => (coords N y).getD k 0, ?_⟩
  rw [← zipWith_sum _ _ (length_coords _ _) rfl, expand_su hy ht]

theorem defining_make (N : ℕ) (h2 : 2 ≤ N) : SUN.make (defining N) = .ok (defining N) := by
  have hp : (defining N).Pairwise (· ≥ ·) := by
    unfold defining
    rw [List.pairwise_cons]
    refine ⟨fun b hb => ?_, ?_⟩
    · rw [List.eq_of_mem_replicate hb]
      norm_num
    · rw [List.pairwise_replicate]
      exact .inr le_rfl
  have hl : (defining N).getLast? = some 0 := by
    unfold defining
    obtain ⟨m, hm⟩ : ∃ m, N - 1 = m + 1 := ⟨N - 2, by omega⟩
    rw [hm, List.getLast?_cons, List.getLast?_replicate]
    simp
  exact (make_ok_iff _ _).2 ⟨rfl, ⟨by simp [defining], hp, hl⟩⟩

theorem length_defining (N : ℕ) (h1 : 1 ≤ N) : (defining N).length = N := by
  simp [defining]
  omega

/-- What the calls of `generators` and `np.linalg.pinv` in `algebra` are asked for: the second is the
Moore-Penrose inverse of the array of the generators. -/
def PinvOK {n d : ℕ} (pinv : Matrix (Fin n) (Fin (d * d)) ℂ → Matrix (Fin (d * d)) (Fin n) ℂ)
    (S : List ℤ) : Prop :=
  ∀ L, generators d S = .ok L → IsPinv (flatGens (genFn n L)) (pinv (flatGens (genFn n L)))

theorem flatGens_inj {n d : ℕ} {X : Fin n → Matrix (Fin d) (Fin d) ℂ} (hX : LinearIndependent ℂ X) :
    Function.Injective (flatGens X).vecMul := by
  intro v w h
  have h0 : (v - w) ᵥ* flatGens X = 0 := by
    rw [Matrix.sub_vecMul]
    exact sub_eq_zero.2 h
  have hz : ∑ k, (v - w) k • X k = 0 := by
    ext a b
    rw [← vecMul_flatGens, h0]
    rfl
  funext k
  exact sub_eq_zero.1 (Fintype.linearIndependent_iff.1 hX _ hz k)

open scoped ComplexOrder in
/-- Linearly independent generators have a Moore-Penrose inverse. -/
theorem exists_pinv {n d : ℕ} {X : Fin n → Matrix (Fin d) (Fin d) ℂ} (hX : LinearIndependent ℂ X) :
    ∃ P, IsPinv (flatGens X) P := by
  have hp := Matrix.PosDef.mul_conjTranspose_self (flatGens X) (flatGens_inj hX)
  have hu := hp.isUnit
  rw [Matrix.isUnit_iff_isUnit_det] at hu
  have e : flatGens X * ((flatGens X)ᴴ * (flatGens X * (flatGens X)ᴴ)⁻¹) = 1 := by
    rw [← Matrix.mul_assoc, Matrix.mul_nonsing_inv _ hu]
  refine ⟨(flatGens X)ᴴ * (flatGens X * (flatGens X)ᴴ)⁻¹, ?_, ?_, ?_, ?_⟩
  · rw [e, Matrix.one_mul]
  · rw [Matrix.mul_assoc, e, Matrix.mul_one]
  · rw [e, conjTranspose_one]
  · rw [conjTranspose_mul, conjTranspose_mul, conjTranspose_nonsing_inv, conjTranspose_mul,
      conjTranspose_conjTranspose, Matrix.mul_assoc]

theorem algebra_defining {N : ℕ} (h2 : 2 ≤ N) {d : ℕ} (hd : dim (defining N) = .ok (d : ℤ))
    (pinv : Matrix (Fin (N ^ 2 - 1)) (Fin (d * d)) ℂ → Matrix (Fin (d * d)) (Fin (N ^ 2 - 1)) ℂ)
    (hpinv : PinvOK pinv (defining N)) :
    ∃ F, ∀ fuel ≥ F, algebra fuel d (N ^ 2 - 1) pinv (defining N) =
      some (.ok fun i j k => (strC N i j k : ℂ)) := by
  have hl := length_defining N (by omega)
  obtain ⟨hS, h0, h1⟩ := make_weight (defining_make N h2)
  rw [dim_eq _ hS] at hd
  have hd : (pats (defining N)).length = d := by
    injection hd with h
    exact_mod_cast h
  subst hd
  have hc : (defining N).getD 0 0 ≠ (defining N).getD ((defining N).length - 1) 0 := by
    rw [h1]
    simp [defining]
  revert pinv
  generalize hdef : defining N = S at *
  subst hl
  intro pinv hpinv
  refine algebra_eq hS h0 h2 hc pinv ?_
  have := hpinv _ (generators_eq hS h0 h2)
  have hg : genFn (S.length ^ 2 - 1) ((suBasis S.length).map (Phi S)) = genX S := by
    funext k
    exact genFn_map _ _ _
  rwa [hg] at this

/-- C69: the property `algebra` returns, for enough steps of `limit_denominator`, the structure
constants of the standard basis, which are integers: it depends on the number of entries of the label
only. -/
theorem C69_algebra {S : List ℤ} (hm : SUN.make S = .ok S) (h2 : 2 ≤ S.length) {d : ℕ}
    (hd : dim (defining S.length) = .ok (d : ℤ))
    (pinv : Matrix (Fin (S.length ^ 2 - 1)) (Fin (d * d)) ℂ → Matrix (Fin (d * d)) (Fin (S.length ^ 2 - 1)) ℂ)
    (hpinv : PinvOK pinv (defining S.length)) :
    ∃ A : Fin (S.length ^ 2 - 1) → Fin (S.length ^ 2 - 1) → Fin (S.length ^ 2 - 1) → ℂ,
      (∃ F, ∀ fuel ≥ F, sunAlgebra fuel d (S.length ^ 2 - 1) pinv S = some (.ok A)) ∧
      (∀ i j k, ∃ m : ℤ, A i j k = m) ∧
      ∀ i j : Fin (S.length ^ 2 - 1),
        (suBasis S.length).getD i 0 * (suBasis S.length).getD j 0 -
          (suBasis S.length).getD j 0 * (suBasis S.length).getD i 0 =
          ∑ k, A i j k • (suBasis S.length).getD k 0 := by
  have hl := length_suBasis' S.length
  obtain ⟨F, hF⟩ := algebra_defining h2 hd pinv hpinv
  refine ⟨fun i j k => (strC S.length i j k : ℂ), ⟨F, fun fuel hf => ?_⟩, fun i j k => ?_, fun i j => ?_⟩
  · unfold sunAlgebra
    rw [if_neg (by rintro rfl; simp at h2)]
    exact hF fuel hf
  · obtain ⟨m, hm, -⟩ := strC_int S.length (i := i) (j := j) (k := k) (by rw [hl]; exact i.2)
      (by rw [hl]; exact j.2) (by rw [hl]; exact k.2)
    exact ⟨m, by simp only [hm]; norm_cast⟩
  · rw [strC_spec S.length (by rw [hl]; exact i.2) (by rw [hl]; exact j.2)]
    exact Fintype.sum_equiv (finCongr hl) _ _ fun k => rfl

/-- C69: for every accepted label with at least two entries the generators, with the array that the
property `algebra` returns, form a unitary representation. -/
theorem C69_rep {S : List ℤ} (hm : SUN.make S = .ok S) (h2 : 2 ≤ S.length) {d₀ d : ℕ}
    (hd₀ : dim (defining S.length) = .ok (d₀ : ℤ)) (hd : dim S = .ok (d : ℤ))
    (pinv : Matrix (Fin (S.length ^ 2 - 1)) (Fin (d₀ * d₀)) ℂ →
      Matrix (Fin (d₀ * d₀)) (Fin (S.length ^ 2 - 1)) ℂ)
    (hpinv : PinvOK pinv (defining S.length)) :
    ∃ A L F, generators d S = .ok L ∧ L.length = S.length ^ 2 - 1 ∧
      (∀ fuel ≥ F, sunAlgebra fuel d₀ (S.length ^ 2 - 1) pinv S = some (.ok A)) ∧
      IsRep (⟨A, genFn (S.length ^ 2 - 1) L, Fin.elim0⟩ : Rep (S.length ^ 2 - 1) 0 d) ∧
      IsUnitaryRep (⟨A, genFn (S.length ^ 2 - 1) L, Fin.elim0⟩ : Rep (S.length ^ 2 - 1) 0 d) := by
  obtain ⟨A, ⟨F, hF⟩, -, hA⟩ := C69_algebra hm h2 hd₀ pinv hpinv
  obtain ⟨f, hf, hlie, hstar⟩ := C69_generators hm h2 hd
  have hl := length_suBasis' S.length
  refine ⟨A, _, F, hf, by rw [List.length_map, hl], hF, ?_, ?_, ?_⟩
  · intro i j
    change genFn _ _ i * genFn _ _ j - genFn _ _ j * genFn _ _ i = ∑ k, A i j k • genFn _ _ k
    simp only [genFn_map]
    rw [← hlie, hA, map_sum]
    exact Finset.sum_congr rfl fun k _ => map_smul _ _ _
  · exact fun a => a.elim0
  · intro a
    change (genFn _ _ a)ᴴ = - genFn _ _ a
    rw [genFn_map, ← hstar, suBasis_skew (getD_mem (by rw [hl]; exact a.2)), map_neg]

/-- C69: if the label is not all zeros, the generators are linearly independent. -/
theorem C69_faithful {S : List ℤ} (hm : SUN.make S = .ok S) (hne : ∃ s ∈ S, s ≠ 0) {d : ℕ}
    (hd : dim S = .ok (d : ℤ)) {L : List (Matrix (Fin d) (Fin d) ℂ)} (hL : generators d S = .ok L) :
    LinearIndependent ℂ (genFn (S.length ^ 2 - 1) L) := by
  obtain ⟨hS, h0, hlast⟩ := make_weight hm
  have h2 : 2 ≤ S.length := by
    obtain ⟨s, hs, hs0⟩ := hne
    by_contra h
    have hpos := List.length_pos_iff.2 hS.1
    have h1 : S.length = 1 := by omega
    obtain ⟨a, rfl⟩ := List.length_eq_one_iff.1 h1
    simp at hs hlast
    exact hs0 (hs.trans hlast)
  have hc : S.getD 0 0 ≠ S.getD (S.length - 1) 0 := by
    obtain ⟨s, hs, hs0⟩ := hne
    rw [hlast]
    obtain ⟨i, hi, rfl⟩ := List.mem_iff_getElem.1 hs
    have h1 := h0 _ hs
    rw [List.getD_eq_getElem _ _ (by omega)]
    rcases Nat.eq_zero_or_pos i with rfl | hip
    · exact hs0
    · have := List.pairwise_iff_getElem.1 hS.2 0 i (by omega) hi hip
      omega
  rw [dim_eq S hS] at hd
  have hd : (pats S).length = d := by
    injection hd with h
    exact_mod_cast h
  subst hd
  rw [generators_eq hS h0 h2] at hL
  cases hL
  have hg : genFn (S.length ^ 2 - 1) ((suBasis S.length).map (Phi S)) = genX S := by
    funext k
    exact genFn_map _ _ _
  rw [hg]
  exact genX_indep hS hc

/-- C69: if the label is all zeros, the representation is trivial: it has dimension one and the
generators are zero. -/
theorem C69_scalar {S : List ℤ} (hm : SUN.make S = .ok S) (h2 : 2 ≤ S.length) (hs : SUN.isScalar S) :
    dim S = .ok 1 ∧ ∃ L, generators 1 S = .ok L ∧ L.length = S.length ^ 2 - 1 ∧ ∀ x ∈ L, x = 0 := by
  obtain ⟨hS, h0, -⟩ := make_weight hm
  have huniq : ∀ M, IsGT S M → ∀ i j, i + j < S.length → ent M i j = 0 := by
    intro M hM i
    induction i with
    | zero =>
      intro j hj
      have h := hM.2.1
      cases M with
      | nil => simp at h
      | cons R M =>
        simp only [List.head?_cons, Option.some.injEq] at h
        subst h
        simp only [ent, List.getD_cons_zero]
        rw [List.getD_eq_getElem _ _ (by omega)]
        exact hs _ (List.getElem_mem _)
    | succ i ih =>
      intro j hj
      have := hM.2.2 i j (by rw [hM.1.1]; omega)
      rw [ih j (by omega), ih (j + 1) (by omega)] at this
      omega
  have hone : (pats S).length = 1 := by
    have hmem := (mem_pats S hS (topPat S)).2 (topPat_isGT hS)
    have hall : ∀ M ∈ pats S, M = topPat S := by
      intro M hM
      have h1 := (mem_pats S hS M).1 hM
      refine tri_ext h1.1 (topPat_tri S) fun i j hij => ?_
      rw [huniq M h1 i j hij, huniq _ (topPat_isGT hS) i j hij]
    have hnd : (pats S).Nodup := (pats_sorted S hS).imp fun h => ne_of_lt h
    rw [List.eq_replicate_of_mem hall] at hnd
    have h1 := List.nodup_replicate.1 hnd
    have h3 := List.length_pos_of_mem hmem
    omega
  have hd : dim S = .ok 1 := by
    rw [dim_eq S hS, hone]
    rfl
  obtain ⟨f, hf, hlie, -⟩ := C69_generators hm h2 (d := 1) hd
  refine ⟨hd, _, hf, by rw [List.length_map, length_suBasis'], fun x hx => ?_⟩
  have hcomm : ∀ a b : Matrix (Fin 1) (Fin 1) ℂ, a * b - b * a = 0 := by
    intro a b
    ext i j
    rw [Subsingleton.elim i 0, Subsingleton.elim j 0]
    simp [Matrix.mul_apply, mul_comm]
  have h0' : ∀ x y, f (x * y - y * x) = 0 := fun x y => by rw [hlie, hcomm]
  have hoff : ∀ k l, k ≠ l → k < S.length → l < S.length → f (unit S.length k l) = 0 := by
    intro k l hkl hk hl
    have := h0' (unit S.length k k) (unit S.length k l)
    rwa [unit_mul_unit _ _ _ _ _ hk, unit_mul_unit _ _ _ _ _ hl, if_pos rfl, if_neg (Ne.symm hkl), sub_zero] at this
  obtain ⟨y, hy, rfl⟩ := List.mem_map.1 hx
  rcases mem_suBasis hy with ⟨k, l, h, h', rfl⟩ | ⟨k, l, h, h', rfl⟩ | ⟨t, h, rfl⟩
  · rw [map_smul, map_add, hoff _ _ (by omega) (by omega) h', hoff _ _ (by omega) h' (by omega), add_zero, smul_zero]
  · rw [map_sub, hoff _ _ (by omega) (by omega) h', hoff _ _ (by omega) h' (by omega), sub_zero]
  · have := h0' (unit S.length t (t + 1)) (unit S.length (t + 1) t)
    rw [unit_mul_unit _ _ _ _ _ h, unit_mul_unit _ _ _ _ _ (by omega), if_pos rfl, if_pos rfl] at this
    rw [map_smul, this, smul_zero]

/-- C69: the label with one entry: one generator, which is zero, and a zero algebra. -/
theorem C69_one (fuel d n : ℕ) (pinv : Matrix (Fin n) (Fin (d * d)) ℂ → Matrix (Fin (d * d)) (Fin n) ℂ) :
    dim [0] = .ok 1 ∧ generators 1 [0] = .ok [0] ∧ sunAlgebra fuel d n pinv [0] = some (.ok fun _ _ _ => 0) ∧
    IsRep (⟨fun _ _ _ => 0, genFn 1 [0], Fin.elim0⟩ : Rep 1 0 1) := by
  refine ⟨?_, ?_, ?_, ?_⟩
  · rw [dim_eq _ ⟨by simp, by simp⟩, pats_single]
    rfl
  · simp [generators]
  · simp [sunAlgebra]
  · intro i j
    simp [genFn]

/-- Non-vacuity: the eight-dimensional representation of `SU(3)`. -/
example : SUN.make [2, 1, 0] = .ok [2, 1, 0] ∧ dim [2, 1, 0] = .ok 8 ∧ dim (defining 3) = .ok 3 ∧
    ∃ s ∈ ([2, 1, 0] : List ℤ), s ≠ 0 := by
  refine ⟨rfl, by decide +kernel, by decide +kernel, 2, by simp, by norm_num⟩

/-- Non-vacuity: for every `N` there is a function that satisfies what is asked of `np.linalg.pinv`. -/
example (N d : ℕ) (h2 : 2 ≤ N) (hd : dim (defining N) = .ok (d : ℤ)) :
    ∃ pinv : Matrix (Fin (N ^ 2 - 1)) (Fin (d * d)) ℂ → Matrix (Fin (d * d)) (Fin (N ^ 2 - 1)) ℂ,
      PinvOK pinv (defining N) := by
  have hm := defining_make N h2
  have hl := length_defining N (by omega)
  cases hg : generators d (defining N) with
  | error e => exact ⟨fun _ => 0, fun L hL => by rw [hg] at hL; cases hL⟩
  | ok L =>
    have hi := C69_faithful hm ⟨1, by simp [defining], one_ne_zero⟩ hd hg
    rw [hl] at hi
    obtain ⟨P, hP⟩ := exists_pinv hi
    exact ⟨fun _ => P, fun L' hL => by rw [hg] at hL; cases hL; exact hP⟩

end LieNN.Props

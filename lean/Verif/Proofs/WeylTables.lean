import Verif.Proofs.Weyl
import Verif.Proofs.CompleteAux
import Mathlib.Data.Matrix.Basis
/-!
# Weyl's theorem for the structure constants of the tables
-/
namespace LieNN.Semi

open Matrix LieNN LieNN.Spec Module LieNN.Highest

variable {N d e : ℕ} {A : Fin N → Fin N → Fin N → ℂ}

theorem Brackets.of_isRep {h : ℕ} {r : Rep N h d} (hr : IsRep r) : Brackets r.A r.X := hr

theorem cas_equivalent {g : Fin N → Fin N → ℂ} {X : Fin N → Matrix (Fin d) (Fin d) ℂ} {Y : Fin N → Matrix (Fin e) (Fin e) ℂ}
    (h : Equivalent X Y) (h0 : cas g X = 0) : cas g Y = 0 := by
  obtain ⟨Q, P, h1, h2, h3⟩ := h
  have key : cas g X * Q = Q * cas g Y := by
    unfold cas
    rw [Matrix.sum_mul, Matrix.mul_sum]
    refine Finset.sum_congr rfl fun a _ => ?_
    rw [Matrix.sum_mul, Matrix.mul_sum]
    refine Finset.sum_congr rfl fun b _ => ?_
    rw [Matrix.smul_mul, Matrix.mul_smul, Matrix.mul_assoc, h3, ← Matrix.mul_assoc, h3, Matrix.mul_assoc]
  rw [h0, Matrix.zero_mul] at key
  calc cas g Y = P * (Q * cas g Y) := by rw [← Matrix.mul_assoc, h2, Matrix.one_mul]
    _ = 0 := by rw [← key, Matrix.mul_zero]

theorem zero_equivalent {X : Fin N → Matrix (Fin d) (Fin d) ℂ} {Y : Fin N → Matrix (Fin e) (Fin e) ℂ} (h : Equivalent X Y)
    (h0 : ∀ a, Y a = 0) (a : Fin N) : X a = 0 := by
  obtain ⟨Q, P, h1, h2, h3⟩ := h
  calc X a = X a * Q * P := by rw [Matrix.mul_assoc, h1, Matrix.mul_one]
    _ = 0 := by rw [h3, h0, Matrix.mul_zero, Matrix.zero_mul]

theorem zero_of_sum_squares {ι : Type*} [Fintype ι] {M : ι → Matrix (Fin d) (Fin d) ℂ} (h : ∑ i, M i * (M i)ᴴ = 0) (i : ι) :
    M i = 0 := by
  have hr : ∑ i, ∑ x, ∑ y, Complex.normSq (M i x y) = 0 := by
    have h1 := congrArg Matrix.trace h
    rw [trace_sum, trace_zero] at h1
    have h2 : ∀ i, (M i * (M i)ᴴ).trace = ((∑ x, ∑ y, Complex.normSq (M i x y) : ℝ) : ℂ) := by
      intro i
      simp only [Matrix.trace, Matrix.diag, Matrix.mul_apply, conjTranspose_apply]
      push_cast
      refine Finset.sum_congr rfl fun x _ => Finset.sum_congr rfl fun y _ => ?_
      rw [Complex.normSq_eq_conj_mul_self, mul_comm]
      rfl
    simp only [h2] at h1
    exact_mod_cast h1
  have hnn : ∀ i, 0 ≤ ∑ x, ∑ y, Complex.normSq (M i x y) := fun i =>
    Finset.sum_nonneg fun x _ => Finset.sum_nonneg fun y _ => Complex.normSq_nonneg _
  have h3 := (Finset.sum_eq_zero_iff_of_nonneg fun i _ => hnn i).1 hr i (Finset.mem_univ i)
  ext x y
  have h4 := (Finset.sum_eq_zero_iff_of_nonneg fun x _ => Finset.sum_nonneg fun y _ => Complex.normSq_nonneg _).1 h3 x (Finset.mem_univ x)
  exact Complex.normSq_eq_zero.1 ((Finset.sum_eq_zero_iff_of_nonneg fun y _ => Complex.normSq_nonneg _).1 h4 y (Finset.mem_univ y))

/-- The form of an orthonormal basis. -/
def del (a b : Fin N) : ℂ := if a = b then 1 else 0

theorem cas_del {R : Type*} [Ring R] [Algebra ℂ R] (X : Fin N → R) : cas del X = ∑ a, X a * X a := by
  unfold cas del
  simp [ite_smul]

theorem comm_del (hA : ∀ a b c, A a b c = -A a c b) (R : Type*) [Ring R] [Algebra ℂ R] (X : Fin N → R) (hX : Brackets A X) (c : Fin N) :
    X c * cas del X = cas del X * X c := by
  rw [cas_del, ← sub_eq_zero, Finset.mul_sum, Finset.sum_mul, ← Finset.sum_sub_distrib]
  have h1 : ∀ b, X c * (X b * X b) - X b * X b * X c = ∑ k, A c b k • (X k * X b) + ∑ k, A c b k • (X b * X k) := by
    intro b
    have : X c * (X b * X b) - X b * X b * X c = (X c * X b - X b * X c) * X b + X b * (X c * X b - X b * X c) := by noncomm_ring
    rw [this, hX c b, Finset.sum_mul, Finset.mul_sum]
    simp only [smul_mul_assoc, mul_smul_comm]
  simp only [h1]
  rw [Finset.sum_add_distrib, Finset.sum_comm (f := fun b k => A c b k • (X b * X k)), ← Finset.sum_add_distrib]
  refine Finset.sum_eq_zero fun b _ => ?_
  rw [← Finset.sum_add_distrib]
  refine Finset.sum_eq_zero fun k _ => ?_
  rw [hA c k b, neg_smul, add_neg_cancel]

theorem perf_del (hA : ∀ c, ∃ a b, ∀ k, A a b k = if k = c then 1 else 0) (E : Type) [AddCommGroup E] [Module ℂ E]
    (X : Fin N → End ℂ E) (v : E) (hX : Brackets A X) (h : ∀ a b, X a (X b v) = 0) (c : Fin N) : X c v = 0 := by
  obtain ⟨a, b, hab⟩ := hA c
  have h1 := congrArg (fun f : End ℂ E => f v) (hX a b)
  simp only [hab, ite_smul, one_smul, zero_smul, Finset.sum_ite_eq', Finset.mem_univ, if_true] at h1
  rw [← h1, LinearMap.sub_apply, Module.End.mul_apply, Module.End.mul_apply, h, h, sub_self]

theorem pos_del {k : ℕ} {Y : Fin N → Matrix (Fin k) (Fin k) ℂ} {Z : Fin N → Matrix (Fin e) (Fin e) ℂ} (h : Equivalent Y Z)
    (hZ : ∀ a, (Z a)ᴴ = -Z a) (h0 : cas del Y = 0) (a : Fin N) : Y a = 0 := by
  refine zero_equivalent h (zero_of_sum_squares ?_) a
  have := cas_equivalent h h0
  rw [cas_del] at this
  simp only [hZ, Matrix.mul_neg, Finset.sum_neg_distrib, this, neg_zero]

theorem reductive_su2 : Reductive SU2.algebra del := by
  refine ⟨comm_del ?_, perf_del ?_, fun {k} Y hY hirr h0 => ?_⟩
  · intro a b c
    fin_cases a <;> fin_cases b <;> fin_cases c <;> simp [SU2.algebra]
  · intro c
    fin_cases c
    · exact ⟨1, 2, fun k => by fin_cases k <;> simp [SU2.algebra]⟩
    · exact ⟨2, 0, fun k => by fin_cases k <;> simp [SU2.algebra]⟩
    · exact ⟨0, 1, fun k => by fin_cases k <;> simp [SU2.algebra]⟩
  · obtain ⟨j, hj⟩ := su2_complete (CGSpace.su2Mats_of_isRep (r := (⟨SU2.algebra, Y, Fin.elim0⟩ : Rep 3 0 k)) rfl hY) hirr
    exact pos_del hj SU2.skew h0

theorem reductive_sl2c : Reductive SL2C.algebra del := by
  refine ⟨comm_del ?_, perf_del ?_, fun {k} Y hY hirr h0 => ?_⟩
  · intro a b c
    have : ∀ a b c : Fin 6, SL2C.algZ 1 a b c = -SL2C.algZ 1 a c b := by decide +kernel
    unfold SL2C.algebra
    rw [this, Int.cast_neg]
  · intro c
    have : ∀ c : Fin 6, ∃ a b, ∀ k, SL2C.algZ 1 a b k = if k = c then 1 else 0 := by decide +kernel
    obtain ⟨a, b, h⟩ := this c
    refine ⟨a, b, fun k => ?_⟩
    unfold SL2C.algebra
    rw [h]
    split_ifs <;> simp
  · obtain ⟨j, hj⟩ := sl2c_complete (r := (⟨SL2C.algebra, Y, Fin.elim0⟩ : Rep 6 0 k)) rfl hY hirr
    exact pos_del hj (SL2C.skew j) h0

/-! ## `SUN` -/

open LieNN.SUN

section
variable {n : ℕ}

/-- The part of trace zero. -/
noncomputable def dev (n : ℕ) : Matrix (Fin n) (Fin n) ℂ →ₗ[ℂ] Matrix (Fin n) (Fin n) ℂ :=
  LinearMap.id - (traceLinearMap (Fin n) ℂ ℂ).smulRight ((n : ℂ)⁻¹ • (1 : Matrix (Fin n) (Fin n) ℂ))

theorem dev_apply (x : Matrix (Fin n) (Fin n) ℂ) : dev n x = x - x.trace • (n : ℂ)⁻¹ • 1 := rfl

theorem dev_trace (hn : n ≠ 0) (x : Matrix (Fin n) (Fin n) ℂ) : (dev n x).trace = 0 := by
  rw [dev_apply, trace_sub, trace_smul, trace_smul, trace_one, Fintype.card_fin, smul_eq_mul, smul_eq_mul,
    inv_mul_cancel₀ (by exact_mod_cast hn), mul_one, sub_self]

theorem dev_eq {x : Matrix (Fin n) (Fin n) ℂ} (h : x.trace = 0) : dev n x = x := by
  rw [dev_apply, h, zero_smul, sub_zero]

theorem dev_one (hn : n ≠ 0) : dev n 1 = 0 := by
  rw [dev_apply, trace_one, Fintype.card_fin, smul_smul, mul_inv_cancel₀ (by exact_mod_cast hn), one_smul, sub_self]

theorem dev_lie (x y : Matrix (Fin n) (Fin n) ℂ) : dev n (x * y - y * x) = dev n x * dev n y - dev n y * dev n x := by
  rw [dev_eq (by rw [trace_sub, trace_mul_comm, sub_self]), dev_apply, dev_apply]
  simp only [Matrix.sub_mul, Matrix.mul_sub, Matrix.smul_mul, Matrix.mul_smul, Matrix.one_mul, Matrix.mul_one]
  module

theorem exists_coef (hn : n ≠ 0) : ∃ c : Fin n → Fin n → Fin (n ^ 2 - 1) → ℂ,
    ∀ i j, dev n (Matrix.single i j 1) = ∑ k : Fin (n ^ 2 - 1), c i j k • (suBasis n).getD k 0 := by
  have h : ∀ i j : Fin n, ∃ c : Fin (n ^ 2 - 1) → ℂ, dev n (Matrix.single i j 1) = ∑ k : Fin (n ^ 2 - 1), c k • (suBasis n).getD k 0 := by
    intro i j
    have h1 := suBasis_span n _ (dev_trace hn (Matrix.single i j 1))
    have h2 : dev n (Matrix.single i j 1) ∈ Submodule.span ℂ (Set.range fun k : Fin (n ^ 2 - 1) => (suBasis n).getD k 0) := by
      refine Submodule.span_mono ?_ h1
      rintro _ ⟨k, rfl⟩
      exact ⟨finCongr (length_suBasis' n) k, rfl⟩
    obtain ⟨c, hc⟩ := (Submodule.mem_span_range_iff_exists_fun ℂ).1 h2
    exact ⟨c, hc.symm⟩
  choose c hc using h
  exact ⟨c, hc⟩

variable {A : Fin (n ^ 2 - 1) → Fin (n ^ 2 - 1) → Fin (n ^ 2 - 1) → ℂ}

/-- The representation with the identity sent to zero. -/
theorem exists_hom0 {R : Type*} [Ring R] [Algebra ℂ R] (hn : n ≠ 0)
    (hA : ∀ i j : Fin (n ^ 2 - 1), (suBasis n).getD i 0 * (suBasis n).getD j 0 - (suBasis n).getD j 0 * (suBasis n).getD i 0 =
      ∑ k : Fin (n ^ 2 - 1), A i j k • (suBasis n).getD k 0) {X : Fin (n ^ 2 - 1) → R} (hX : Brackets A X)
    {c : Fin n → Fin n → Fin (n ^ 2 - 1) → ℂ}
    (hc : ∀ i j, dev n (Matrix.single i j 1) = ∑ k : Fin (n ^ 2 - 1), c i j k • (suBasis n).getD k 0) :
    ∃ f : Matrix (Fin n) (Fin n) ℂ →ₗ[ℂ] R, GLHom f ∧ f 1 = 0 ∧ (∀ i j, f (Matrix.single i j 1) = ∑ k, c i j k • X k) ∧
      ∀ k : Fin (n ^ 2 - 1), f ((suBasis n).getD k 0) = X k := by
  obtain ⟨f, hf, hfX⟩ := exists_hom hn hA hX
  refine ⟨f ∘ₗ dev n, ⟨fun x y => ?_⟩, ?_, fun i j => ?_, fun k => ?_⟩
  · rw [LinearMap.comp_apply, dev_lie, hf.lie]
    rfl
  · rw [LinearMap.comp_apply, dev_one hn, map_zero]
  · rw [LinearMap.comp_apply, hc, map_sum]
    simp only [map_smul, hfX]
  · rw [LinearMap.comp_apply, dev_eq (suBasis_trace (getD_mem (by rw [length_suBasis']; exact k.2))), hfX]

theorem map_entries {R : Type*} [AddCommGroup R] [Module ℂ R] (f : Matrix (Fin n) (Fin n) ℂ →ₗ[ℂ] R) (x : Matrix (Fin n) (Fin n) ℂ) :
    f x = ∑ i, ∑ j, x i j • f (Matrix.single i j 1) := by
  conv_lhs => rw [Matrix.matrix_eq_sum_single x]
  simp only [map_sum]
  refine Finset.sum_congr rfl fun i _ => Finset.sum_congr rfl fun j _ => ?_
  rw [← map_smul, Matrix.smul_single, smul_eq_mul, mul_one]

/-- The inverse of the trace form. -/
def formOf (c : Fin n → Fin n → Fin (n ^ 2 - 1) → ℂ) (a b : Fin (n ^ 2 - 1)) : ℂ := ∑ i, ∑ j, c i j a * c j i b

theorem cas_formOf {R : Type*} [Ring R] [Algebra ℂ R] (c : Fin n → Fin n → Fin (n ^ 2 - 1) → ℂ) (X : Fin (n ^ 2 - 1) → R) :
    cas (formOf c) X = ∑ i, ∑ j, (∑ k, c i j k • X k) * ∑ k, c j i k • X k := by
  unfold cas formOf
  simp only [Finset.sum_smul, Finset.sum_mul_sum, smul_mul_smul_comm]
  rw [Finset.sum_congr rfl fun a _ => Finset.sum_comm, Finset.sum_comm]
  refine Finset.sum_congr rfl fun i _ => ?_
  rw [Finset.sum_congr rfl fun a _ => Finset.sum_comm, Finset.sum_comm]

theorem single_lie (k l i j : Fin n) : Matrix.single k l (1 : ℂ) * Matrix.single i j 1 - Matrix.single i j 1 * Matrix.single k l 1 =
    (if l = i then Matrix.single k j 1 else 0) - (if j = k then Matrix.single i l 1 else 0) := by
  congr 1
  · split_ifs with h
    · subst h; simp
    · rw [Matrix.single_mul_single_of_ne _ _ _ _ h]
  · split_ifs with h
    · subst h; simp
    · rw [Matrix.single_mul_single_of_ne _ _ _ _ h]

theorem comm_gl {R : Type*} [Ring R] [Algebra ℂ R] {f : Matrix (Fin n) (Fin n) ℂ →ₗ[ℂ] R} (hf : GLHom f) (x : Matrix (Fin n) (Fin n) ℂ) :
    f x * (∑ i, ∑ j, f (Matrix.single i j 1) * f (Matrix.single j i 1)) =
      (∑ i, ∑ j, f (Matrix.single i j 1) * f (Matrix.single j i 1)) * f x := by
  set Ω := ∑ i, ∑ j, f (Matrix.single i j 1) * f (Matrix.single j i 1) with hΩ
  have key : ∀ k l, f (Matrix.single k l 1) * Ω = Ω * f (Matrix.single k l 1) := by
    intro k l
    rw [← sub_eq_zero, hΩ, Finset.mul_sum, Finset.sum_mul, ← Finset.sum_sub_distrib]
    have h1 : ∀ i j, f (Matrix.single k l 1) * (f (Matrix.single i j 1) * f (Matrix.single j i 1)) -
        f (Matrix.single i j 1) * f (Matrix.single j i 1) * f (Matrix.single k l 1) =
        ((if l = i then f (Matrix.single k j 1) else 0) - (if j = k then f (Matrix.single i l 1) else 0)) * f (Matrix.single j i 1) +
        f (Matrix.single i j 1) * ((if l = j then f (Matrix.single k i 1) else 0) - (if i = k then f (Matrix.single j l 1) else 0)) := by
      intro i j
      have e : ∀ i j, f (Matrix.single k l 1) * f (Matrix.single i j 1) - f (Matrix.single i j 1) * f (Matrix.single k l 1) =
          (if l = i then f (Matrix.single k j 1) else 0) - (if j = k then f (Matrix.single i l 1) else 0) := by
        intro i j
        rw [← hf.lie, single_lie, map_sub]
        congr 1 <;> split_ifs <;> simp
      rw [← e i j, ← e j i]
      noncomm_ring
    simp only [Finset.mul_sum, Finset.sum_mul, ← Finset.sum_sub_distrib, h1]
    simp only [sub_mul, mul_sub, ite_mul, mul_ite, zero_mul, mul_zero, Finset.sum_add_distrib, Finset.sum_sub_distrib,
      Finset.sum_ite_eq, Finset.sum_ite_eq', Finset.mem_univ, if_true]
    rw [Finset.sum_comm (f := fun i j => if l = i then _ else _), Finset.sum_comm (f := fun i j => if i = k then _ else _)]
    simp only [Finset.sum_ite_eq, Finset.sum_ite_eq', Finset.mem_univ, if_true]
    abel
  rw [map_entries f x, Finset.sum_mul, Finset.mul_sum]
  refine Finset.sum_congr rfl fun i _ => ?_
  rw [Finset.sum_mul, Finset.mul_sum]
  refine Finset.sum_congr rfl fun j _ => ?_
  rw [smul_mul_assoc, mul_smul_comm, key]

theorem comm_sun (hn : n ≠ 0)
    (hA : ∀ i j : Fin (n ^ 2 - 1), (suBasis n).getD i 0 * (suBasis n).getD j 0 - (suBasis n).getD j 0 * (suBasis n).getD i 0 =
      ∑ k : Fin (n ^ 2 - 1), A i j k • (suBasis n).getD k 0)
    {c : Fin n → Fin n → Fin (n ^ 2 - 1) → ℂ}
    (hc : ∀ i j, dev n (Matrix.single i j 1) = ∑ k : Fin (n ^ 2 - 1), c i j k • (suBasis n).getD k 0)
    (R : Type) [Ring R] [Algebra ℂ R] (X : Fin (n ^ 2 - 1) → R) (hX : Brackets A X) (a : Fin (n ^ 2 - 1)) :
    X a * cas (formOf c) X = cas (formOf c) X * X a := by
  obtain ⟨f, hf, -, hfc, hfX⟩ := exists_hom0 hn hA hX hc
  rw [cas_formOf]
  simp only [← hfc]
  rw [← hfX a]
  exact comm_gl hf _

theorem perf_sun (hn : n ≠ 0)
    (hA : ∀ i j : Fin (n ^ 2 - 1), (suBasis n).getD i 0 * (suBasis n).getD j 0 - (suBasis n).getD j 0 * (suBasis n).getD i 0 =
      ∑ k : Fin (n ^ 2 - 1), A i j k • (suBasis n).getD k 0)
    {c : Fin n → Fin n → Fin (n ^ 2 - 1) → ℂ}
    (hc : ∀ i j, dev n (Matrix.single i j 1) = ∑ k : Fin (n ^ 2 - 1), c i j k • (suBasis n).getD k 0)
    (E : Type) [AddCommGroup E] [Module ℂ E] (X : Fin (n ^ 2 - 1) → End ℂ E) (v : E) (hX : Brackets A X)
    (h : ∀ a b, X a (X b v) = 0) (a : Fin (n ^ 2 - 1)) : X a v = 0 := by
  obtain ⟨f, hf, hf1, hfc, hfX⟩ := exists_hom0 hn hA hX hc
  have h0 : ∀ i j k l, f (Matrix.single i j 1) (f (Matrix.single k l 1) v) = 0 := by
    intro i j k l
    rw [hfc, hfc]
    simp [LinearMap.sum_apply, h]
  have hl : ∀ i j k l, f (Matrix.single k l 1 * Matrix.single i j 1 - Matrix.single i j 1 * Matrix.single k l 1) v = 0 := by
    intro i j k l
    rw [hf.lie, LinearMap.sub_apply, Module.End.mul_apply, Module.End.mul_apply, h0, h0, sub_self]
  have hoff : ∀ i j, i ≠ j → f (Matrix.single i j 1) v = 0 := by
    intro i j hij
    have := hl i j i i
    rwa [single_lie, if_pos rfl, if_neg hij.symm, sub_zero] at this
  have hdiag : ∀ i j, f (Matrix.single i i 1) v = f (Matrix.single j j 1) v := by
    intro i j
    by_cases hij : i = j
    · rw [hij]
    have := hl j i i j
    rw [single_lie, if_pos rfl, if_pos rfl, map_sub, LinearMap.sub_apply] at this
    exact sub_eq_zero.1 this
  have hd0 : ∀ i, f (Matrix.single i i 1) v = 0 := by
    intro i
    have h1 := congrArg (fun g : End ℂ E => g v) hf1
    rw [map_entries f 1] at h1
    simp only [Matrix.one_apply, ite_smul, one_smul, zero_smul, Finset.sum_ite_eq, Finset.mem_univ, if_true, LinearMap.sum_apply,
      hdiag _ i, Finset.sum_const, Finset.card_univ, Fintype.card_fin, LinearMap.zero_apply] at h1
    rw [← Nat.cast_smul_eq_nsmul ℂ, smul_eq_zero] at h1
    exact h1.resolve_left (by exact_mod_cast hn)
  rw [← hfX a, map_entries f]
  simp only [LinearMap.sum_apply, LinearMap.smul_apply]
  refine Finset.sum_eq_zero fun i _ => Finset.sum_eq_zero fun j _ => ?_
  by_cases hij : i = j
  · rw [hij, hd0, smul_zero]
  · rw [hoff i j hij, smul_zero]

theorem pos_sun (hn : n ≠ 0)
    (hA : ∀ i j : Fin (n ^ 2 - 1), (suBasis n).getD i 0 * (suBasis n).getD j 0 - (suBasis n).getD j 0 * (suBasis n).getD i 0 =
      ∑ k : Fin (n ^ 2 - 1), A i j k • (suBasis n).getD k 0)
    {c : Fin n → Fin n → Fin (n ^ 2 - 1) → ℂ}
    (hc : ∀ i j, dev n (Matrix.single i j 1) = ∑ k : Fin (n ^ 2 - 1), c i j k • (suBasis n).getD k 0)
    {Z : Fin (n ^ 2 - 1) → Matrix (Fin e) (Fin e) ℂ} (hB : Brackets A Z) (hs : ∀ a, (Z a)ᴴ = -Z a)
    (h1 : cas (formOf c) Z = 0) (a : Fin (n ^ 2 - 1)) : Z a = 0 := by
  obtain ⟨f, hf, hf1, hfc, hfX⟩ := exists_hom0 hn hA hB hc
  have hconj : ∀ i j, (f (Matrix.single i j 1))ᴴ = f (Matrix.single j i 1) := by
    intro i j
    have e1 : (dev n (Matrix.single i j 1))ᴴ = dev n (Matrix.single j i 1) := by
      rw [dev_apply, dev_apply, conjTranspose_sub, conjTranspose_smul, conjTranspose_smul, conjTranspose_one]
      congr 1
      · ext x y
        simp [Matrix.single_apply, and_comm]
      · by_cases hij : i = j
        · subst hij
          simp [trace_single_eq_same]
        · rw [trace_single_eq_of_ne _ _ _ hij, trace_single_eq_of_ne _ _ _ (Ne.symm hij)]
          simp
    have e2 := congrArg f e1
    have e3 : ∀ x : Matrix (Fin n) (Fin n) ℂ, f (dev n x) = f x := by
      intro x
      rw [dev_apply, map_sub, map_smul, map_smul]
      simp [*]
    rw [e3, hc, conjTranspose_sum, map_sum] at e2
    rw [← e2, hfc, conjTranspose_sum]
    refine Finset.sum_congr rfl fun k _ => ?_
    rw [conjTranspose_smul, conjTranspose_smul, map_smul, hs,
      suBasis_skew (getD_mem (by rw [length_suBasis']; exact k.2)), map_neg, hfX]
  rw [cas_formOf] at h1
  simp only [← hfc] at h1
  have h3 : ∑ p : Fin n × Fin n, f (Matrix.single p.1 p.2 1) * (f (Matrix.single p.1 p.2 1))ᴴ = 0 := by
    rw [Fintype.sum_prod_type]
    simpa only [hconj] using h1
  have h4 : ∀ i j, f (Matrix.single i j 1) = 0 := fun i j => zero_of_sum_squares h3 (i, j)
  rw [← hfX a, map_entries f]
  simp [h4]

theorem reductive_sun (h2 : 2 ≤ n)
    (hA : ∀ i j : Fin (n ^ 2 - 1), (suBasis n).getD i 0 * (suBasis n).getD j 0 - (suBasis n).getD j 0 * (suBasis n).getD i 0 =
      ∑ k : Fin (n ^ 2 - 1), A i j k • (suBasis n).getD k 0) : ∃ g, Reductive A g := by
  have hn : n ≠ 0 := by omega
  obtain ⟨c, hc⟩ := exists_coef hn
  refine ⟨formOf c, comm_sun hn hA hc, perf_sun hn hA hc, fun Y hY hirr h0 => ?_⟩
  obtain ⟨S, hS, hE⟩ := exists_label_of_irreducible h2 hA hY hirr
  exact zero_equivalent hE (pos_sun hn hA hc (hS.isRep h2 hA) (hS.unitary h2).2 (cas_equivalent hE h0))
end

end LieNN.Semi

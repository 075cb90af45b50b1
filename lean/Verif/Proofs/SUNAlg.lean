import Verif.Proofs.SUNFaith
import Verif.Proofs.SUBasis
import Verif.Proofs.Algebra
import Verif.Props.Rational
import Mathlib.LinearAlgebra.Dimension.Constructions
import Mathlib.LinearAlgebra.FiniteDimensional.Basic
/-!
# Structure constants of the basis, and what `algebra` returns
-/
namespace LieNN.SUN

open Spec Matrix Finset

/-! ## Members of the basis -/

theorem mem_pairsLT {n : ℕ} {p : ℕ × ℕ} : p ∈ pairsLT n ↔ p.1 < p.2 ∧ p.2 < n := by
  constructor
  · exact genPairs_mem
  · rintro ⟨h1, h2⟩
    simp only [pairsLT, List.mem_flatMap, List.mem_range, List.mem_map, List.mem_range'_1]
    exact ⟨p.1, by omega, p.2, by omega, rfl⟩

theorem unit_conj (n k l : ℕ) : (unit n k l)ᴴ = unit n l k := by
  ext a b
  simp only [unit, conjTranspose_apply, Matrix.of_apply]
  by_cases h : (b : ℕ) = k ∧ (a : ℕ) = l
  · rw [if_pos h, if_pos h.symm, star_one]
  · rw [if_neg h, if_neg (fun h' => h h'.symm), star_zero]

theorem unit_trace (n k l : ℕ) (h : k ≠ l) : (unit n k l).trace = 0 := by
  refine sum_eq_zero fun a _ => ?_
  simp only [Matrix.diag_apply, unit, Matrix.of_apply]
  rw [if_neg]
  omega

theorem unit_trace_diag (n k : ℕ) (h : k < n) : (unit n k k).trace = 1 := by
  have : (unit n k k).trace = ∑ a : Fin n, if (⟨k, h⟩ : Fin n) = a then (1 : ℂ) else 0 := by
    refine sum_congr rfl fun a _ => ?_
    simp only [Matrix.diag_apply, unit, Matrix.of_apply, Fin.ext_iff, and_self, eq_comm]
  rw [this]
  simp

/-- The three kinds of members of the basis. -/
theorem mem_suBasis {n : ℕ} {x : Matrix (Fin n) (Fin n) ℂ} (h : x ∈ suBasis n) :
    (∃ k l, k < l ∧ l < n ∧ x = Complex.I • (unit n k l + unit n l k)) ∨
    (∃ k l, k < l ∧ l < n ∧ x = unit n k l - unit n l k) ∨
    ∃ t, t + 1 < n ∧ x = Complex.I • (unit n t t - unit n (t + 1) (t + 1)) := by
  simp only [suBasis, List.mem_append, List.mem_map, List.mem_range] at h
  rcases h with (⟨p, hp, rfl⟩ | ⟨p, hp, rfl⟩) | ⟨t, ht, rfl⟩
  · exact .inl ⟨p.1, p.2, (mem_pairsLT.1 hp).1, (mem_pairsLT.1 hp).2, rfl⟩
  · exact .inr (.inl ⟨p.1, p.2, (mem_pairsLT.1 hp).1, (mem_pairsLT.1 hp).2, rfl⟩)
  · exact .inr (.inr ⟨t, by omega, rfl⟩)

theorem suBasis_skew {n : ℕ} {x : Matrix (Fin n) (Fin n) ℂ} (h : x ∈ suBasis n) : xᴴ = -x := by
  rcases mem_suBasis h with ⟨k, l, _, _, rfl⟩ | ⟨k, l, _, _, rfl⟩ | ⟨t, _, rfl⟩
  · rw [conjTranspose_smul, conjTranspose_add, unit_conj, unit_conj, add_comm, ← neg_smul]
    congr 1
    simp
  · rw [conjTranspose_sub, unit_conj, unit_conj, neg_sub]
  · rw [conjTranspose_smul, conjTranspose_sub, unit_conj, unit_conj, ← neg_smul]
    congr 1
    simp

theorem suBasis_trace {n : ℕ} {x : Matrix (Fin n) (Fin n) ℂ} (h : x ∈ suBasis n) : x.trace = 0 := by
  rcases mem_suBasis h with ⟨k, l, h1, h2, rfl⟩ | ⟨k, l, h1, h2, rfl⟩ | ⟨t, h1, rfl⟩
  · rw [trace_smul, trace_add, unit_trace _ _ _ (by omega), unit_trace _ _ _ (by omega), add_zero, smul_zero]
  · rw [trace_sub, unit_trace _ _ _ (by omega), unit_trace _ _ _ (by omega), sub_zero]
  · rw [trace_smul, trace_sub, unit_trace_diag _ _ (by omega), unit_trace_diag _ _ h1, sub_self, smul_zero]

/-! ## Integrality and size -/

theorem unit_mem (n k l : ℕ) (a b : Fin n) : unit n k l a b ∈ GaussianInt.toComplex.range := by
  simp only [unit, Matrix.of_apply]
  split_ifs
  · exact Subring.one_mem _
  · exact Subring.zero_mem _

theorem I_mem : Complex.I ∈ GaussianInt.toComplex.range := ⟨⟨0, 1⟩, by simp [GaussianInt.toComplex_def]⟩

theorem suBasis_gauss {n : ℕ} {x : Matrix (Fin n) (Fin n) ℂ} (h : x ∈ suBasis n) (a b : Fin n) :
    x a b ∈ GaussianInt.toComplex.range := by
  rcases mem_suBasis h with ⟨k, l, _, _, rfl⟩ | ⟨k, l, _, _, rfl⟩ | ⟨t, _, rfl⟩
  · exact Subring.mul_mem _ I_mem (Subring.add_mem _ (unit_mem ..) (unit_mem ..))
  · exact Subring.sub_mem _ (unit_mem ..) (unit_mem ..)
  · exact Subring.mul_mem _ I_mem (Subring.sub_mem _ (unit_mem ..) (unit_mem ..))

theorem comm_gauss {n : ℕ} {x y : Matrix (Fin n) (Fin n) ℂ}
    (hx : ∀ a b, x a b ∈ GaussianInt.toComplex.range) (hy : ∀ a b, y a b ∈ GaussianInt.toComplex.range)
    (a b : Fin n) : (x * y - y * x) a b ∈ GaussianInt.toComplex.range := by
  rw [Matrix.sub_apply, Matrix.mul_apply, Matrix.mul_apply]
  exact Subring.sub_mem _ (Subring.sum_mem _ fun c _ => Subring.mul_mem _ (hx _ _) (hy _ _))
    (Subring.sum_mem _ fun c _ => Subring.mul_mem _ (hy _ _) (hx _ _))

/-- The sum of the absolute values of the entries. -/
noncomputable def l1 {n : ℕ} (x : Matrix (Fin n) (Fin n) ℂ) : ℝ := ∑ a, ∑ b, ‖x a b‖

theorem l1_add {n : ℕ} (x y : Matrix (Fin n) (Fin n) ℂ) : l1 (x + y) ≤ l1 x + l1 y := by
  unfold l1
  rw [← sum_add_distrib]
  refine sum_le_sum fun a _ => ?_
  rw [← sum_add_distrib]
  exact sum_le_sum fun b _ => norm_add_le _ _

theorem l1_smul {n : ℕ} (c : ℂ) (x : Matrix (Fin n) (Fin n) ℂ) : l1 (c • x) = ‖c‖ * l1 x := by
  unfold l1
  rw [mul_sum]
  refine sum_congr rfl fun a _ => ?_
  rw [mul_sum]
  exact sum_congr rfl fun b _ => norm_mul _ _

theorem l1_sub {n : ℕ} (x y : Matrix (Fin n) (Fin n) ℂ) : l1 (x - y) ≤ l1 x + l1 y := by
  have := l1_add x ((-1 : ℂ) • y)
  rw [l1_smul, neg_one_smul, ← sub_eq_add_neg] at this
  simpa using this

theorem l1_nonneg {n : ℕ} (x : Matrix (Fin n) (Fin n) ℂ) : 0 ≤ l1 x :=
  sum_nonneg fun _ _ => sum_nonneg fun _ _ => norm_nonneg _

theorem l1_mul {n : ℕ} (x y : Matrix (Fin n) (Fin n) ℂ) : l1 (x * y) ≤ l1 x * l1 y := by
  unfold l1
  have h : ∀ a, ∑ b, ‖(x * y) a b‖ ≤ ∑ c, ‖x a c‖ * ∑ b, ‖y c b‖ := by
    intro a
    calc ∑ b, ‖(x * y) a b‖ ≤ ∑ b, ∑ c, ‖x a c‖ * ‖y c b‖ := by
          refine sum_le_sum fun b _ => ?_
          rw [Matrix.mul_apply]
          refine (norm_sum_le _ _).trans (le_of_eq ?_)
          exact sum_congr rfl fun c _ => norm_mul _ _
      _ = _ := by
          rw [sum_comm]
          exact sum_congr rfl fun c _ => (mul_sum ..).symm
  calc ∑ a, ∑ b, ‖(x * y) a b‖ ≤ ∑ a, ∑ c, ‖x a c‖ * ∑ b, ‖y c b‖ := sum_le_sum fun a _ => h a
    _ ≤ ∑ a, ∑ c, ‖x a c‖ * ∑ c', ∑ b, ‖y c' b‖ := by
        refine sum_le_sum fun a _ => sum_le_sum fun c _ => ?_
        refine mul_le_mul_of_nonneg_left ?_ (norm_nonneg _)
        exact single_le_sum (f := fun c' => ∑ b, ‖y c' b‖)
          (fun c' _ => sum_nonneg fun _ _ => norm_nonneg _) (mem_univ c)
    _ = _ := by
        rw [sum_mul]
        exact sum_congr rfl fun a _ => (sum_mul ..).symm

theorem l1_unit (n k l : ℕ) : l1 (unit n k l) ≤ 1 := by
  unfold l1
  by_cases hk : k < n
  · rw [sum_eq_single (⟨k, hk⟩ : Fin n)]
    · by_cases hl : l < n
      · rw [sum_eq_single (⟨l, hl⟩ : Fin n)]
        · simp [unit]
        · intro b _ hb
          have : ¬ (b : ℕ) = l := fun e => hb (Fin.ext e)
          simp [unit, this]
        · simp
      · rw [sum_eq_zero]
        · exact zero_le_one
        · intro b _
          have : ¬ (b : ℕ) = l := by omega
          simp [unit, this]
    · intro a _ ha
      refine sum_eq_zero fun b _ => ?_
      have : ¬ (a : ℕ) = k := fun e => ha (Fin.ext e)
      simp [unit, this]
    · simp
  · rw [sum_eq_zero]
    · exact zero_le_one
    · intro a _
      refine sum_eq_zero fun b _ => ?_
      have : ¬ (a : ℕ) = k := by omega
      simp [unit, this]

theorem l1_suBasis {n : ℕ} {x : Matrix (Fin n) (Fin n) ℂ} (h : x ∈ suBasis n) : l1 x ≤ 2 := by
  rcases mem_suBasis h with ⟨k, l, _, _, rfl⟩ | ⟨k, l, _, _, rfl⟩ | ⟨t, _, rfl⟩
  · rw [l1_smul, Complex.norm_I, one_mul]
    linarith [l1_add (unit n k l) (unit n l k), l1_unit n k l, l1_unit n l k]
  · linarith [l1_sub (unit n k l) (unit n l k), l1_unit n k l, l1_unit n l k]
  · rw [l1_smul, Complex.norm_I, one_mul]
    linarith [l1_sub (unit n t t) (unit n (t + 1) (t + 1)), l1_unit n t t, l1_unit n (t + 1) (t + 1)]

theorem l1_comm {n : ℕ} {x y : Matrix (Fin n) (Fin n) ℂ} (hx : l1 x ≤ 2) (hy : l1 y ≤ 2) :
    l1 (x * y - y * x) ≤ 8 := by
  have h1 := l1_sub (x * y) (y * x)
  have h2 := l1_mul x y
  have h3 := l1_mul y x
  nlinarith [l1_nonneg x, l1_nonneg y]

theorem norm_ix {n : ℕ} (y : Matrix (Fin n) (Fin n) ℂ) (k l : ℕ) : ‖ix y k l‖ ≤ l1 y := by
  unfold ix
  split_ifs with h
  · unfold l1
    refine le_trans ?_ (single_le_sum (f := fun a => ∑ b, ‖y a b‖)
      (fun a _ => sum_nonneg fun _ _ => norm_nonneg _) (mem_univ (⟨k, h.1⟩ : Fin n)))
    exact single_le_sum (f := fun b => ‖y ⟨k, h.1⟩ b‖) (fun b _ => norm_nonneg _)
      (mem_univ (⟨l, h.2⟩ : Fin n))
  · rw [norm_zero]
    exact l1_nonneg y

theorem ix_gauss {n : ℕ} {y : Matrix (Fin n) (Fin n) ℂ}
    (hy : ∀ a b, y a b ∈ GaussianInt.toComplex.range) (k l : ℕ) : ix y k l ∈ GaussianInt.toComplex.range := by
  unfold ix
  split_ifs
  · exact hy _ _
  · exact Subring.zero_mem _

theorem norm_ix_sum {n : ℕ} (y : Matrix (Fin n) (Fin n) ℂ) {t : ℕ} (ht : t ≤ n) :
    ‖∑ s ∈ range t, ix y s s‖ ≤ l1 y := by
  refine (norm_sum_le _ _).trans ?_
  have h1 : ∑ s ∈ range t, ‖ix y s s‖ ≤ ∑ s ∈ range n, ‖ix y s s‖ :=
    sum_le_sum_of_subset_of_nonneg (range_mono ht) fun _ _ _ => norm_nonneg _
  refine h1.trans ?_
  rw [← Fin.sum_univ_eq_sum_range (fun s => ‖ix y s s‖)]
  unfold l1
  refine sum_le_sum fun a _ => ?_
  rw [ix_eq]
  exact single_le_sum (f := fun b => ‖y a b‖) (fun b _ => norm_nonneg _) (mem_univ a)

theorem gauss_parts {z : ℂ} (h : z ∈ GaussianInt.toComplex.range) :
    (∃ m : ℤ, z.re = m) ∧ ∃ m : ℤ, z.im = m := by
  obtain ⟨w, rfl⟩ := h
  exact ⟨⟨w.re, by simp⟩, ⟨w.im, by simp⟩⟩

/-- The coordinates of a commutator are integers of absolute value at most eight. -/
theorem coords_int {n : ℕ} {y : Matrix (Fin n) (Fin n) ℂ}
    (hy : ∀ a b, y a b ∈ GaussianInt.toComplex.range) (h8 : l1 y ≤ 8) {c : ℝ} (hc : c ∈ coords n y) :
    ∃ m : ℤ, c = m ∧ |m| ≤ 8 := by
  have key : ∀ z : ℂ, z ∈ GaussianInt.toComplex.range → ‖z‖ ≤ l1 y →
      (∃ m : ℤ, z.re = m ∧ |m| ≤ 8) ∧ ∃ m : ℤ, z.im = m ∧ |m| ≤ 8 := by
    intro z hz hb
    obtain ⟨⟨m, hm⟩, ⟨m', hm'⟩⟩ := gauss_parts hz
    refine ⟨⟨m, hm, ?_⟩, ⟨m', hm', ?_⟩⟩
    · have := (Complex.abs_re_le_norm z).trans (hb.trans h8)
      rw [hm] at this
      exact_mod_cast this
    · have := (Complex.abs_im_le_norm z).trans (hb.trans h8)
      rw [hm'] at this
      exact_mod_cast this
  simp only [coords, List.mem_append, List.mem_map, List.mem_range] at hc
  rcases hc with (⟨p, _, rfl⟩ | ⟨p, _, rfl⟩) | ⟨t, ht, rfl⟩
  · exact (key _ (ix_gauss hy _ _) (norm_ix y _ _)).2
  · exact (key _ (ix_gauss hy _ _) (norm_ix y _ _)).1
  · exact (key _ (Subring.sum_mem _ fun s _ => ix_gauss hy s s) (norm_ix_sum y (by omega))).2

/-! ## Structure constants -/

theorem zipWith_sum {E : Type} [AddCommMonoid E] [Module ℂ E] {m : ℕ} (C : List ℝ) (B : List E)
    (hC : C.length = m) (hB : B.length = m) :
    (List.zipWith (fun (c : ℝ) x => (c : ℂ) • x) C B).sum = ∑ k : Fin m, ((C.getD k 0 : ℝ) : ℂ) • B.getD k 0 := by
  induction C generalizing B m with
  | nil =>
    have : m = 0 := by simpa using hC.symm
    subst this
    simp
  | cons c C ih =>
    cases B with
    | nil => simp at hB; simp at hC; omega
    | cons b B =>
      obtain ⟨m', rfl⟩ : ∃ m', m = m' + 1 := ⟨C.length, by simpa using hC.symm⟩
      simp only [List.length_cons, Nat.add_right_cancel_iff] at hC hB
      rw [List.zipWith_cons_cons, List.sum_cons, ih B hC hB, Fin.sum_univ_succ]
      simp

/-- The structure constants. -/
noncomputable def strC (N : ℕ) (i j k : ℕ) : ℝ :=
  (coords N ((suBasis N).getD i 0 * (suBasis N).getD j 0 - (suBasis N).getD j 0 * (suBasis N).getD i 0)).getD k 0

theorem getD_mem {α : Type} {L : List α} {d : α} {i : ℕ} (h : i < L.length) : L.getD i d ∈ L := by
  rw [List.getD_eq_getElem _ _ h]
  exact List.getElem_mem h

theorem strC_spec (N : ℕ) {i j : ℕ} (hi : i < (suBasis N).length) (hj : j < (suBasis N).length) :
    (suBasis N).getD i 0 * (suBasis N).getD j 0 - (suBasis N).getD j 0 * (suBasis N).getD i 0 =
      ∑ k : Fin (suBasis N).length, (strC N i j k : ℂ) • (suBasis N).getD k 0 := by
  have hx := getD_mem (d := 0) hi
  have hy := getD_mem (d := 0) hj
  have hs : ((suBasis N).getD i 0 * (suBasis N).getD j 0 - (suBasis N).getD j 0 * (suBasis N).getD i 0)ᴴ =
      -((suBasis N).getD i 0 * (suBasis N).getD j 0 - (suBasis N).getD j 0 * (suBasis N).getD i 0) := by
    rw [conjTranspose_sub, conjTranspose_mul, conjTranspose_mul, suBasis_skew hx, suBasis_skew hy]
    noncomm_ring
  have ht : ((suBasis N).getD i 0 * (suBasis N).getD j 0 -
      (suBasis N).getD j 0 * (suBasis N).getD i 0).trace = 0 := by
    rw [trace_sub, trace_mul_comm, sub_self]
  have := expand_su hs ht
  rw [zipWith_sum _ _ (length_coords _ _) rfl] at this
  exact this.symm

theorem strC_int (N : ℕ) {i j k : ℕ} (hi : i < (suBasis N).length) (hj : j < (suBasis N).length)
    (hk : k < (suBasis N).length) : ∃ m : ℤ, strC N i j k = m ∧ |m| ≤ 8 := by
  have hx := getD_mem (d := 0) hi
  have hy := getD_mem (d := 0) hj
  refine coords_int (comm_gauss (suBasis_gauss hx) (suBasis_gauss hy))
    (l1_comm (l1_suBasis hx) (l1_suBasis hy)) ?_
  exact getD_mem (by rw [length_coords]; exact hk)

/-! ## Independence -/

/-- Over the complex numbers, the basis spans the matrices of trace zero. -/
theorem suBasis_span (N : ℕ) (x : Matrix (Fin N) (Fin N) ℂ) (ht : x.trace = 0) :
    x ∈ Submodule.span ℂ (Set.range fun k : Fin (suBasis N).length => (suBasis N).getD k 0) := by
  have real : ∀ y : Matrix (Fin N) (Fin N) ℂ, yᴴ = -y → y.trace = 0 →
      y ∈ Submodule.span ℂ (Set.range fun k : Fin (suBasis N).length => (suBasis N).getD k 0) := by
    intro y hy ht
    rw [← expand_su hy ht, zipWith_sum _ _ (length_coords _ _) rfl]
    exact Submodule.sum_mem _ fun k _ => Submodule.smul_mem _ _ (Submodule.subset_span ⟨k, rfl⟩)
  have e : x = (1 / 2 : ℂ) • (x - xᴴ) + (-Complex.I / 2) • (Complex.I • (x + xᴴ)) := by
    rw [smul_smul]
    have : -Complex.I / 2 * Complex.I = 1 / 2 := by
      have := Complex.I_mul_I
      linear_combination (-1 / 2) * this
    rw [this]
    module
  rw [e]
  refine Submodule.add_mem _ (Submodule.smul_mem _ _ (real _ ?_ ?_)) (Submodule.smul_mem _ _ (real _ ?_ ?_))
  · rw [conjTranspose_sub, conjTranspose_conjTranspose, neg_sub]
  · rw [trace_sub, trace_conjTranspose, ht, star_zero, sub_zero]
  · rw [conjTranspose_smul, conjTranspose_add, conjTranspose_conjTranspose, add_comm, ← neg_smul]
    congr 1
    simp
  · rw [trace_smul, trace_add, trace_conjTranspose, ht, star_zero, add_zero, smul_zero]

theorem suBasis_indep (N : ℕ) :
    LinearIndependent ℂ fun k : Fin (suBasis N).length => (suBasis N).getD k 0 := by
  rw [linearIndependent_iff_card_le_finrank_span, Fintype.card_fin]
  have hl := length_suBasis' N
  have h1 : LinearMap.ker (Matrix.traceLinearMap (Fin N) ℂ ℂ) ≤
      Submodule.span ℂ (Set.range fun k : Fin (suBasis N).length => (suBasis N).getD k 0) :=
    fun x hx => suBasis_span N x hx
  have h2 := Submodule.finrank_mono h1
  have h3 := LinearMap.finrank_range_add_finrank_ker (Matrix.traceLinearMap (Fin N) ℂ ℂ)
  have h4 : Module.finrank ℂ (LinearMap.range (Matrix.traceLinearMap (Fin N) ℂ ℂ)) ≤ 1 := by
    refine (Submodule.finrank_le _).trans ?_
    rw [Module.finrank_self]
  have h5 : Module.finrank ℂ (Matrix (Fin N) (Fin N) ℂ) = N ^ 2 := by
    rw [Module.finrank_matrix]
    simp [sq]
  refine le_trans ?_ h2
  omega

theorem Phi_indep {S : List ℤ} (hS : IsWeight S) (hc : S.getD 0 0 ≠ S.getD (S.length - 1) 0) :
    LinearIndependent ℂ fun k : Fin (suBasis S.length).length => Phi S ((suBasis S.length).getD k 0) := by
  rw [Fintype.linearIndependent_iff]
  intro g hg
  refine Fintype.linearIndependent_iff.1 (suBasis_indep S.length) g ?_
  refine Phi_faithful hS hc ?_ ?_
  · rw [trace_sum]
    refine sum_eq_zero fun k _ => ?_
    rw [trace_smul, suBasis_trace (getD_mem k.2), smul_zero]
  · rw [map_sum, ← hg]
    exact sum_congr rfl fun k _ => map_smul _ _ _

/-! ## What `algebra` returns -/

theorem genFn_map {d n : ℕ} {E : Type} [AddCommMonoid E] [Module ℂ E] (B : List E)
    (f : E →ₗ[ℂ] Matrix (Fin d) (Fin d) ℂ) (k : Fin n) : genFn n (B.map f) k = f (B.getD k 0) := by
  unfold genFn
  rw [List.getD_eq_getElem?_getD, List.getD_eq_getElem?_getD, List.getElem?_map]
  cases B[(k : ℕ)]? with
  | none => simp
  | some b => rfl

/-- All entries are real. -/
def IsRealM {d : ℕ} (x : Matrix (Fin d) (Fin d) ℂ) : Prop := ∀ a b, (x a b).im = 0

attribute [local instance 100] LieRing.ofAssociativeRing

theorem IsRealM.lie {d : ℕ} {x y : Matrix (Fin d) (Fin d) ℂ} (hx : IsRealM x) (hy : IsRealM y) :
    IsRealM ⁅x, y⁆ := by
  intro a b
  rw [Ring.lie_def, Matrix.sub_apply, Matrix.mul_apply, Matrix.mul_apply, Complex.sub_im, Complex.im_sum,
    Complex.im_sum]
  rw [sum_eq_zero, sum_eq_zero, sub_zero]
  · intro c _
    rw [Complex.mul_im, hx, hy, mul_zero, zero_mul, add_zero]
  · intro c _
    rw [Complex.mul_im, hx, hy, mul_zero, zero_mul, add_zero]

theorem GG_real (S : List ℤ) (k l : ℕ) : IsRealM (GG S k l) := by
  have hJ : ∀ i, IsRealM (Jp S i) := fun i a b => by simp [Jp]
  have up : ∀ t k, IsRealM (GL.up (Jp S) t k) := by
    intro t
    induction t with
    | zero => exact hJ
    | succ t ih => exact fun k => (hJ k).lie (ih _)
  have dn : ∀ t k, IsRealM (GL.dn (fun i => (Jp S i)ᵀ) t k) := by
    intro t
    induction t with
    | zero => exact fun k a b => hJ k b a
    | succ t ih => exact fun k => IsRealM.lie (fun a b => hJ _ b a) (ih _)
  unfold GG GL.G
  split_ifs
  · exact up _ _
  · exact dn _ _
  · intro a b
    unfold Dw
    rw [Matrix.diagonal_apply]
    split_ifs
    · exact Complex.intCast_im _
    · rfl

theorem Phi_conj {S : List ℤ} (hS : IsWeight S) (x : Matrix (Fin S.length) (Fin S.length) ℂ) :
    (Phi S x)ᴴ = Phi S xᴴ := by
  rw [Phi_apply, Phi_apply, conjTranspose_sum]
  simp only [conjTranspose_sum, conjTranspose_smul, conjTranspose_apply]
  rw [sum_comm]
  refine sum_congr rfl fun i _ => sum_congr rfl fun j _ => ?_
  congr 1
  rw [← GG_tr hS j.2 i.2]
  ext a b
  rw [conjTranspose_apply, transpose_apply]
  exact Complex.conj_eq_iff_im.2 (GG_real _ _ _ _ _)

/-- The generators as a family. -/
noncomputable def genX (S : List ℤ) (k : Fin (S.length ^ 2 - 1)) :
    Matrix (Fin (pats S).length) (Fin (pats S).length) ℂ := Phi S ((suBasis S.length).getD k 0)

theorem genX_comm {S : List ℤ} (hS : IsWeight S) (i j : Fin (S.length ^ 2 - 1)) :
    genX S i * genX S j - genX S j * genX S i = ∑ k : Fin (S.length ^ 2 - 1), (strC S.length i j k : ℂ) • genX S k := by
  have hl := length_suBasis' S.length
  unfold genX
  rw [← Phi_lie hS, strC_spec S.length (by rw [hl]; exact i.2) (by rw [hl]; exact j.2), map_sum]
  refine Fintype.sum_equiv (finCongr hl) _ _ fun k => ?_
  rw [map_smul]
  rfl

theorem genX_skew {S : List ℤ} (hS : IsWeight S) (i : Fin (S.length ^ 2 - 1)) : (genX S i)ᴴ = -genX S i := by
  unfold genX
  rw [Phi_conj hS, suBasis_skew (getD_mem (by rw [length_suBasis']; exact i.2)), map_neg]

theorem genX_indep {S : List ℤ} (hS : IsWeight S) (hc : S.getD 0 0 ≠ S.getD (S.length - 1) 0) :
    LinearIndependent ℂ (genX S) := by
  have := (Phi_indep hS hc).comp (finCongr (length_suBasis' S.length)).symm (Equiv.injective _)
  exact this

theorem roundArr_eq {n : ℕ} (c : Fin n → Fin n → Fin n → ℝ) (hc : ∀ i j k, ∃ m : ℤ, c i j k = m ∧ |m| ≤ 8) :
    ∃ F, ∀ fuel ≥ F, roundArr fuel c = some (.ok fun i j k => (c i j k : ℂ)) := by
  have h : ∀ i j k, ∃ F : ℕ, ∀ fuel ≥ F, Rational.roundSqrt fuel (c i j k : ℂ) 4096 = some (.ok (c i j k : ℂ)) := by
    intro i j k
    obtain ⟨m, hm, h8⟩ := hc i j k
    refine Props.C10_round_to_sqrt_rational (m ^ 2) 1 4096 (sq_nonneg _) le_rfl (by norm_num) ?_ _ ?_
    · have : m ^ 2 ≤ 64 := by
        have := abs_le.1 h8
        nlinarith
      norm_num
      omega
    · rw [hm]
      push_cast
      ring
  choose F hF using h
  refine ⟨∑ i, ∑ j, ∑ k, F i j k, fun fuel hf => ?_⟩
  have hv : ∀ i j k, Rational.roundSqrt fuel (c i j k : ℂ) 4096 = some (.ok (c i j k : ℂ)) := by
    intro i j k
    refine hF i j k fuel (le_trans ?_ hf)
    refine le_trans ?_ (single_le_sum (f := fun i => ∑ j, ∑ k, F i j k) (fun _ _ => Nat.zero_le _) (mem_univ i))
    refine le_trans ?_ (single_le_sum (f := fun j => ∑ k, F i j k) (fun _ _ => Nat.zero_le _) (mem_univ j))
    exact single_le_sum (f := fun k => F i j k) (fun _ _ => Nat.zero_le _) (mem_univ k)
  unfold roundArr
  simp only [hv]
  rw [if_neg (by simp), if_neg (by simp [hv])]

/-- `algebra(S)` for a label that is not constant. -/
theorem algebra_eq {S : List ℤ} (hS : IsWeight S) (h0 : ∀ s ∈ S, 0 ≤ s) (h2 : 2 ≤ S.length)
    (hc : S.getD 0 0 ≠ S.getD (S.length - 1) 0)
    (pinv : Matrix (Fin (S.length ^ 2 - 1)) (Fin ((pats S).length * (pats S).length)) ℂ →
      Matrix (Fin ((pats S).length * (pats S).length)) (Fin (S.length ^ 2 - 1)) ℂ)
    (hpinv : IsPinv (flatGens (genX S)) (pinv (flatGens (genX S)))) :
    ∃ F, ∀ fuel ≥ F, algebra fuel (pats S).length (S.length ^ 2 - 1) pinv S =
      some (.ok fun i j k => (strC S.length i j k : ℂ)) := by
  have hl := length_suBasis' S.length
  obtain ⟨F, hF⟩ := roundArr_eq (fun i j k : Fin (S.length ^ 2 - 1) => strC S.length i j k)
    fun i j k => strC_int S.length (by rw [hl]; exact i.2) (by rw [hl]; exact j.2) (by rw [hl]; exact k.2)
  refine ⟨F, fun fuel hf => ?_⟩
  unfold algebra
  rw [generators_eq hS h0 h2]
  simp only [List.length_map, hl, ne_eq, not_true, or_self, if_false]
  have hg : genFn (S.length ^ 2 - 1) ((suBasis S.length).map (Phi S)) = genX S := by
    funext k
    exact genFn_map _ _ _
  rw [hg]
  have : (fun i j k => (∑ p : Fin ((pats S).length * (pats S).length),
      commutator (genX S i) (genX S j) p.divNat p.modNat * pinv (flatGens (genX S)) p k).re) =
      fun i j k : Fin (S.length ^ 2 - 1) => strC S.length i j k := by
    funext i j k
    have hcm : commutator (genX S i) (genX S j) = ∑ k : Fin (S.length ^ 2 - 1), (strC S.length i j k : ℂ) • genX S k := genX_comm hS i j
    rw [pinv_coeff (genX_indep hS hc) hpinv hcm]
    exact Complex.ofReal_re _
  rw [this]
  exact hF fuel hf

end LieNN.SUN

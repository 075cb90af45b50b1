import Verif.Proofs.RootsData
import Verif.Proofs.SUNDim
/-! # The Weyl dimension formula on the shipped root data -/
namespace LieNN.Roots

open LieNN.Spec

variable {m : ℕ}

theorem foldl_mul_prod {α : Type} (f : α → ℚ) (l : List α) (a : ℚ) :
    l.foldl (fun d p => d * f p) a = a * (l.map f).prod := by
  induction l generalizing a with
  | nil => simp
  | cons x l ih => rw [List.foldl_cons, ih, List.map_cons, List.prod_cons, mul_assoc]

theorem dimProd_prod (S : List ℤ) : SUN.dimProd S =
    ∏ i ∈ Finset.range S.length, ∏ j ∈ Finset.range i,
      (1 + ((S.getD j 0 : ℚ) - S.getD i 0) / ((i : ℚ) - j)) := by
  rw [SUN.dimProd, foldl_mul_prod, one_mul, SUN.dimPairs, List.map_flatMap]
  simp only [List.map_map]
  rw [prod_flatMap_map, prod_map_range']
  have h : ∀ i, ((List.range' (i + 1) (S.length - (i + 1))).map
      ((fun p : ℕ × ℕ => 1 + ((S.getD p.1 0 - S.getD p.2 0 : ℤ) : ℚ) / (((p.2 : ℤ) - p.1 : ℤ) : ℚ)) ∘ fun j => (i, j))).prod =
      ∏ j ∈ Finset.Ico (i + 1) S.length, (1 + ((S.getD i 0 : ℚ) - S.getD j 0) / ((j : ℚ) - i)) := by
    intro i
    rw [Finset.prod_Ico_eq_prod_range, ← prod_map_range', List.range'_eq_map_range, List.map_map]
    congr 1
    refine List.map_congr_left fun j _ => ?_
    simp only [Function.comp]
    push_cast; ring
  simp only [h]
  refine Finset.prod_comm' ?_
  intro i j
  simp only [Finset.mem_range, Finset.mem_Ico]
  omega

theorem weylDim_pairs (f : ℕ → ℕ → Fin m → ℚ) (l ρ : Fin m → ℚ) :
    weylDim l (pairs m f) ρ = ∏ i ∈ Finset.range m, ∏ j ∈ Finset.range i, ((l + ρ) ⬝ᵥ f i j) / (ρ ⬝ᵥ f i j) := by
  rw [weylDim, map_pairs, prod_pairs]

theorem weylDim_A (S : List ℤ) : weylDim (fun k : Fin m => (S.getD k 0 : ℚ)) (pairs m (fun i j => e m j - e m i))
    (weylVector (pairs m (fun i j => e m j - e m i))) =
    ∏ i ∈ Finset.range m, ∏ j ∈ Finset.range i,
      (1 + ((S.getD j 0 : ℚ) - S.getD i 0) / ((i : ℚ) - j)) := by
  rw [weylDim_pairs]
  refine Finset.prod_congr rfl fun i hi => Finset.prod_congr rfl fun j hj => ?_
  rw [Finset.mem_range] at hi hj
  simp only [dotProduct_sub, dot_e _ hi, dot_e _ (hj.trans hi), Pi.add_apply, weylVector, Pi.smul_apply,
    vsum_pairs_sub, smul_eq_mul]
  have h : (i : ℚ) - j ≠ 0 := by
    rw [sub_ne_zero]; exact_mod_cast hj.ne'
  have h2 : 1 / 2 * ((m : ℚ) - 1 - 2 * j) - 1 / 2 * ((m : ℚ) - 1 - 2 * i) = i - j := by ring
  rw [h2]
  field_simp
  ring

end LieNN.Roots

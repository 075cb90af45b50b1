import Verif.Model.SL2C
import Verif.Proofs.SU2Table
import Verif.Proofs.Mat
/-!
# The matrices of `clebsch_gordansl2mat`
-/
namespace LieNN

open Finset Matrix

namespace SU2

theorem cgMat_gj {j₁ j₂ j₃ : ℕ} (h : j₃ ∈ mulL j₁ j₂) :
    ∃ M, cgMat (j₁ / 2) (j₂ / 2) (j₃ / 2) = .ok M ∧
      ∀ a b c : ℕ, a ≤ j₁ → b ≤ j₂ → c ≤ j₃ → M a b c = gj j₁ j₂ j₃ a b c := by
  obtain ⟨p, q, r, rfl, rfl, rfl⟩ := mem_mulL.1 h
  obtain ⟨M, hM, hM'⟩ := cgMat_eq p q r
  refine ⟨M, by push_cast; exact hM, fun a b c ha hb hc => ?_⟩
  rw [hM' a b c ha hb hc, gj_eq]
  exact cgT_eq (p := p) (q := q) (r := r) ⟨a, by omega⟩ ⟨b, by omega⟩ ⟨c, by omega⟩

theorem gj_zero_right (l a c : ℕ) : gj l 0 l a 0 c = if c = a then 1 else 0 := by
  have e := gj_eq 0 l 0
  simp only [Nat.add_zero, Nat.zero_add] at e
  rw [e]
  unfold g
  by_cases h : c = a
  · subst h
    rw [if_pos (by omega), if_pos rfl]
    have h1 : kf 0 l 0 = 1 := by
      unfold kf
      have : ((0 + l + 0 + 1).factorial : ℝ) = ((l : ℝ) + 1) * l.factorial := by
        rw [show 0 + l + 0 + 1 = l + 1 by omega, Nat.factorial_succ]; push_cast; ring
      rw [this]
      have h2 : (l.factorial : ℝ) ≠ 0 := by positivity
      have h3 : (l : ℝ) + 1 ≠ 0 := by positivity
      have : (((0 : ℕ) : ℝ) + l + 1) * ((l.factorial : ℝ) * (Nat.factorial 0 : ℕ) * (Nat.factorial 0 : ℕ)) /
          (((l : ℝ) + 1) * l.factorial) = 1 := by
        rw [Nat.factorial_zero]; push_cast; field_simp; ring
      rw [this]; simp
    have h2 : U 0 l 0 c 0 = 1 := by
      unfold U W sgnC dF; simp
    have h3 : nf (0 + 0) 0 = 1 := by unfold nf; simp
    rw [h1, h2, h3, show 0 + l = l by omega, show l + 0 = l by omega]
    have := (nf_pos l c).ne'
    field_simp
  · rw [if_neg (by omega), if_neg h]

theorem gj_zero_left (k b c : ℕ) (hb : b ≤ k) : gj 0 k k 0 b c = if c = b then 1 else 0 := by
  have e := gj_eq k 0 0
  simp only [Nat.add_zero] at e
  rw [e]
  unfold g
  by_cases h : c = b
  · subst h
    rw [if_pos (by omega), if_pos rfl]
    have hk : (k.factorial : ℝ) ≠ 0 := by positivity
    have h1 : kf k 0 0 = 1 / k.factorial := by
      unfold kf
      have : ((k + 0 + 0 + 1).factorial : ℝ) = ((k : ℝ) + 1) * k.factorial := by
        rw [show k + 0 + 0 + 1 = k + 1 by omega, Nat.factorial_succ]; push_cast; ring
      rw [this]
      have h3 : (k : ℝ) + 1 ≠ 0 := by positivity
      have : ((k : ℝ) + ((0 : ℕ) : ℝ) + 1) * (((Nat.factorial 0 : ℕ) : ℝ) * k.factorial * (Nat.factorial 0 : ℕ)) /
          (((k : ℝ) + 1) * k.factorial) = 1 := by
        rw [Nat.factorial_zero]; push_cast; field_simp; ring
      rw [this]; simp
    have h2 : U k 0 0 0 c = k.factorial := by
      unfold U W
      rw [Finset.sum_eq_single c]
      · unfold sgnC dF
        simp only [Nat.zero_add, Nat.add_zero, Nat.sub_zero]
        rw [Nat.descFactorial_self, Nat.descFactorial_self]
        have h4 : ((-1 : ℝ) ^ c) * (-1) ^ c = 1 := by rw [← mul_pow]; simp
        have h5 : (k.factorial : ℝ) = k.choose c * c.factorial * (k - c).factorial := by
          exact_mod_cast (Nat.choose_mul_factorial_mul_factorial hb).symm
        rw [h5]
        linear_combination ((k.choose c : ℝ) * c.factorial * (k - c).factorial) * h4
      · intro v hv hne
        have hv' := Finset.mem_range.1 hv
        unfold dF
        rcases lt_or_gt_of_ne hne with h | h
        · rw [Nat.descFactorial_eq_zero_iff_lt.2 (show 0 + 0 - 0 + v < c by omega)]; simp
        · rw [Nat.descFactorial_eq_zero_iff_lt.2 (show k + 0 - v < k + 0 - c by omega)]; simp
      · intro h
        exact absurd (Finset.mem_range.2 (by omega)) h
    have h3 : nf (0 + 0) 0 = 1 := by unfold nf; simp
    rw [h1, h2, h3, show k + 0 = k by omega]
    have := (nf_pos k c).ne'
    field_simp
  · rw [if_neg (by omega), if_neg h]

end SU2

namespace SL2C

/-- The concatenation of the coefficients of a list of output spins. -/
noncomputable def catG (l k : ℕ) : List ℕ → ℕ → ℕ → ℕ → ℝ
  | [], _, _, _ => 0
  | i :: L, a, b, c => if c < i + 1 then SU2.gj l k i a b c else catG l k L a b (c - (i + 1))

theorem pyRange_eq (l k : ℕ) : SU2.pyRange |(l : ℤ) - k| (l + k + 1) 2 =
    (SU2.mulL l k).map fun i : ℕ => (i : ℤ) := by
  have e : SU2.pyRange |(l : ℤ) - k| (l + k + 1) 2 =
      (List.range (min l k + 1)).map fun t : ℕ => |(l : ℤ) - k| + 2 * (t : ℤ) := by
    rw [← SU2.pyRange_two]
    congr 1
    rcases le_total l k with h | h
    · have : (l : ℤ) ≤ k := by exact_mod_cast h
      rw [abs_of_nonpos (by omega), min_eq_left h]; ring
    · have : (k : ℤ) ≤ l := by exact_mod_cast h
      rw [abs_of_nonneg (by omega), min_eq_right h]; ring
  rw [e, SU2.mulL, List.map_map]
  refine List.map_congr_left fun t _ => ?_
  simp only [Function.comp]
  rcases le_total l k with h | h
  · have : (l : ℤ) ≤ k := by exact_mod_cast h
    rw [abs_of_nonpos (by omega), min_eq_left h, max_eq_right h]; omega
  · have : (k : ℤ) ≤ l := by exact_mod_cast h
    rw [abs_of_nonneg (by omega), min_eq_right h, max_eq_left h]; omega

theorem blocks_eq (l k : ℕ) : ∃ L, blocks l k = .ok L ∧ catWidth L = (l + 1) * (k + 1) ∧
    ∀ a b c : ℕ, a ≤ l → b ≤ k → catAt L a b c = catG l k (SU2.mulL l k) a b c := by
  have main : ∀ R : List ℕ, (∀ i ∈ R, i ∈ SU2.mulL l k) →
      ∃ L, ((R.map fun i : ℕ => (i : ℤ)).mapM fun i : ℤ => (do
        let M ← SU2.cgMat (l / 2) (k / 2) (i / 2)
        pure ((i + 1).toNat, M) : Py (ℕ × (ℤ → ℤ → ℤ → ℝ)))) = .ok L ∧
        catWidth L = (R.map fun i => i + 1).sum ∧
        ∀ a b c : ℕ, a ≤ l → b ≤ k → catAt L a b c = catG l k R a b c := by
    intro R
    induction R with
    | nil => exact fun _ => ⟨[], rfl, rfl, fun _ _ _ _ _ => rfl⟩
    | cons i R ih =>
      intro h
      obtain ⟨L, h1, h2, h3⟩ := ih fun x hx => h x (by simp [hx])
      obtain ⟨M, hM, hM'⟩ := SU2.cgMat_gj (h i (by simp))
      refine ⟨(i + 1, M) :: L, ?_, ?_, ?_⟩
      · rw [List.map_cons, List.mapM_cons, h1]
        simp only [Int.cast_natCast]
        rw [hM, SU2.ok_bind']
        simp only [pure_bind]
        rw [SU2.ok_bind', show ((i : ℤ) + 1).toNat = i + 1 by omega]
        rfl
      · unfold catWidth at h2 ⊢
        rw [List.map_cons, List.sum_cons, h2, List.map_cons, List.sum_cons]
      · intro a b c ha hb
        rw [catAt, catG]
        split_ifs with hc
        · exact hM' a b c ha hb (by omega)
        · exact h3 a b _ ha hb
  obtain ⟨L, h1, h2, h3⟩ := main (SU2.mulL l k) fun _ h => h
  refine ⟨L, ?_, h2.trans (SU2.mulL_sum l k), h3⟩
  unfold blocks
  rw [pyRange_eq]
  exact h1

theorem sum_catG (l k a b a' b' : ℕ) (R : List ℕ) :
    ∑ c ∈ range (R.map fun i => i + 1).sum, catG l k R a b c * catG l k R a' b' c =
      (R.map fun i => ∑ c ∈ range (i + 1), SU2.gj l k i a b c * SU2.gj l k i a' b' c).sum := by
  induction R with
  | nil => simp
  | cons i R ih =>
    rw [List.map_cons, List.sum_cons, Finset.sum_range_add, List.map_cons, List.sum_cons, ← ih]
    congr 1
    · refine Finset.sum_congr rfl fun c hc => ?_
      rw [catG, catG, if_pos (Finset.mem_range.1 hc), if_pos (Finset.mem_range.1 hc)]
    · refine Finset.sum_congr rfl fun c _ => ?_
      rw [catG, catG, if_neg (by omega), if_neg (by omega), Nat.add_sub_cancel_left]

/-- The change of basis from the product of two `SU2` irreps to the concatenated blocks. -/
noncomputable def B (l k : ℕ) : Matrix (Fin (l + 1) × Fin (k + 1)) (Fin ((l + 1) * (k + 1))) ℂ :=
  Matrix.of fun ab c => ((catG l k (SU2.mulL l k) ab.1 ab.2 c : ℝ) : ℂ)

theorem B_mul (l k : ℕ) : B l k * (B l k)ᵀ = 1 := by
  ext ⟨a, b⟩ ⟨a', b'⟩
  rw [Matrix.mul_apply]
  have h := sum_catG l k a b a' b' (SU2.mulL l k)
  rw [SU2.mulL_sum] at h
  have h2 := SU2.ct_complete a a' b b'
  have h3 : ∀ i : ℕ, ∑ c ∈ range (i + 1), SU2.gj l k i a b c * SU2.gj l k i a' b' c =
      ∑ c, SU2.ct l k i a b c * SU2.ct l k i a' b' c := fun i =>
    Finset.sum_range fun c => SU2.gj l k i a b c * SU2.gj l k i a' b' c
  simp only [h3] at h
  rw [h2, Finset.sum_range] at h
  have e : ∀ c, B l k (a, b) c * (B l k)ᵀ c (a', b') =
      ((catG l k (SU2.mulL l k) a b c * catG l k (SU2.mulL l k) a' b' c : ℝ) : ℂ) := by
    intro c; rw [Complex.ofReal_mul]; rfl
  simp only [e, ← Complex.ofReal_sum, h]
  by_cases hh : a = a' ∧ b = b'
  · obtain ⟨rfl, rfl⟩ := hh
    rw [if_pos ⟨rfl, rfl⟩, Matrix.one_apply_eq, Complex.ofReal_one]
  · rw [if_neg hh, Matrix.one_apply_ne, Complex.ofReal_zero]
    intro h'
    exact hh ⟨congrArg Prod.fst h', congrArg Prod.snd h'⟩

theorem B_mul' (l k : ℕ) : (B l k)ᵀ * B l k = 1 := by
  refine (Matrix.mul_eq_one_comm_of_card_eq _ _ _ ?_).1 (B_mul l k)
  rw [Fintype.card_prod]; simp only [Fintype.card_fin]

theorem B_conj (l k : ℕ) : (B l k)ᴴ = (B l k)ᵀ := by
  ext c ab
  rw [Matrix.conjTranspose_apply, Matrix.transpose_apply]
  exact Complex.conj_ofReal _

/-- The list `rep1 * rep2`. -/
def mulL (r₁ r₂ : SL2C) : List SL2C :=
  (SU2.mulL r₁.l r₂.l).flatMap fun l => (SU2.mulL r₁.k r₂.k).map fun k => ⟨l, k⟩

theorem make_natCast (l k : ℕ) : make l k = .ok ⟨l, k⟩ := by
  unfold make pyAssert
  rw [if_pos (by positivity), if_pos (by positivity)]
  rfl

theorem mul_eq (r₁ r₂ : SL2C) : mul r₁ r₂ = .ok (mulL r₁ r₂) := by
  unfold mul
  rw [pyRange_eq, pyRange_eq, LieNN.mapM_ok (g := fun lk : ℤ × ℤ => (⟨lk.1.toNat, lk.2.toNat⟩ : SL2C))]
  · congr 1
    unfold mulL
    rw [List.map_flatMap, List.flatMap_map]
    refine List.flatMap_congr fun l _ => ?_
    rw [List.map_map, List.map_map]
    exact List.map_congr_left fun k _ => rfl
  · intro lk h
    obtain ⟨l, hl, h⟩ := List.mem_flatMap.1 h
    obtain ⟨k, hk, rfl⟩ := List.mem_map.1 h
    obtain ⟨l, -, rfl⟩ := List.mem_map.1 hl
    obtain ⟨k, -, rfl⟩ := List.mem_map.1 hk
    exact make_natCast l k

theorem mem_mulL {r₁ r₂ r₃ : SL2C} :
    r₃ ∈ mulL r₁ r₂ ↔ r₃.l ∈ SU2.mulL r₁.l r₂.l ∧ r₃.k ∈ SU2.mulL r₁.k r₂.k := by
  unfold mulL
  simp only [List.mem_flatMap, List.mem_map]
  constructor
  · rintro ⟨l, hl, k, hk, rfl⟩
    exact ⟨hl, hk⟩
  · rintro ⟨h1, h2⟩
    exact ⟨_, h1, _, h2, rfl⟩

/-- The coefficients of `SL2C`. -/
noncomputable def ctS (r₁ r₂ r₃ : SL2C) (x : Fin r₁.dim) (y : Fin r₂.dim) (z : Fin r₃.dim) : ℝ :=
  ∑ a : Fin (r₃.l + 1), ∑ b : Fin (r₃.k + 1), ∑ d : Fin (r₁.l + 1), ∑ e : Fin (r₂.l + 1),
    ∑ g : Fin (r₁.k + 1), ∑ h : Fin (r₂.k + 1),
      catG r₃.l r₃.k (SU2.mulL r₃.l r₃.k) a b z * SU2.ct r₁.l r₂.l r₃.l d e a *
        SU2.ct r₁.k r₂.k r₃.k g h b * catG r₁.l r₁.k (SU2.mulL r₁.l r₁.k) d g x *
        catG r₂.l r₂.k (SU2.mulL r₂.l r₂.k) e h y

theorem cg_eq {r₁ r₂ r₃ : SL2C} (h : r₃ ∈ mulL r₁ r₂) : cg r₁ r₂ r₃ = .ok [ctS r₁ r₂ r₃] := by
  obtain ⟨hl, hk⟩ := mem_mulL.1 h
  obtain ⟨L1, e1, w1, v1⟩ := blocks_eq r₃.l r₃.k
  obtain ⟨L3, e3, w3, v3⟩ := blocks_eq r₁.l r₁.k
  obtain ⟨L4, e4, w4, v4⟩ := blocks_eq r₂.l r₂.k
  obtain ⟨Ma, ea, va⟩ := SU2.cgMat_gj hl
  obtain ⟨Mb, eb, vb⟩ := SU2.cgMat_gj hk
  unfold cg
  rw [mul_eq, SU2.ok_bind', if_pos h]
  unfold sl2mat
  rw [e1, e3, e4, ea, eb]
  simp only [SU2.ok_bind', pure_bind]
  rw [w1, w3, w4, if_pos rfl]
  change Except.ok _ = _
  congr 2
  funext x y z
  unfold ctS
  rw [Finset.sum_range]
  refine Finset.sum_congr rfl fun a _ => ?_
  rw [Finset.sum_range]
  refine Finset.sum_congr rfl fun b _ => ?_
  rw [Finset.sum_range]
  refine Finset.sum_congr rfl fun d _ => ?_
  rw [Finset.sum_range]
  refine Finset.sum_congr rfl fun e _ => ?_
  rw [Finset.sum_range]
  refine Finset.sum_congr rfl fun g _ => ?_
  rw [Finset.sum_range]
  refine Finset.sum_congr rfl fun h _ => ?_
  have := a.2; have := b.2; have := d.2; have := e.2; have := g.2; have := h.2
  rw [v1 a b z (by omega) (by omega), v3 d g x (by omega) (by omega), v4 e h y (by omega) (by omega),
    va d e a (by omega) (by omega) (by omega), vb g h b (by omega) (by omega) (by omega)]
  rfl

theorem cg_eq_nil {r₁ r₂ r₃ : SL2C} (h : r₃ ∉ mulL r₁ r₂) : cg r₁ r₂ r₃ = .ok [] := by
  unfold cg
  rw [mul_eq, SU2.ok_bind', if_neg h]; rfl

/-- The middle factor of the coefficients. -/
noncomputable def G (r₁ r₂ r₃ : SL2C) : Matrix (Fin (r₃.l + 1) × Fin (r₃.k + 1))
    ((Fin (r₁.l + 1) × Fin (r₁.k + 1)) × (Fin (r₂.l + 1) × Fin (r₂.k + 1))) ℂ :=
  (kroneckerMap (· * ·) (SU2.cm r₁.l r₂.l r₃.l) (SU2.cm r₁.k r₂.k r₃.k)).submatrix id
    (Equiv.prodProdProdComm _ _ _ _)

theorem ctS_eq (r₁ r₂ r₃ : SL2C) (z : Fin r₃.dim) (xy : Fin r₁.dim × Fin r₂.dim) :
    ((ctS r₁ r₂ r₃ xy.1 xy.2 z : ℝ) : ℂ) =
    ((B r₃.l r₃.k)ᵀ * G r₁ r₂ r₃ * kroneckerMap (· * ·) (B r₁.l r₁.k) (B r₂.l r₂.k)) z xy := by
  rw [Matrix.mul_assoc, Matrix.mul_apply, Fintype.sum_prod_type]
  unfold ctS
  rw [Complex.ofReal_sum]
  refine Finset.sum_congr rfl fun a _ => ?_
  rw [Complex.ofReal_sum]
  refine Finset.sum_congr rfl fun b _ => ?_
  rw [Matrix.mul_apply, Finset.mul_sum]
  simp only [Fintype.sum_prod_type]
  rw [Complex.ofReal_sum]
  refine Finset.sum_congr rfl fun d _ => ?_
  rw [Finset.sum_comm, Complex.ofReal_sum]
  refine Finset.sum_congr rfl fun g _ => ?_
  rw [Complex.ofReal_sum]
  refine Finset.sum_congr rfl fun e _ => ?_
  rw [Complex.ofReal_sum]
  refine Finset.sum_congr rfl fun h _ => ?_
  rw [kroneckerMap_apply, Matrix.transpose_apply]
  change _ = ((catG r₃.l r₃.k (SU2.mulL r₃.l r₃.k) a b z : ℝ) : ℂ) *
    (((SU2.ct r₁.l r₂.l r₃.l d e a : ℝ) : ℂ) * ((SU2.ct r₁.k r₂.k r₃.k g h b : ℝ) : ℂ) *
    (((catG r₁.l r₁.k (SU2.mulL r₁.l r₁.k) d g xy.1 : ℝ) : ℂ) *
      ((catG r₂.l r₂.k (SU2.mulL r₂.l r₂.k) e h xy.2 : ℝ) : ℂ)))
  push_cast
  ring

end SL2C
end LieNN

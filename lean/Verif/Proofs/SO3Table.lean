import Verif.Proofs.SO3CG
/-!
# The tables of irreps of `SO3`, `O3` and `Z2`
-/
namespace LieNN

open Finset Complex Matrix

namespace SU2

theorem pyRange_step_one (lo : ℤ) (n : ℕ) :
    pyRange lo (lo + n) 1 = (List.range n).map fun t : ℕ => lo + (t : ℤ) := by
  unfold pyRange
  rw [show (lo + n - lo).toNat = n by omega, Nat.div_one, Nat.mod_one, if_pos rfl]
  simp

end SU2

namespace SO3

/-- The selection rule. -/
def mulR (l₁ l₂ : ℕ) : List ℕ :=
  (List.range (2 * min l₁ l₂ + 1)).map fun t => max l₁ l₂ - min l₁ l₂ + t

theorem mul_eq' (l₁ l₂ : ℕ) : mul l₁ l₂ = (mulR l₁ l₂).map fun k : ℕ => (k : ℤ) := by
  unfold mul mulR
  have e : SU2.pyRange |(l₁ : ℤ) - l₂| (l₁ + l₂ + 1) 1 =
      (List.range (2 * min l₁ l₂ + 1)).map fun t : ℕ => |(l₁ : ℤ) - l₂| + (t : ℤ) := by
    rw [← SU2.pyRange_step_one]
    congr 1
    rcases le_total l₁ l₂ with h | h
    · rw [min_eq_left h, abs_of_nonpos (by omega)]; push_cast; ring
    · rw [min_eq_right h, abs_of_nonneg (by omega)]; push_cast; ring
  rw [e, List.map_map]
  refine List.map_congr_left fun t _ => ?_
  simp only [Function.comp]
  rcases le_total l₁ l₂ with h | h
  · rw [min_eq_left h, max_eq_right h, abs_of_nonpos (by omega)]; omega
  · rw [min_eq_right h, max_eq_left h, abs_of_nonneg (by omega)]; omega

theorem mul_eq (l₁ l₂ : ℕ) : (mul l₁ l₂).map Int.toNat = mulR l₁ l₂ := by
  rw [mul_eq', List.map_map]
  exact (List.map_congr_left fun t _ => Int.toNat_natCast t).trans (List.map_id _)

theorem mulL_double (l₁ l₂ : ℕ) : SU2.mulL (2 * l₁) (2 * l₂) = (mulR l₁ l₂).map fun k => 2 * k := by
  unfold SU2.mulL mulR
  rw [List.map_map, show min (2 * l₁) (2 * l₂) = 2 * min l₁ l₂ by omega,
    show max (2 * l₁) (2 * l₂) = 2 * max l₁ l₂ by omega]
  refine List.map_congr_left fun t _ => ?_
  simp only [Function.comp]
  omega

theorem mem_double {l₁ l₂ l₃ : ℕ} : 2 * l₃ ∈ SU2.mulL (2 * l₁) (2 * l₂) ↔ l₃ ∈ mulR l₁ l₂ := by
  rw [mulL_double, List.mem_map]
  constructor
  · rintro ⟨k, hk, e⟩
    rwa [show l₃ = k by omega]
  · exact fun h => ⟨_, h, rfl⟩

theorem mem_mulR {l₁ l₂ l₃ : ℕ} : l₃ ∈ mulR l₁ l₂ ↔ l₁ ≤ l₂ + l₃ ∧ l₂ ≤ l₁ + l₃ ∧ l₃ ≤ l₁ + l₂ := by
  unfold mulR
  rw [List.mem_map]
  constructor
  · rintro ⟨t, ht, rfl⟩
    have := List.mem_range.1 ht
    omega
  · intro h
    exact ⟨l₃ - (max l₁ l₂ - min l₁ l₂), List.mem_range.2 (by omega), by omega⟩

theorem table_prod (i j : ℕ) : table.prod i j = mulR i j := mul_eq i j

theorem table_cg {i j k : ℕ} (h : k ∈ mulR i j) :
    table.cg i j k = [fun a b c => ((ctR i j k a b c : ℝ) : ℂ)] := by
  have e : table.cg i j k = match cg i j k with
    | .ok L => L.map fun C a b c => ((C a b c : ℝ) : ℂ)
    | .error _ => [] := rfl
  rw [e, cg_eq (mem_double.2 h)]; rfl

theorem table_equivariant : Spec.Equivariant table := by
  intro i j k hk C hC
  have hk' : k ∈ mulR i j := (table_prod i j) ▸ hk
  rw [table_cg hk'] at hC
  rw [List.mem_singleton.1 hC]
  exact isCG (mem_double.2 hk')

theorem mulR_sum (i j : ℕ) : ((mulR i j).map fun k => 2 * k + 1).sum = (2 * i + 1) * (2 * j + 1) := by
  rw [← SU2.mulL_sum, mulL_double, List.map_map]
  rfl

theorem unitary_kron (i j : ℕ) : kroneckerMap (· * ·) (changeBasis i)ᴴ (changeBasis j)ᴴ *
    kroneckerMap (· * ·) (changeBasis i) (changeBasis j) = 1 := by
  rw [kronM_mul, changeBasis_mul', changeBasis_mul', kronM_one]

theorem unitary_kron' (i j : ℕ) : kroneckerMap (· * ·) (changeBasis i) (changeBasis j) *
    kroneckerMap (· * ·) (changeBasis i)ᴴ (changeBasis j)ᴴ = 1 := by
  rw [kronM_mul, changeBasis_mul, changeBasis_mul, kronM_one]

/-- A tensor annihilated by all coefficients is zero. -/
theorem complete {i j : ℕ} (t : Fin (dim i) → Fin (dim j) → ℂ)
    (ht : ∀ k ∈ mulR i j, ∀ m, ∑ x, ∑ y, ((ctR i j k x y m : ℝ) : ℂ) * t x y = 0) : t = 0 := by
  set v : Fin (dim i) × Fin (dim j) → ℂ := fun ab => t ab.1 ab.2 with hv
  set w := kroneckerMap (· * ·) (changeBasis i) (changeBasis j) *ᵥ v with hw
  have h0 : (fun a b => w (a, b)) = (0 : Fin (SU2.dim (2 * i)) → Fin (SU2.dim (2 * j)) → ℂ) := by
    refine (SU2.table_complete (2 * i) (2 * j)).2 _ fun k hk C hC m => ?_
    have hk' : k ∈ SU2.mulL (2 * i) (2 * j) := (SU2.table_prod _ _) ▸ hk
    rw [SU2.table_cg hk'] at hC
    rw [List.mem_singleton.1 hC]
    rw [mulL_double] at hk'
    obtain ⟨k, hkR, rfl⟩ := List.mem_map.1 hk'
    have hz : cgM (fun a b c => ((ctR i j k a b c : ℝ) : ℂ)) *ᵥ v = 0 := by
      funext m
      simp only [Matrix.mulVec, dotProduct]
      rw [Fintype.sum_prod_type]
      exact ht k hkR m
    rw [ctR_eq (mem_double.2 hkR), cgM_cgChange] at hz
    have h2 := congrArg (fun u => changeBasis k *ᵥ u) hz
    simp only [Matrix.mulVec_mulVec, Matrix.mulVec_zero] at h2
    rw [Matrix.mul_assoc, ← Matrix.mul_assoc, changeBasis_mul, Matrix.one_mul,
      ← Matrix.mulVec_mulVec, ← hw] at h2
    have h3 := congrFun h2 m
    simp only [Matrix.mulVec, dotProduct] at h3
    rw [Fintype.sum_prod_type] at h3
    exact h3
  have hw0 : w = 0 := by funext ab; exact congrFun (congrFun h0 ab.1) ab.2
  have h4 := congrArg (fun u => kroneckerMap (· * ·) (changeBasis i)ᴴ (changeBasis j)ᴴ *ᵥ u) hw0
  simp only [hw, Matrix.mulVec_mulVec, unitary_kron, Matrix.one_mulVec, Matrix.mulVec_zero] at h4
  funext a b
  exact congrFun h4 (a, b)

theorem table_complete (i j : ℕ) : Spec.CGComplete (T := table) i j := by
  constructor
  · rw [table_prod]
    refine Eq.trans ?_ (mulR_sum i j)
    congr 1
    refine List.map_congr_left fun k hk => ?_
    rw [table_cg hk]
    exact one_mul _
  · intro t ht
    refine complete (i := i) (j := j) t fun k hk m => ?_
    exact ht k (by rw [table_prod]; exact hk) _ (by rw [table_cg hk]; exact List.mem_singleton_self _) m

theorem table_good (i j : ℕ) : Spec.GoodPair (T := table) i j where
  algebra := fun _ _ _ => by
    change ‖SU2.algebra _ _ _ - SU2.algebra _ _ _‖ ≤ _
    rw [sub_self, norm_zero]; positivity
  nonempty := by
    have h : mulR i j ≠ [] := by unfold mulR; simp
    exact fun h' => h ((table_prod i j).symm.trans h')
  sols := fun k hk => by
    have hk' : k ∈ mulR i j := (table_prod i j) ▸ hk
    rw [table_cg hk']
    exact List.cons_ne_nil _ _
  complete := table_complete i j

/-- Orthonormality in the real basis. -/
theorem ctR_orth {l₁ l₂ l₃ l₄ : ℕ} (h3 : l₃ ∈ mulR l₁ l₂) (h4 : l₄ ∈ mulR l₁ l₂)
    (c : Fin (dim l₃)) (d : Fin (dim l₄)) :
    ∑ a, ∑ b, ctR l₁ l₂ l₃ a b c * ctR l₁ l₂ l₄ a b d = if l₃ = l₄ ∧ (c : ℕ) = d then 1 else 0 := by
  have e3 := ctR_eq (mem_double.2 h3)
  have e4 := ctR_eq (mem_double.2 h4)
  have key : cgM (fun a b c => ((ctR l₁ l₂ l₃ a b c : ℝ) : ℂ)) *
      (cgM (fun a b c => ((ctR l₁ l₂ l₄ a b c : ℝ) : ℂ)))ᴴ =
      (changeBasis l₃)ᴴ * (SU2.cm (2 * l₁) (2 * l₂) (2 * l₃) * (SU2.cm (2 * l₁) (2 * l₂) (2 * l₄))ᴴ) *
        changeBasis l₄ := by
    rw [e3, e4, cgM_cgChange, cgM_cgChange, Matrix.conjTranspose_mul, Matrix.conjTranspose_mul,
      Matrix.conjTranspose_conjTranspose]
    have hk : (kroneckerMap (· * ·) (changeBasis l₁) (changeBasis l₂))ᴴ =
        kroneckerMap (· * ·) (changeBasis l₁)ᴴ (changeBasis l₂)ᴴ :=
      Matrix.conjTranspose_kronecker _ _
    have hu := unitary_kron' l₁ l₂
    rw [← hk] at hu
    change (changeBasis l₃)ᴴ * SU2.cm (2 * l₁) (2 * l₂) (2 * l₃) * _ *
      (_ * ((SU2.cm (2 * l₁) (2 * l₂) (2 * l₄))ᴴ * changeBasis l₄)) = _
    calc _ = (changeBasis l₃)ᴴ * SU2.cm (2 * l₁) (2 * l₂) (2 * l₃) *
          (kroneckerMap (· * ·) (changeBasis l₁) (changeBasis l₂) *
          (kroneckerMap (· * ·) (changeBasis l₁) (changeBasis l₂))ᴴ) *
          ((SU2.cm (2 * l₁) (2 * l₂) (2 * l₄))ᴴ * changeBasis l₄) := by
          simp only [Matrix.mul_assoc]
      _ = _ := by rw [hu, Matrix.mul_one]; simp only [Matrix.mul_assoc]
  have ent := congrFun (congrFun key c) d
  have lhs : (cgM (fun a b c => ((ctR l₁ l₂ l₃ a b c : ℝ) : ℂ)) *
      (cgM (fun a b c => ((ctR l₁ l₂ l₄ a b c : ℝ) : ℂ)))ᴴ) c d =
      ((∑ a, ∑ b, ctR l₁ l₂ l₃ a b c * ctR l₁ l₂ l₄ a b d : ℝ) : ℂ) := by
    rw [Matrix.mul_apply, Fintype.sum_prod_type]
    push_cast
    refine Finset.sum_congr rfl fun a _ => Finset.sum_congr rfl fun b _ => ?_
    rw [Matrix.conjTranspose_apply]
    change _ * star ((_ : ℝ) : ℂ) = _
    rw [show ∀ t : ℝ, star (t : ℂ) = t from conj_ofReal]
    rfl
  rw [lhs] at ent
  apply ofReal_injective
  rw [ent]
  by_cases h : l₃ = l₄
  · subst h
    have hone : SU2.cm (2 * l₁) (2 * l₂) (2 * l₃) * (SU2.cm (2 * l₁) (2 * l₂) (2 * l₃))ᴴ = 1 := by
      ext x y
      have := SU2.ct_orth (mem_double.2 h3) (mem_double.2 h3) x y
      rw [Matrix.mul_apply, Fintype.sum_prod_type]
      have e : ∀ a b, SU2.cm (2 * l₁) (2 * l₂) (2 * l₃) x (a, b) *
          (SU2.cm (2 * l₁) (2 * l₂) (2 * l₃))ᴴ (a, b) y =
          ((SU2.ct (2 * l₁) (2 * l₂) (2 * l₃) a b x * SU2.ct (2 * l₁) (2 * l₂) (2 * l₃) a b y : ℝ) : ℂ) := by
        intro a b
        rw [Matrix.conjTranspose_apply]
        change _ * star ((_ : ℝ) : ℂ) = _
        rw [show ∀ t : ℝ, star (t : ℂ) = t from conj_ofReal]
        push_cast; rfl
      simp only [e, ← ofReal_sum]
      rw [this]
      by_cases hxy : x = y
      · subst hxy; rw [if_pos ⟨rfl, rfl⟩, Matrix.one_apply_eq]; simp
      · rw [if_neg (fun hh => hxy (Fin.ext hh.2)), Matrix.one_apply_ne hxy]; simp
    rw [hone, Matrix.mul_one, changeBasis_mul']
    by_cases hcd : c = d
    · subst hcd; rw [if_pos ⟨rfl, rfl⟩, Matrix.one_apply_eq]; simp
    · rw [if_neg (fun hh => hcd (Fin.ext hh.2)), Matrix.one_apply_ne hcd]; simp
  · rw [SU2.gram_off (mem_double.2 h3) (mem_double.2 h4) (fun hh => h (by omega)),
      if_neg (fun hh => h hh.1)]
    simp

end SO3

namespace O3

theorem mul_eq (r₁ r₂ : O3) : mul r₁ r₂ = (SO3.mulR r₁.l r₂.l).map fun l => ⟨l, r₁.p * r₂.p⟩ := by
  unfold mul
  rw [← SO3.mul_eq, List.map_map]
  rfl

theorem table_prod (i j : O3) : table.prod i j = mul i j := rfl

theorem table_cg {i j : O3} {k : O3} (h : k.l ∈ SO3.mulR i.l j.l) (hp : i.p * j.p = k.p) :
    table.cg i j k = [fun a b c => ((SO3.ctR i.l j.l k.l a b c : ℝ) : ℂ)] := by
  have e : table.cg i j k = match cg i j k with
    | .ok L => L.map fun C a b c => ((C a b c : ℝ) : ℂ)
    | .error _ => [] := rfl
  rw [e]
  unfold cg
  rw [if_pos hp, SO3.cg_eq (SO3.mem_double.2 h)]; rfl

theorem mem_mul {i j k : O3} : k ∈ mul i j ↔ k.l ∈ SO3.mulR i.l j.l ∧ i.p * j.p = k.p := by
  rw [mul_eq, List.mem_map]
  constructor
  · rintro ⟨l, hl, rfl⟩; exact ⟨hl, rfl⟩
  · rintro ⟨h1, h2⟩
    exact ⟨k.l, h1, by rw [h2]⟩

theorem isCG {i j k : O3} (h : k.l ∈ SO3.mulR i.l j.l) (hp : i.p * j.p = k.p) :
    Spec.IsCG (rep i) (rep j) (rep k) (fun a b c => ((SO3.ctR i.l j.l k.l a b c : ℝ) : ℂ)) := by
  refine ⟨(SO3.isCG (SO3.mem_double.2 h)).1, fun _ x y m => ?_⟩
  change ∑ c, _ * ((k.p : ℂ) • (1 : Matrix (Fin k.dim) (Fin k.dim) ℂ)) m c =
    ∑ a, ∑ b, ((i.p : ℂ) • (1 : Matrix (Fin i.dim) (Fin i.dim) ℂ)) a x *
      ((j.p : ℂ) • (1 : Matrix (Fin j.dim) (Fin j.dim) ℂ)) b y * _
  simp only [Matrix.smul_apply, Matrix.one_apply, smul_eq_mul, mul_ite, mul_one, mul_zero, ite_mul,
    zero_mul, Finset.sum_ite_eq, Finset.sum_ite_eq', Finset.mem_univ, if_true]
  rw [← hp]; push_cast; ring

theorem table_equivariant : Spec.Equivariant table := by
  intro i j k hk C hC
  obtain ⟨h1, h2⟩ := mem_mul.1 hk
  rw [table_cg h1 h2] at hC
  rw [List.mem_singleton.1 hC]
  exact isCG h1 h2

theorem table_complete (i j : O3) : Spec.CGComplete (T := table) i j := by
  constructor
  · refine Eq.trans ?_ (SO3.mulR_sum i.l j.l)
    have e : table.prod i j = (SO3.mulR i.l j.l).map fun l : ℕ => (⟨l, i.p * j.p⟩ : O3) := mul_eq i j
    refine (congrArg (fun L => (List.map (fun k => (table.cg i j k).length * table.dim k) L).sum)
      e).trans ?_
    refine congrArg List.sum ((List.map_map ..).trans ?_)
    refine List.map_congr_left fun l hl => ?_
    have e2 := table_cg (i := i) (j := j) (k := ⟨l, i.p * j.p⟩) hl rfl
    change (table.cg i j ⟨l, i.p * j.p⟩).length * _ = _
    rw [e2]
    exact one_mul _
  · intro t ht
    refine SO3.complete (i := i.l) (j := j.l) t fun l hl m => ?_
    have e2 := table_cg (i := i) (j := j) (k := ⟨l, i.p * j.p⟩) hl rfl
    have h3 : (fun a b c => ((SO3.ctR i.l j.l l a b c : ℝ) : ℂ)) ∈ table.cg i j ⟨l, i.p * j.p⟩ := by
      rw [e2]; exact List.mem_singleton_self _
    exact ht ⟨l, i.p * j.p⟩ (mem_mul.2 ⟨hl, rfl⟩) _ h3 m

theorem table_good (i j : O3) : Spec.GoodPair (T := table) i j where
  algebra := fun _ _ _ => by
    change ‖SU2.algebra _ _ _ - SU2.algebra _ _ _‖ ≤ _
    rw [sub_self, norm_zero]; positivity
  nonempty := by
    intro h'
    have h' : mul i j = [] := h'
    rw [mul_eq] at h'
    unfold SO3.mulR at h'
    simp at h'
  sols := fun k hk => by
    obtain ⟨h1, h2⟩ := mem_mul.1 hk
    rw [table_cg h1 h2]
    exact List.cons_ne_nil _ _
  complete := table_complete i j

end O3

namespace Z2

theorem isCG {i j k : ℤ} (hk : k ∈ mul i j) {C : Fin 1 → Fin 1 → Fin 1 → ℂ} (hC : C ∈ cg i j k) :
    Spec.IsCG (rep i) (rep j) (rep k) C := by
  have hk' : k = i * j := List.mem_singleton.1 hk
  subst hk'
  unfold cg at hC
  rw [if_pos rfl] at hC
  rw [List.mem_singleton.1 hC]
  refine ⟨fun a => a.elim0, fun _ x y m => ?_⟩
  change ∑ c : Fin 1, _ * (((i * j : ℤ) : ℂ) • (1 : Matrix (Fin 1) (Fin 1) ℂ)) m c =
    ∑ a : Fin 1, ∑ b : Fin 1, ((i : ℂ) • (1 : Matrix (Fin 1) (Fin 1) ℂ)) a x *
      ((j : ℂ) • (1 : Matrix (Fin 1) (Fin 1) ℂ)) b y * _
  have hx : x = (0 : Fin 1) := Subsingleton.elim _ _
  have hy : y = (0 : Fin 1) := Subsingleton.elim _ _
  have hm : m = (0 : Fin 1) := Subsingleton.elim _ _
  rw [hx, hy, hm]
  simp

theorem table_equivariant : Spec.Equivariant table := fun _ _ _ hk _ hC => isCG hk hC

theorem table_good (i j : ℤ) : Spec.GoodPair (T := table) i j where
  algebra := fun a => a.elim0
  nonempty := List.cons_ne_nil _ _
  sols := fun k hk => by
    have hk' : k = i * j := List.mem_singleton.1 hk
    subst hk'
    change cg i j (i * j) ≠ []
    unfold cg
    rw [if_pos rfl]; exact List.cons_ne_nil _ _
  complete := by
    have e : cg i j (i * j) = [fun _ _ _ => 1] := if_pos rfl
    constructor
    · change ([i * j].map fun k => (cg i j k).length * 1).sum = 1 * 1
      rw [List.map_singleton, e]; rfl
    · intro t ht
      have := ht (i * j) (List.mem_singleton_self _) (fun _ _ _ => 1)
        (by change _ ∈ cg i j (i * j); rw [e]; exact List.mem_singleton_self _) (0 : Fin 1)
      change Fin 1 → Fin 1 → ℂ at t
      change ∑ x : Fin 1, ∑ y : Fin 1, (1 : ℂ) * t x y = 0 at this
      rw [Fin.sum_univ_one, Fin.sum_univ_one, one_mul] at this
      change t = 0
      funext x y
      rw [Subsingleton.elim x 0, Subsingleton.elim y 0]
      exact this

end Z2
end LieNN

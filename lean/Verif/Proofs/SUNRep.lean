import Verif.Proofs.GTSerre
import Verif.Model.SUNGen
import Verif.Spec.SUNGen
/-!
# The generators are the images of a basis of the skew-Hermitian matrices of trace zero
-/
namespace LieNN.SUN

open Spec Matrix

attribute [local instance 100] LieRing.ofAssociativeRing

/-- The images of the matrix units. -/
noncomputable def GG (S : List ℤ) (k l : ℕ) : Matrix (Fin (pats S).length) (Fin (pats S).length) ℂ :=
  GL.G (Jp S) (fun i => (Jp S i)ᵀ) (Dw S) k l

theorem GG_rel {S : List ℤ} (hS : IsWeight S) {i j k l : ℕ} (hi : i < S.length) (hj : j < S.length)
    (hk : k < S.length) (hl : l < S.length) : GG S i j * GG S k l - GG S k l * GG S i j =
      (if j = k then GG S i l else 0) - (if l = i then GG S k j else 0) :=
  (gen_Jp hS).rel i j hi hj k l hk hl

theorem GG_tr {S : List ℤ} (hS : IsWeight S) {k l : ℕ} (hk : k < S.length) (hl : l < S.length) :
    (GG S k l)ᵀ = GG S l k := (gen_Jp hS).σG k l hk hl

/-- The linear extension. -/
noncomputable def Phi (S : List ℤ) :
    Matrix (Fin S.length) (Fin S.length) ℂ →ₗ[ℂ] Matrix (Fin (pats S).length) (Fin (pats S).length) ℂ where
  toFun x := ∑ i, ∑ j, x i j • GG S i j
  map_add' x y := by
    simp only [Matrix.add_apply, add_smul, Finset.sum_add_distrib]
  map_smul' c x := by
    simp only [Matrix.smul_apply, smul_assoc, Finset.smul_sum, RingHom.id_apply]

theorem Phi_apply (S : List ℤ) (x : Matrix (Fin S.length) (Fin S.length) ℂ) :
    Phi S x = ∑ i, ∑ j, x i j • GG S i j := rfl

theorem Phi_unit (S : List ℤ) {k l : ℕ} (hk : k < S.length) (hl : l < S.length) :
    Phi S (unit S.length k l) = GG S k l := by
  rw [Phi_apply, Finset.sum_eq_single (⟨k, hk⟩ : Fin S.length), Finset.sum_eq_single (⟨l, hl⟩ : Fin S.length)]
  · simp [unit]
  · intro j _ hj
    simp [unit, Fin.ext_iff] at hj ⊢
    simp [hj]
  · simp
  · intro i _ hi
    refine Finset.sum_eq_zero fun j _ => ?_
    simp [unit, Fin.ext_iff] at hi ⊢
    simp [hi]
  · simp

theorem unit_rel (n : ℕ) {i j k l : ℕ} (_hi : i < n) (hj : j < n) (_hk : k < n) (hl : l < n) :
    unit n i j * unit n k l - unit n k l * unit n i j =
      (if j = k then unit n i l else 0) - (if l = i then unit n k j else 0) := by
  have key : ∀ i j k l, j < n → unit n i j * unit n k l = if j = k then unit n i l else 0 := by
    intro i j k l hj
    ext a b
    rw [Matrix.mul_apply]
    by_cases h : j = k
    · subst h
      rw [if_pos rfl, Finset.sum_eq_single (⟨j, hj⟩ : Fin n)]
      · simp only [unit, Matrix.of_apply, and_true, true_and]
        split_ifs <;> simp_all
      · intro c _ hc
        simp [unit, Fin.ext_iff] at hc ⊢
        simp [hc]
      · simp
    · rw [if_neg h]
      refine Finset.sum_eq_zero fun c _ => ?_
      simp only [unit, Matrix.of_apply]
      by_cases e : (c : ℕ) = j
      · simp [e, h]
      · simp [e]
  rw [key i j k l hj, key k l i j hl]

theorem sum_unit (n : ℕ) (x : Matrix (Fin n) (Fin n) ℂ) : x = ∑ i : Fin n, ∑ j : Fin n, x i j • unit n i j := by
  ext a b
  simp only [Matrix.sum_apply, Matrix.smul_apply, unit, Matrix.of_apply, smul_eq_mul]
  rw [Finset.sum_eq_single a, Finset.sum_eq_single b]
  · simp
  · intro j _ hj
    have : ¬ (b : ℕ) = j := fun e => hj (Fin.ext e).symm
    simp [this]
  · simp
  · intro i _ hi
    refine Finset.sum_eq_zero fun j _ => ?_
    have : ¬ (a : ℕ) = i := fun e => hi (Fin.ext e).symm
    simp [this]
  · simp

/-- The extension preserves commutators. -/
theorem Phi_lie {S : List ℤ} (hS : IsWeight S) (x y : Matrix (Fin S.length) (Fin S.length) ℂ) :
    Phi S (x * y - y * x) = Phi S x * Phi S y - Phi S y * Phi S x := by
  have h : ∀ x y : Matrix (Fin S.length) (Fin S.length) ℂ, Phi S ⁅x, y⁆ = ⁅Phi S x, Phi S y⁆ := by
    intro x y
    have hu : ∀ i j k l : Fin S.length, Phi S ⁅unit S.length i j, unit S.length k l⁆ =
        ⁅Phi S (unit S.length i j), Phi S (unit S.length k l)⁆ := by
      intro i j k l
      rw [Phi_unit S i.2 j.2, Phi_unit S k.2 l.2, Ring.lie_def, Ring.lie_def, GG_rel hS i.2 j.2 k.2 l.2,
        unit_rel _ i.2 j.2 k.2 l.2, map_sub]
      congr 1
      · split_ifs
        · rw [Phi_unit S i.2 l.2]
        · rw [map_zero]
      · split_ifs
        · rw [Phi_unit S k.2 j.2]
        · rw [map_zero]
    rw [sum_unit _ x, sum_unit _ y]
    simp only [lie_sum, sum_lie, map_sum, map_smul, lie_smul, smul_lie, hu]
  have := h x y
  rwa [Ring.lie_def, Ring.lie_def] at this

/-! ## What `E_basis` and `generators` return -/

theorem getMat_ok {d : ℕ} (L : List (Matrix (Fin d) (Fin d) ℂ)) (k : ℕ) (h : k < L.length) :
    getMat L k = .ok L[k] := by
  unfold getMat
  rw [List.getElem?_eq_getElem h]

theorem eBasis_up {d N : ℕ} (Lp Lm : List (Matrix (Fin d) (Fin d) ℂ)) (e : ℕ → Matrix (Fin d) (Fin d) ℂ)
    (hp : ∀ k, k + 1 < N → getMat Lp k = .ok (e k)) :
    ∀ t k, k + t + 1 < N → eBasis Lp Lm k (k + t + 1) = .ok (GL.up e t k) := by
  intro t
  induction t with
  | zero =>
    intro k h
    rw [eBasis, if_neg (by omega), if_pos (by omega)]
    exact hp k h
  | succ t ih =>
    intro k h
    rw [eBasis, if_neg (by omega), if_neg (by omega), if_pos (by omega), hp k (by omega)]
    have := ih (k + 1) (by omega)
    rw [show k + 1 + t + 1 = k + (t + 1) + 1 by omega] at this
    simp only [SU2.ok_bind']
    rw [this]
    rfl

theorem eBasis_dn {d N : ℕ} (Lp Lm : List (Matrix (Fin d) (Fin d) ℂ)) (f : ℕ → Matrix (Fin d) (Fin d) ℂ)
    (hm : ∀ k, k + 1 < N → getMat Lm k = .ok (f k)) :
    ∀ t l, l + t + 1 < N → eBasis Lp Lm (l + t + 1) l = .ok (GL.dn f t l) := by
  intro t
  induction t with
  | zero =>
    intro l h
    rw [eBasis, if_neg (by omega), if_neg (by omega), if_neg (by omega), if_pos (by omega)]
    exact hm l h
  | succ t ih =>
    intro l h
    rw [eBasis, if_neg (by omega), if_neg (by omega), if_neg (by omega), if_neg (by omega),
      show l + (t + 1) + 1 - 1 = l + t + 1 by omega, hm _ (by omega), ih l (by omega)]
    rfl

theorem genPairs_mem {N : ℕ} {p : ℕ × ℕ} (h : p ∈ genPairs N) : p.1 < p.2 ∧ p.2 < N := by
  simp only [genPairs, List.mem_flatMap, List.mem_range, List.mem_map, List.mem_range'_1] at h
  obtain ⟨k, hk, l, hl, rfl⟩ := h
  exact ⟨by omega, by omega⟩

theorem generators_eq {S : List ℤ} (hS : IsWeight S) (h0 : ∀ s ∈ S, 0 ≤ s) (h2 : 2 ≤ S.length) :
    generators (pats S).length S = .ok ((suBasis S.length).map (Phi S)) := by
  obtain ⟨Lp, hp, hpl, hpv⟩ := upperMats_eq hS h0
  obtain ⟨Lm, hm, hml, hmv⟩ := lowerMats_eq hS h0
  obtain ⟨Lz, hz, hzl, hzv⟩ := jzDiag_eq hS
  have gp : ∀ k, k + 1 < S.length → getMat (Lp.map (toMat (pats S).length)) k = .ok (Jp S k) := by
    intro k hk
    rw [getMat_ok _ _ (by rw [List.length_map]; omega), List.getElem_map, ← hpv k hk,
      List.getD_eq_getElem _ _ (by omega)]
  have gm : ∀ k, k + 1 < S.length → getMat (Lm.map (toMat (pats S).length)) k = .ok (Jp S k)ᵀ := by
    intro k hk
    rw [getMat_ok _ _ (by rw [List.length_map]; omega), List.getElem_map, ← hmv k hk,
      List.getD_eq_getElem _ _ (by omega)]
  have e1 : ∀ p ∈ genPairs S.length, eBasis (Lp.map (toMat (pats S).length))
      (Lm.map (toMat (pats S).length)) p.1 p.2 = .ok (GG S p.1 p.2) := by
    intro p hpm
    obtain ⟨h, h'⟩ := genPairs_mem hpm
    have := eBasis_up (Lp.map (toMat (pats S).length)) (Lm.map (toMat (pats S).length)) (Jp S) gp
      (p.2 - p.1 - 1) p.1 (by omega)
    rw [show p.1 + (p.2 - p.1 - 1) + 1 = p.2 by omega] at this
    rw [this, GG, GL.G_up h]
  have e2 : ∀ p ∈ genPairs S.length, eBasis (Lp.map (toMat (pats S).length))
      (Lm.map (toMat (pats S).length)) p.2 p.1 = .ok (GG S p.2 p.1) := by
    intro p hpm
    obtain ⟨h, h'⟩ := genPairs_mem hpm
    have := eBasis_dn (Lp.map (toMat (pats S).length)) (Lm.map (toMat (pats S).length))
      (fun k => (Jp S k)ᵀ) gm (p.2 - p.1 - 1) p.1 (by omega)
    rw [show p.1 + (p.2 - p.1 - 1) + 1 = p.2 by omega] at this
    rw [this, GG, GL.G_dn h]
  have hne : ∀ {α : Type} (g : ℕ × ℕ → α), ((genPairs S.length).map g).isEmpty = false := by
    intro α g
    have : (0, 1) ∈ genPairs S.length := by
      simp only [genPairs, List.mem_flatMap, List.mem_range, List.mem_map, List.mem_range'_1]
      exact ⟨0, by omega, 1, by omega, rfl⟩
    cases hh : genPairs S.length with
    | nil => rw [hh] at this; simp at this
    | cons a t => rfl
  unfold generators
  rw [if_neg (by omega), hp, hm, hz]
  simp only [SU2.ok_bind']
  rw [LieNN.mapM_ok (g := fun p : ℕ × ℕ => Complex.I • (GG S p.1 p.2 + GG S p.2 p.1)),
    LieNN.mapM_ok (g := fun p : ℕ × ℕ => GG S p.1 p.2 - GG S p.2 p.1)]
  · simp only [SU2.ok_bind', stack, hne, Bool.false_eq_true, if_false]
    change Except.ok _ = _
    congr 1
    unfold suBasis
    rw [List.map_append, List.map_append, List.map_map, List.map_map, List.map_map]
    congr 1
    · congr 1
      · refine List.map_congr_left fun p hpm => ?_
        obtain ⟨h, h'⟩ := genPairs_mem hpm
        simp only [Function.comp]
        rw [map_smul, map_add, Phi_unit S (by omega) h', Phi_unit S h' (by omega)]
      · refine List.map_congr_left fun p hpm => ?_
        obtain ⟨h, h'⟩ := genPairs_mem hpm
        simp only [Function.comp]
        rw [map_sub, Phi_unit S (by omega) h', Phi_unit S h' (by omega)]
    · apply List.ext_getElem
      · simp [hzl]
      · intro t h1 h3
        simp only [List.length_map] at h1
        simp only [List.getElem_map, List.getElem_range, Function.comp]
        have := hzv t (by omega)
        rw [List.getD_eq_getElem _ _ (by omega)] at this
        rw [this, map_smul, map_sub, Phi_unit S (by omega) (by omega), Phi_unit S (by omega) (by omega),
          GG, GG, GL.G_diag, GL.G_diag, Dw_sub hS t (by omega), smul_smul, mul_comm]
  · intro p hpm
    rw [e1 p hpm, e2 p hpm]
    rfl
  · intro p hpm
    rw [e1 p hpm, e2 p hpm]
    rfl

end LieNN.SUN

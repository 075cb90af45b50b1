import Verif.Spec.Complete
import Verif.Proofs.HighestSU
import Verif.Proofs.GroupRepSUN
/-!
# Every irreducible representation of the special unitary groups has a label
-/
namespace LieNN.Spec

open Matrix

variable {n d e f : ℕ} {X : Fin n → Matrix (Fin d) (Fin d) ℂ} {Y : Fin n → Matrix (Fin e) (Fin e) ℂ}
  {Z : Fin n → Matrix (Fin f) (Fin f) ℂ}

theorem Equivalent.symm (h : Equivalent X Y) : Equivalent Y X := by
  obtain ⟨Q, P, h1, h2, h3⟩ := h
  refine ⟨P, Q, h2, h1, fun a => ?_⟩
  calc Y a * P = P * Q * Y a * P := by rw [h2, Matrix.one_mul]
    _ = P * (X a * Q) * P := by rw [h3, Matrix.mul_assoc P Q]
    _ = P * X a := by rw [← Matrix.mul_assoc, Matrix.mul_assoc, h1, Matrix.mul_one]

theorem Equivalent.trans (h : Equivalent X Y) (h' : Equivalent Y Z) : Equivalent X Z := by
  obtain ⟨Q, P, h1, h2, h3⟩ := h
  obtain ⟨Q', P', h1', h2', h3'⟩ := h'
  refine ⟨Q * Q', P' * P, ?_, ?_, fun a => ?_⟩
  · rw [Matrix.mul_assoc, ← Matrix.mul_assoc Q', h1', Matrix.one_mul, h1]
  · rw [Matrix.mul_assoc, ← Matrix.mul_assoc P, h2, Matrix.one_mul, h2']
  · rw [← Matrix.mul_assoc, h3, Matrix.mul_assoc, h3', Matrix.mul_assoc]

theorem Equivalent.dim_eq (h : Equivalent X Y) : d = e := by
  obtain ⟨Q, P, h1, h2, -⟩ := h
  have e1 : (Q * P).trace = (d : ℂ) := by rw [h1, trace_one, Fintype.card_fin]
  have e2 : (P * Q).trace = (e : ℂ) := by rw [h2, trace_one, Fintype.card_fin]
  rw [trace_mul_comm, e2] at e1
  exact_mod_cast e1.symm

/-- From an isomorphism of the spaces. -/
theorem equivalent_of_linear (φ : (Fin d → ℂ) ≃ₗ[ℂ] (Fin e → ℂ)) (h : ∀ a x, φ (X a *ᵥ x) = Y a *ᵥ φ x) : Equivalent X Y := by
  refine Equivalent.symm ⟨LinearMap.toMatrix' φ.toLinearMap, LinearMap.toMatrix' φ.symm.toLinearMap, ?_, ?_, fun a => ?_⟩
  · rw [← LinearMap.toMatrix'_comp, ← LinearMap.toMatrix'_id]
    congr 1
    ext1 x
    simp
  · rw [← LinearMap.toMatrix'_comp, ← LinearMap.toMatrix'_id]
    congr 1
    ext1 x
    simp
  · have : toLin' (Y a) ∘ₗ φ.toLinearMap = φ.toLinearMap ∘ₗ toLin' (X a) := by
      refine LinearMap.ext fun x => ?_
      simp only [LinearMap.comp_apply, toLin'_apply]
      exact (h a x).symm
    have := congrArg LinearMap.toMatrix' this
    rwa [LinearMap.toMatrix'_comp, LinearMap.toMatrix'_comp, LinearMap.toMatrix'_toLin', LinearMap.toMatrix'_toLin'] at this

/-- Equivalent irreducible families have an intertwiner other than zero. -/
theorem Equivalent.intertwiner (h : Equivalent X Y) (hd : 0 < d) : intertwiners X Y ≠ ⊥ := by
  obtain ⟨Q, P, h1, h2, h3⟩ := h
  intro hb
  have : Q ∈ intertwiners X Y := h3
  rw [hb, Submodule.mem_bot] at this
  rw [this, Matrix.zero_mul] at h1
  have := congrFun (congrFun h1 ⟨0, hd⟩) ⟨0, hd⟩
  simp at this

end LieNN.Spec

namespace LieNN.Highest

open Module Matrix LieNN LieNN.Spec LieNN.SUN LieNN.Props

/-- The operators of a label. -/
noncomputable def labelHom (S : List ℤ) : Matrix (Fin S.length) (Fin S.length) ℂ →ₗ[ℂ] End ℂ (Fin (pats S).length → ℂ) :=
  (Matrix.toLinAlgEquiv' (R := ℂ) (n := Fin (pats S).length)).toLinearMap ∘ₗ Phi S

theorem labelHom_apply (S : List ℤ) (x : Matrix (Fin S.length) (Fin S.length) ℂ) (v : Fin (pats S).length → ℂ) :
    labelHom S x v = Phi S x *ᵥ v := rfl

theorem labelHom_glHom {S : List ℤ} (hS : IsWeight S) : GLHom (labelHom S) := by
  refine ⟨fun x y => ?_⟩
  ext1 v
  ext1
  simp only [LinearMap.comp_apply, LinearMap.sub_apply, End.mul_apply, labelHom_apply, Phi_lie hS, sub_mulVec, mulVec_mulVec]

/-- The weights of the top vector of a label. -/
theorem label_top {S : List ℤ} (hS : IsWeight S) : IsTop (opE (labelHom S)) (opH (labelHom S))
    (fun i => ((S.getD (S.length - 1 - i - 1) 0 - S.getD (S.length - 1 - i) 0 : ℤ) : ℂ)) (Pi.single (topIdx hS) 1) := by
  have hn : ∀ i : Fin (S.length - 1), (i : ℕ) < S.length ∧ (i : ℕ) + 1 < S.length := fun i => by have := i.2; omega
  refine ⟨?_, fun i => ?_, fun i => ?_⟩
  · intro h
    have := congrFun h (topIdx hS)
    simp at this
  · rw [opE, labelHom_apply, Phi_unit S (hn i).1 (hn i).2, GG_up]
    exact (top_Jp hS).killed i i.2
  · have h1 := (sys_Jp hS).comm i i i.2 i.2
    have h2 : Phi S (unit S.length i i - unit S.length (i + 1) (i + 1)) = (2 : ℂ) • Jz S i := by
      have e := unit_rel S.length (i := i) (j := i + 1) (k := i + 1) (l := i) (hn i).1 (hn i).2 (hn i).2 (hn i).1
      rw [if_pos rfl, if_pos rfl] at e
      rw [← e, Phi_lie hS, Phi_unit S (hn i).1 (hn i).2, Phi_unit S (hn i).2 (hn i).1, GG_up, GG_dn, h1, if_pos rfl]
    rw [opH, labelHom_apply, h2, smul_mulVec, Jz_top hS (hn i).2, smul_smul]
    congr 1
    ring

/-- The label with given weights. -/
def labelOf (n : ℕ) (m : Fin (n - 1) → ℕ) : List ℤ := (List.range n).map fun k => ∑ i : Fin (n - 1), if (i : ℕ) + k + 1 < n then (m i : ℤ) else 0

theorem labelOf_getD (n : ℕ) (m : Fin (n - 1) → ℕ) {k : ℕ} (hk : k < n) :
    (labelOf n m).getD k 0 = ∑ i : Fin (n - 1), if (i : ℕ) + k + 1 < n then (m i : ℤ) else 0 := by
  rw [labelOf, List.getD_eq_getElem _ _ (by simpa using hk), List.getElem_map, List.getElem_range]

theorem labelOf_make {n : ℕ} (hn : n ≠ 0) (m : Fin (n - 1) → ℕ) : SUN.make (labelOf n m) = .ok (labelOf n m) := by
  have hl : (labelOf n m).length = n := by simp [labelOf]
  rw [make_ok_iff]
  refine ⟨rfl, rfl, ?_, ?_⟩
  · rw [labelOf, List.pairwise_map]
    refine List.pairwise_lt_range.imp fun {a b} hab => Finset.sum_le_sum fun i _ => ?_
    split_ifs <;> omega
  · rw [List.getLast?_eq_getElem?, List.getElem?_eq_getElem (by omega), ← List.getD_eq_getElem _ 0, labelOf_getD n m (by omega), hl]
    congr 1
    refine Finset.sum_eq_zero fun i _ => ?_
    rw [if_neg (by omega)]

theorem labelOf_diff (n : ℕ) (m : Fin (n - 1) → ℕ) (i : Fin (n - 1)) :
    (labelOf n m).getD (n - 1 - i - 1) 0 - (labelOf n m).getD (n - 1 - i) 0 = m i := by
  have := i.2
  rw [labelOf_getD n m (by omega), labelOf_getD n m (by omega), ← Finset.sum_sub_distrib, Finset.sum_eq_single i]
  · rw [if_pos (by omega), if_neg (by omega), sub_zero]
  · intro j _ hj
    have : (j : ℕ) ≠ i := fun e => hj (Fin.ext e)
    split_ifs <;> first | rfl | simp only [sub_self] | omega
  · simp

theorem genFn_phi (S : List ℤ) (k : Fin (S.length ^ 2 - 1)) :
    genFn (S.length ^ 2 - 1) ((suBasis S.length).map (Phi S)) k = Phi S ((suBasis S.length).getD k 0) := by
  have hk : (k : ℕ) < (suBasis S.length).length := by rw [length_suBasis']; exact k.2
  rw [genFn, List.getD_eq_getElem _ _ (by simpa using hk), List.getElem_map, List.getD_eq_getElem _ _ hk]

theorem mem_suBasis_iff {n : ℕ} {x : Matrix (Fin n) (Fin n) ℂ} : x ∈ suBasis n ↔ ∃ k : Fin (n ^ 2 - 1), x = (suBasis n).getD k 0 := by
  constructor
  · intro h
    obtain ⟨k, hk, e⟩ := List.getElem_of_mem h
    exact ⟨⟨k, by rw [← length_suBasis' n]; exact hk⟩, by rw [← e, List.getD_eq_getElem _ _ hk]⟩
  · rintro ⟨k, rfl⟩
    exact getD_mem (by rw [length_suBasis']; exact k.2)

/-- An irreducible family with the weights of a label. -/
theorem label_equiv {n d d' : ℕ} {S : List ℤ} (h2 : 2 ≤ n) {r : Rep (n ^ 2 - 1) 0 d'} (h : IsLabel n S r)
    {X : Fin (n ^ 2 - 1) → Matrix (Fin d) (Fin d) ℂ} (hirr : IrreducibleFamily X)
    {f : Matrix (Fin n) (Fin n) ℂ →ₗ[ℂ] End ℂ (Fin d → ℂ)} (hf : GLHom f)
    (hX : ∀ k : Fin (n ^ 2 - 1), f ((suBasis n).getD k 0) = Matrix.toLin' (X k)) {v : Fin d → ℂ}
    (hv : IsTop (opE f) (opH f) (fun i => ((S.getD (n - 1 - i - 1) 0 - S.getD (n - 1 - i) 0 : ℤ) : ℂ)) v) : Equivalent X r.X := by
  obtain ⟨hm, hl, hd, L, hL, e⟩ := h
  subst hl
  have hirr' := C72_irreducible hm h2 hd hL
  obtain ⟨hS, h0, -⟩ := make_weight hm
  obtain rfl := dim_pats hS hd
  rw [generators_eq hS h0 h2] at hL
  cases hL
  rw [e]
  obtain ⟨φ, hφ⟩ := GLHom.unique hf (labelHom_glHom hS)
    (fun U hU => hirr.2 U fun a w hw => by
      have := hU _ (mem_suBasis_iff.2 ⟨a, rfl⟩) w hw
      rwa [hX] at this)
    (fun U hU => hirr'.2 U fun a w hw => by
      rw [genFn_phi]
      exact hU _ (mem_suBasis_iff.2 ⟨a, rfl⟩) w hw) hv (label_top hS)
  refine equivalent_of_linear φ fun a x => ?_
  have := hφ _ (mem_suBasis_iff.2 ⟨a, rfl⟩) x
  rw [hX] at this
  rw [genFn_phi]
  exact this

/-- Every irreducible family with the commutation relations has a label. -/
theorem exists_label_of_irreducible {n d : ℕ} (h2 : 2 ≤ n) {A : Fin (n ^ 2 - 1) → Fin (n ^ 2 - 1) → Fin (n ^ 2 - 1) → ℂ}
    (hA : ∀ i j : Fin (n ^ 2 - 1), (suBasis n).getD i 0 * (suBasis n).getD j 0 - (suBasis n).getD j 0 * (suBasis n).getD i 0 =
      ∑ k : Fin (n ^ 2 - 1), A i j k • (suBasis n).getD k 0)
    {X : Fin (n ^ 2 - 1) → Matrix (Fin d) (Fin d) ℂ} (hX : ∀ i j, X i * X j - X j * X i = ∑ k, A i j k • X k)
    (hirr : IrreducibleFamily X) : ∃ S, IsLabel n S (labelRep n S) ∧ Equivalent X (labelRep n S).X := by
  obtain ⟨f, hf, hfX⟩ := exists_hom (R := End ℂ (Fin d → ℂ)) (by omega) hA (X := fun k => Matrix.toLin' (X k)) (by
    intro i j
    have := congrArg (Matrix.toLinAlgEquiv' (R := ℂ) (n := Fin d)) (hX i j)
    simp only [map_sub, map_mul, map_sum, map_smul] at this
    exact this)
  have : Nonempty (Fin d) := ⟨⟨0, hirr.1⟩⟩
  obtain ⟨v, lam, hv⟩ := exists_top hf.sys (rhoA_cartan n)
  choose m hm using weight_nat hf.sys (cartanA_diag n) hv
  refine ⟨labelOf n m, ?_, ?_⟩
  · exact exists_label h2 (labelOf_make (by omega) m) (by simp [labelOf])
  · refine label_equiv h2 (exists_label h2 (labelOf_make (by omega) m) (by simp [labelOf])) hirr hf hfX (v := v) ?_
    convert hv using 1
    funext i
    rw [labelOf_diff, hm]
    norm_cast

end LieNN.Highest

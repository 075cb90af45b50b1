import Verif.Proofs.SUNIrr
import Verif.Props.SUNGen
import Verif.Proofs.Intertwiner
import Mathlib.LinearAlgebra.FiniteDimensional.Lemmas
/-!
# C72: the representations of `SU(N)` are irreducible and pairwise inequivalent
-/
namespace LieNN.Props

open Matrix Spec SUN

/-- The dimension is the number of the patterns. -/
theorem dim_pats {S : List ℤ} (hS : IsWeight S) {d : ℕ} (hd : dim S = .ok (d : ℤ)) : (pats S).length = d := by
  rw [dim_eq S hS] at hd
  injection hd with h
  exact_mod_cast h

theorem genFn_basis {n d : ℕ} (f : Matrix (Fin n) (Fin n) ℂ →ₗ[ℂ] Matrix (Fin d) (Fin d) ℂ)
    {x : Matrix (Fin n) (Fin n) ℂ} (hx : x ∈ suBasis n) :
    ∃ a : Fin (n ^ 2 - 1), genFn (n ^ 2 - 1) ((suBasis n).map f) a = f x := by
  obtain ⟨i, hi, rfl⟩ := List.mem_iff_getElem.1 hx
  refine ⟨⟨i, by rw [← length_suBasis']; exact hi⟩, ?_⟩
  rw [genFn_map]
  rw [List.getD_eq_getElem _ _ hi]

/-- C72: for every accepted label with at least two entries the generators have no invariant subspace
other than zero and the whole space. -/
theorem C72_irreducible {S : List ℤ} (hm : SUN.make S = .ok S) (h2 : 2 ≤ S.length) {d : ℕ}
    (hd : dim S = .ok (d : ℤ)) {L : List (Matrix (Fin d) (Fin d) ℂ)} (hL : generators d S = .ok L) :
    IrreducibleFamily (genFn (S.length ^ 2 - 1) L) := by
  obtain ⟨hS, h0, -⟩ := make_weight hm
  obtain rfl := dim_pats hS hd
  rw [generators_eq hS h0 h2] at hL
  cases hL
  refine ⟨(topIdx hS).pos, fun W hW => invariant_trivial hS fun x hx w hw => ?_⟩
  obtain ⟨a, ha⟩ := genFn_basis (Phi S) hx
  rw [← ha]
  exact hW a w hw

/-- C72: two different accepted labels with the same number of entries give representations between
which there is no intertwiner other than zero. -/
theorem C72_inequivalent {S S' : List ℤ} (hm : SUN.make S = .ok S) (hm' : SUN.make S' = .ok S')
    (hlen : S'.length = S.length) (h2 : 2 ≤ S.length) (hne : S ≠ S') {d d' : ℕ}
    (hd : dim S = .ok (d : ℤ)) (hd' : dim S' = .ok (d' : ℤ)) {L : List (Matrix (Fin d) (Fin d) ℂ)}
    {L' : List (Matrix (Fin d') (Fin d') ℂ)} (hL : generators d S = .ok L) (hL' : generators d' S' = .ok L') :
    intertwiners (genFn (S.length ^ 2 - 1) L) (genFn (S.length ^ 2 - 1) L') = ⊥ := by
  obtain ⟨hS, h0, hl⟩ := make_weight hm
  obtain ⟨hS', h0', hl'⟩ := make_weight hm'
  obtain rfl := dim_pats hS hd
  obtain rfl := dim_pats hS' hd'
  rw [generators_eq hS h0 h2] at hL
  rw [generators_eq hS' h0' (by omega)] at hL'
  cases hL
  cases hL'
  rw [Submodule.eq_bot_iff]
  intro T hT
  have hT' : ∀ a, genFn _ _ a * T = T * genFn _ _ a := hT
  have hgen : ∀ i (h : i < (suBasis S.length).length), T * ((suBasis S'.length).map (Phi S')).getD i 0 =
      Phi S ((suBasis S.length)[i]) * T := by
    intro i h
    have := hT' ⟨i, by rw [← length_suBasis']; exact h⟩
    rw [genFn_map, List.getD_eq_getElem _ _ h] at this
    exact this.symm
  have hop : ∀ k l, k < S.length → l < S.length → k ≠ l → T * GG S' k l = GG S k l * T := by
    intro k l hk hl hkl
    rw [← Phi_unit S hk hl, ← Phi_unit S' (by omega) (by omega)]
    revert hgen
    generalize Phi S' = f'
    revert f'
    rw [hlen]
    intro f' hgen
    refine intertwines_of_basis (fun x hx => ?_) hk hl hkl
    obtain ⟨i, hi, rfl⟩ := List.mem_iff_getElem.1 hx
    have := hgen i hi
    rwa [List.getD_eq_getElem _ _ (by simpa using hi), List.getElem_map] at this
  refine intertwiner_zero hS' hS hlen (by rw [hl, hl']) hne.symm T (fun l hl => ?_) fun l hl => ?_
  · have := hop l (l + 1) (by omega) (by omega) (by omega)
    rwa [GG_up, GG_up] at this
  · have := hop (l + 1) l (by omega) (by omega) (by omega)
    rwa [GG_dn, GG_dn] at this

/-- C72: the label with one entry has dimension one. -/
theorem C72_one : IrreducibleFamily (genFn 1 ([0] : List (Matrix (Fin 1) (Fin 1) ℂ))) := by
  refine ⟨by norm_num, fun W _ => ?_⟩
  have h1 : Module.finrank ℂ (Fin 1 → ℂ) = 1 := by simp
  by_cases h : W = ⊥
  · exact .inl h
  · exact .inr ((is_simple_module_of_finrank_eq_one (A := ℂ) h1).eq_bot_or_eq_top W |>.resolve_left h)

/-- C72, consequence: a matrix that commutes with all generators is a multiple of the identity. -/
theorem C72_schur {S : List ℤ} (hm : SUN.make S = .ok S) (h2 : 2 ≤ S.length) {d : ℕ}
    (hd : dim S = .ok (d : ℤ)) {L : List (Matrix (Fin d) (Fin d) ℂ)} (hL : generators d S = .ok L)
    (T : Matrix (Fin d) (Fin d) ℂ) (hT : ∀ x ∈ L, T * x = x * T) : ∃ c : ℂ, T = c • 1 := by
  obtain ⟨hS, h0, -⟩ := make_weight hm
  obtain rfl := dim_pats hS hd
  rw [generators_eq hS h0 h2] at hL
  cases hL
  have hop : ∀ k l, k < S.length → l < S.length → k ≠ l → T * GG S k l = GG S k l * T := by
    intro k l hk hl hkl
    rw [← Phi_unit S hk hl]
    exact intertwines_of_basis (fun x hx => hT _ (List.mem_map_of_mem hx)) hk hl hkl
  refine Ladder.commutant (sys_Jp hS) (top_Jp hS) T (fun l hl => ?_) fun l hl => ?_
  · have := hop l (l + 1) (by omega) (by omega) (by omega)
    rwa [GG_up] at this
  · have := hop (l + 1) l (by omega) (by omega) (by omega)
    rwa [GG_dn] at this

/-- Non-vacuity: the two three-dimensional representations of `SU(3)`. -/
example : SUN.make [1, 0, 0] = .ok [1, 0, 0] ∧ SUN.make [1, 1, 0] = .ok [1, 1, 0] ∧
    dim [1, 0, 0] = .ok 3 ∧ dim [1, 1, 0] = .ok 3 ∧
    (∃ L, generators 3 [1, 0, 0] = .ok L) ∧ ∃ L, generators 3 [1, 1, 0] = .ok L := by
  have h1 : dim [1, 0, 0] = .ok 3 := by decide +kernel
  have h2 : dim [1, 1, 0] = .ok 3 := by decide +kernel
  obtain ⟨f, hf, -⟩ := C69_generators (S := [1, 0, 0]) rfl (by simp) (d := 3) h1
  obtain ⟨g, hg, -⟩ := C69_generators (S := [1, 1, 0]) rfl (by simp) (d := 3) h2
  exact ⟨rfl, rfl, h1, h2, ⟨_, hf⟩, ⟨_, hg⟩⟩

end LieNN.Props

import Verif.Model.Finite
import Verif.Spec.Finite
import Verif.Spec.LinAlg
import Verif.Proofs.Perm
import Mathlib.GroupTheory.Perm.Closure
import Mathlib.GroupTheory.Perm.Fin
import Mathlib.GroupTheory.OrderOfElement
/-! # Lemmas on the model of `finite.py` -/
namespace LieNN.Finite

open Matrix LieNN.Spec

variable {n : ℕ}

theorem permutationMatrix_eq {p : List ℕ} (h : p.length = n) (σ : Equiv.Perm (Fin n))
    (hp : ∀ k : Fin n, p.getD k 0 = σ k) : permutationMatrix p = .ok ⟨n, n, PMat σ⟩ := by
  subst h
  unfold permutationMatrix
  rw [if_pos]
  · congr 2
    ext i k
    simp [PMat, Fin.ext_iff]
    rw [← hp k]; simp
  · intro x hx
    obtain ⟨k, hk, rfl⟩ := List.getElem_of_mem hx
    have := hp ⟨k, hk⟩
    simp [hk] at this
    rw [this]; exact (σ ⟨k, hk⟩).2

theorem permutationMatrix_tup (σ : Equiv.Perm (Fin n)) :
    permutationMatrix (tup σ) = .ok ⟨n, n, PMat σ⟩ :=
  permutationMatrix_eq (by simp [tup]) σ fun k => Perm.tup_getD σ k 0

theorem PMat_mul (σ τ : Equiv.Perm (Fin n)) : PMat σ * PMat τ = PMat (σ * τ) := by
  ext i j
  simp only [PMat, Matrix.mul_apply, Matrix.of_apply, mul_ite, mul_one, mul_zero, Equiv.Perm.mul_apply]
  rw [Finset.sum_ite_eq]; simp
  congr

theorem PMat_one : PMat (1 : Equiv.Perm (Fin n)) = 1 := by
  ext i j
  simp [PMat, Matrix.one_apply, eq_comm]

theorem transpositionMatrix_eq (i j : Fin n) :
    transpositionMatrix n i j = .ok (PMat (Equiv.swap i j)) := by
  simp only [transpositionMatrix, pyAssert, if_pos i.2, if_pos j.2, bind, Except.bind, pure, Except.pure]
  congr 1
  ext a b
  simp only [setE, Matrix.of_apply, PMat, Equiv.swap_apply_def, Matrix.one_apply, Fin.ext_iff]
  rcases eq_or_ne b.1 i.1 with h1 | h1 <;> rcases eq_or_ne b.1 j.1 with h2 | h2 <;>
    rcases eq_or_ne a.1 i.1 with h3 | h3 <;> rcases eq_or_ne a.1 j.1 with h4 | h4 <;>
    (try (exfalso; omega)) <;> simp [h1, h2, h3, h4] <;> (try omega) <;> (try split_ifs) <;>
    (try rfl) <;> (try omega)

theorem foldl_setE {m k : ℕ} (g : ℕ → ℕ) (l : List ℕ) (M : Matrix (Fin m) (Fin k) ℂ) (a : Fin m) (b : Fin k) :
    (l.foldl (fun M i => setE (setE M (g i) i 1) 0 i (-1)) M) a b =
      if b.1 ∈ l then (if a.1 = 0 then -1 else if a.1 = g b then 1 else M a b) else M a b := by
  induction l generalizing M with
  | nil => simp
  | cons i l ih =>
    rw [List.foldl_cons, ih]
    simp only [setE, Matrix.of_apply, List.mem_cons]
    by_cases h1 : b.1 = i
    · subst h1; simp only [and_true, true_or, if_true]; split_ifs <;> rfl
    · simp [h1]

/-- The block of a permutation on the vectors of sum zero, in the basis `f`. -/
noncomputable def phi (σ : Equiv.Perm (Fin n)) : Matrix (Fin (n - 1)) (Fin (n - 1)) ℂ :=
  Matrix.of fun m i => (PMat σ * stdEmbed n) ⟨m.1 + 1, by omega⟩ i

theorem PMat_mul_apply {k : ℕ} (σ : Equiv.Perm (Fin n)) (A : Matrix (Fin n) (Fin k) ℂ) (i : Fin n) (j : Fin k) :
    (PMat σ * A) i j = A (σ.symm i) j := by
  simp [PMat, Matrix.mul_apply, ← Equiv.eq_symm_apply]

theorem colsum_embed (i : Fin (n - 1)) : ∑ j, stdEmbed n j i = 0 := by
  obtain ⟨m, rfl⟩ : ∃ m, n = m + 1 := ⟨n - 1, by have := i.2; omega⟩
  rw [Fin.sum_univ_succ]
  simp only [stdEmbed, Matrix.of_apply, Fin.val_zero, Fin.val_succ]
  simp [Fin.val_inj]

theorem embed_mul {k : ℕ} (hn : 1 ≤ n) (A : Matrix (Fin n) (Fin k) ℂ) (hA : ∀ i, ∑ j, A j i = 0) :
    stdEmbed n * (Matrix.of fun m i => A ⟨m.1 + 1, by omega⟩ i) = A := by
  obtain ⟨m, rfl⟩ : ∃ m, n = m + 1 := ⟨n - 1, by omega⟩
  ext j i
  have hA' := hA i
  rw [Fin.sum_univ_succ] at hA'
  rw [Matrix.mul_apply]
  simp only [stdEmbed, Matrix.of_apply]
  change ∑ x : Fin m, _ = _
  refine Fin.cases ?_ (fun j => ?_) j
  · simp only [Fin.val_zero]
    simp
    rw [eq_comm, eq_neg_iff_add_eq_zero]; exact hA'
  · simp only [Fin.val_succ]
    rw [Finset.sum_eq_single j]
    · simp; rfl
    · intro b _ hb
      rw [if_neg (by intro h; exact hb (Fin.ext (by omega))), if_neg (by omega)]; simp
    · simp

theorem colsum_PMat (σ : Equiv.Perm (Fin n)) (i : Fin (n - 1)) :
    ∑ j, (PMat σ * stdEmbed n) j i = 0 := by
  simp only [PMat_mul_apply]
  rw [Equiv.sum_comp σ.symm (fun j => stdEmbed n j i), colsum_embed]

theorem embed_phi (hn : 1 ≤ n) (σ : Equiv.Perm (Fin n)) : stdEmbed n * phi σ = PMat σ * stdEmbed n :=
  embed_mul hn _ (colsum_PMat σ)

/-- Rows `1 …` of the embedding are the identity. -/
theorem embed_succ (m i : Fin (n - 1)) :
    stdEmbed n ⟨m.1 + 1, by omega⟩ i = (1 : Matrix (Fin (n - 1)) (Fin (n - 1)) ℂ) m i := by
  simp [stdEmbed, Matrix.one_apply, Fin.ext_iff]

theorem embed_inj {k : ℕ} (A B : Matrix (Fin (n - 1)) (Fin k) ℂ) (h : stdEmbed n * A = stdEmbed n * B) :
    A = B := by
  ext m i
  have := congrFun (congrFun h ⟨m.1 + 1, by omega⟩) i
  simp only [Matrix.mul_apply, embed_succ] at this
  simpa [Matrix.one_apply] using this

theorem phi_mul (hn : 1 ≤ n) (σ τ : Equiv.Perm (Fin n)) : phi (σ * τ) = phi σ * phi τ := by
  apply embed_inj
  rw [embed_phi hn, ← Matrix.mul_assoc, embed_phi hn, Matrix.mul_assoc, embed_phi hn, ← Matrix.mul_assoc, PMat_mul]

theorem phi_one (hn : 1 ≤ n) : phi (1 : Equiv.Perm (Fin n)) = 1 := by
  apply embed_inj
  rw [embed_phi hn, PMat_one, Matrix.one_mul, Matrix.mul_one]

theorem phi_apply (σ : Equiv.Perm (Fin n)) (m i : Fin (n - 1)) : phi σ m i =
    (if (⟨m.1 + 1, by omega⟩ : Fin n) = σ ⟨i.1 + 1, by omega⟩ then 1 else 0) -
      (if (⟨m.1 + 1, by omega⟩ : Fin n) = σ ⟨0, by have := m.2; omega⟩ then 1 else 0) := by
  simp only [phi, Matrix.of_apply, PMat_mul_apply, stdEmbed]
  congr 1
  · congr 1
    rw [← Equiv.symm_apply_eq, Fin.ext_iff]
  · congr 1
    rw [← Equiv.symm_apply_eq, Fin.ext_iff]

theorem standardTr_eq (hn : 2 ≤ n) : standardTr n = phi (Equiv.swap ⟨0, by omega⟩ ⟨1, by omega⟩) := by
  ext m i
  rw [standardTr, phi_apply]
  have hf := foldl_setE id (List.range' 1 (n - 2)) (setE 0 0 0 (-1)) m i
  simp only [id] at hf
  rw [hf]
  have hm := m.2
  have hi := i.2
  simp only [setE, Matrix.of_apply, Equiv.swap_apply_def, Fin.ext_iff, List.mem_range', id]
  rcases Nat.eq_zero_or_pos i.1 with h | h
  · rw [if_neg (by rintro ⟨k, _, h⟩; omega)]
    simp only [h]
    by_cases h' : m.1 = 0
    · simp [h']
    · simp [h']
  · rw [if_pos ⟨i.1 - 1, by omega, by omega⟩]
    have : ¬ (i.1 = 0) := by omega
    have this' : ¬ (0 = i.1) := by omega
    by_cases h' : m.1 = 0
    · simp [h', this, this']
    · by_cases h'' : m.1 = i.1
      · simp [h'', this]
      · simp [h', h'', this]

theorem standardCy_eq (hn : 2 ≤ n) : standardCy n = phi (finRotate n) := by
  obtain ⟨k, rfl⟩ : ∃ k, n = k + 1 := ⟨n - 1, by omega⟩
  ext m i
  have hm := m.2
  have hi := i.2
  rw [standardCy, phi_apply]
  have h0 : ((finRotate (k + 1) ⟨0, by omega⟩ : Fin (k + 1)) : ℕ) = 1 := by
    rw [finRotate_of_lt (by omega)]
  rw [setE, Matrix.of_apply]
  simp only [Fin.ext_iff, h0]
  have hf := foldl_setE (fun x => x + 1) (List.range (k + 1 - 2)) (0 : Matrix (Fin (k + 1 - 1)) (Fin (k + 1 - 1)) ℂ) m i
  rw [hf]
  simp only [List.mem_range]
  by_cases hlast : i.1 + 1 = k
  · have h1 : ((finRotate (k + 1) ⟨i.1 + 1, by omega⟩ : Fin (k + 1)) : ℕ) = 0 := by
      have : (⟨i.1 + 1, by omega⟩ : Fin (k + 1)) = Fin.last k := Fin.ext hlast
      rw [this, finRotate_last]; rfl
    rw [h1]
    by_cases h' : m.1 = 0
    · rw [if_pos ⟨h', by omega⟩]; simp [h']
    · rw [if_neg (by simp [h']), if_neg (by omega)]; simp [h']
  · have h1 : ((finRotate (k + 1) ⟨i.1 + 1, by omega⟩ : Fin (k + 1)) : ℕ) = i.1 + 2 := by
      rw [finRotate_of_lt (by omega)]
    rw [h1, if_neg (by omega), if_pos (by omega)]
    by_cases h' : m.1 = 0
    · simp [h']
    · simp [h']

theorem cyc_tuple (hn : 1 ≤ n) :
    permutationMatrix ((List.range n).map fun i => (i + 1) % n) = .ok ⟨n, n, PMat (finRotate n)⟩ := by
  obtain ⟨k, rfl⟩ : ∃ k, n = k + 1 := ⟨n - 1, by omega⟩
  refine permutationMatrix_eq (by simp) _ fun i => ?_
  rw [List.getD_eq_getElem?_getD, List.getElem?_map, List.getElem?_range i.2, finRotate_succ_apply, Fin.val_add]
  simp

theorem naturalGens_eq (hn : 3 ≤ n) : naturalGens n =
    .ok [⟨n, n, PMat (Equiv.swap ⟨0, by omega⟩ ⟨1, by omega⟩)⟩, ⟨n, n, PMat (finRotate n)⟩] := by
  unfold naturalGens
  rw [cyc_tuple (by omega)]
  simp only [pyAssert, if_pos (show 1 ≤ n by omega), if_neg (show n ≠ 1 by omega), if_neg (show n ≠ 2 by omega)]
  have := transpositionMatrix_eq (⟨0, by omega⟩ : Fin n) ⟨1, by omega⟩
  simp only at this
  rw [this]; rfl

theorem naturalGens_two : naturalGens 2 = .ok [⟨2, 2, PMat (Equiv.swap 0 1)⟩] := by
  have := transpositionMatrix_eq (0 : Fin 2) 1
  simp only [naturalGens, pyAssert] at *
  simp at this ⊢
  rw [this]; rfl

theorem standardGens_two : standardGens 2 = .ok [phi (Equiv.swap 0 1)] := by
  simp only [standardGens, pyAssert]
  simp [bind, Except.bind, pure, Except.pure]
  ext m i
  rw [phi_apply]
  fin_cases m; fin_cases i; simp

theorem standardGens_eq (hn : 3 ≤ n) : standardGens n =
    .ok [phi (Equiv.swap ⟨0, by omega⟩ ⟨1, by omega⟩), phi (finRotate n)] := by
  simp only [standardGens, pyAssert, if_pos (show 2 ≤ n by omega), if_neg (show n ≠ 2 by omega)]
  rw [standardTr_eq (by omega), standardCy_eq (by omega)]; rfl

theorem closure_gens (hn : 2 ≤ n) :
    Subgroup.closure {finRotate n, Equiv.swap ⟨0, by omega⟩ ⟨1, by omega⟩} = (⊤ : Subgroup (Equiv.Perm (Fin n))) := by
  have := Equiv.Perm.closure_cycle_adjacent_swap (isCycle_finRotate_of_le hn) (support_finRotate_of_le hn)
    (⟨0, by omega⟩ : Fin n)
  rw [← this]
  congr 3
  obtain ⟨k, rfl⟩ : ∃ k, n = k + 1 := ⟨n - 1, by omega⟩
  rw [finRotate_of_lt (by omega)]

theorem phi_injective (hn : 2 ≤ n) : Function.Injective (phi (n := n)) := by
  have key : ∀ σ : Equiv.Perm (Fin n), phi σ = 1 → σ = 1 := by
    intro σ h
    have hE : PMat σ * stdEmbed n = stdEmbed n := by rw [← embed_phi (by omega), h, Matrix.mul_one]
    have h0 : ∀ (j : Fin n) (i : Fin (n - 1)), stdEmbed n (σ.symm j) i = stdEmbed n j i := by
      intro j i; rw [← PMat_mul_apply σ (stdEmbed n), hE]
    have h1 : σ.symm ⟨0, by omega⟩ = ⟨0, by omega⟩ := by
      by_contra hne
      have := h0 ⟨0, by omega⟩ ⟨0, by omega⟩
      have hv : (σ.symm ⟨0, by omega⟩).1 ≠ 0 := fun h => hne (Fin.ext h)
      simp only [stdEmbed, Matrix.of_apply, if_neg hv] at this
      split_ifs at this <;> norm_num at this
      simp_all
    have h2 : ∀ j, σ.symm j = j := by
      intro j
      rcases Nat.eq_zero_or_pos j.1 with hj | hj
      · have : j = ⟨0, by omega⟩ := Fin.ext hj
        rw [this]; exact h1
      · have := h0 j ⟨j.1 - 1, by omega⟩
        simp only [stdEmbed, Matrix.of_apply, if_pos (show j.1 = j.1 - 1 + 1 by omega),
          if_neg (show ¬ j.1 = 0 by omega)] at this
        by_contra hne
        have hv : (σ.symm j).1 ≠ j.1 - 1 + 1 := fun h => hne (Fin.ext (by omega))
        rw [if_neg hv] at this
        split_ifs at this <;> norm_num at this
    ext j
    have := h2 (σ j)
    rw [Equiv.symm_apply_apply] at this
    simp [← this]
  intro σ τ h
  have h1 : phi (σ * τ⁻¹) = 1 := by
    rw [phi_mul (by omega), h, ← phi_mul (by omega), mul_inv_cancel, phi_one (by omega)]
  exact mul_inv_eq_one.1 (key _ h1)

theorem exists_perm {a b c d : Fin n} (h : a ≠ b) (h' : c ≠ d) : ∃ σ : Equiv.Perm (Fin n), σ a = c ∧ σ b = d := by
  refine ⟨Equiv.swap (Equiv.swap a c b) d * Equiv.swap a c, ?_, ?_⟩
  · rw [Equiv.Perm.mul_apply, Equiv.swap_apply_left]
    refine Equiv.swap_apply_of_ne_of_ne ?_ h'
    intro h2
    have : Equiv.swap a c b = Equiv.swap a c a := by rw [← h2]; simp
    exact h ((Equiv.swap a c).injective this).symm
  · rw [Equiv.Perm.mul_apply, Equiv.swap_apply_left]

theorem invariant_all (hn : 2 ≤ n) (W : Submodule ℂ (Fin (n - 1) → ℂ))
    (h1 : ∀ w ∈ W, phi (finRotate n) *ᵥ w ∈ W)
    (h2 : ∀ w ∈ W, phi (Equiv.swap (⟨0, by omega⟩ : Fin n) ⟨1, by omega⟩) *ᵥ w ∈ W)
    (σ : Equiv.Perm (Fin n)) : ∀ w ∈ W, phi σ *ᵥ w ∈ W := by
  have hσ : σ ∈ Subgroup.closure {finRotate n, Equiv.swap (⟨0, by omega⟩ : Fin n) ⟨1, by omega⟩} := by
    rw [closure_gens hn]; trivial
  induction hσ using Subgroup.closure_induction with
  | mem x hx => rcases hx with rfl | rfl <;> assumption
  | one => intro w hw; rw [phi_one (by omega), Matrix.one_mulVec]; exact hw
  | mul x y _ _ hx hy =>
    intro w hw
    rw [phi_mul (by omega), ← Matrix.mulVec_mulVec]; exact hx _ (hy _ hw)
  | inv x _ hx =>
    have hp : ∀ k : ℕ, ∀ w ∈ W, phi (x ^ k) *ᵥ w ∈ W := by
      intro k
      induction k with
      | zero => intro w hw; rw [pow_zero, phi_one (by omega), Matrix.one_mulVec]; exact hw
      | succ k ih =>
        intro w hw
        rw [pow_succ, phi_mul (by omega), ← Matrix.mulVec_mulVec]; exact ih _ (hx _ hw)
    have : x⁻¹ = x ^ (orderOf x - 1) := by
      rw [inv_eq_iff_mul_eq_one, ← pow_succ', Nat.sub_add_cancel (orderOf_pos x), pow_orderOf_eq_one]
    rw [this]; exact hp _

theorem irreducible (hn : 2 ≤ n) (W : Submodule ℂ (Fin (n - 1) → ℂ))
    (hW : ∀ σ : Equiv.Perm (Fin n), ∀ w ∈ W, phi σ *ᵥ w ∈ W) : W = ⊥ ∨ W = ⊤ := by
  by_cases hb : W = ⊥
  · exact .inl hb
  right
  obtain ⟨w, hw, hw0⟩ := W.ne_bot_iff.1 hb
  have einj : ∀ u v : Fin (n - 1) → ℂ, stdEmbed n *ᵥ u = stdEmbed n *ᵥ v → u = v := by
    intro u v h
    have := embed_inj (Matrix.replicateCol (Fin 1) u) (Matrix.replicateCol (Fin 1) v) (by
      rw [← Matrix.replicateCol_mulVec, ← Matrix.replicateCol_mulVec, h])
    ext i
    exact congrFun (congrFun this i) 0
  have hphi : ∀ σ : Equiv.Perm (Fin n), ∀ u, stdEmbed n *ᵥ (phi σ *ᵥ u) = fun i => (stdEmbed n *ᵥ u) (σ.symm i) := by
    intro σ u
    rw [Matrix.mulVec_mulVec, embed_phi (by omega), ← Matrix.mulVec_mulVec]
    ext i
    simp [PMat, Matrix.mulVec, dotProduct, ← Equiv.eq_symm_apply]
  set v := stdEmbed n *ᵥ w with hv
  have hsum : ∑ i, v i = 0 := by
    simp only [hv, Matrix.mulVec, dotProduct]
    rw [Finset.sum_comm]
    simp [← Finset.sum_mul, colsum_embed]
  obtain ⟨a, b, hab⟩ : ∃ a b, v a ≠ v b := by
    by_contra hcon
    push_neg at hcon
    apply hw0
    apply einj
    rw [Matrix.mulVec_zero, ← hv]
    ext i
    have : ∑ j, v j = n * v i := by
      rw [Finset.sum_congr rfl fun j _ => hcon j i]; simp
    rw [hsum] at this
    have hn0 : (n : ℂ) ≠ 0 := by exact_mod_cast (by omega : n ≠ 0)
    simpa [hn0] using this.symm
  have hne : a ≠ b := fun h => hab (by rw [h])
  set u := (v a - v b)⁻¹ • (w - phi (Equiv.swap a b) *ᵥ w) with hu
  have huW : u ∈ W := W.smul_mem _ (W.sub_mem hw (hW _ _ hw))
  have hEu : stdEmbed n *ᵥ u = fun i => (if i = a then 1 else 0) - (if i = b then 1 else 0) := by
    rw [hu, Matrix.mulVec_smul, Matrix.mulVec_sub, hphi, ← hv]
    ext i
    have hd : v a - v b ≠ 0 := sub_ne_zero.2 hab
    simp only [Pi.smul_apply, Pi.sub_apply, smul_eq_mul, Equiv.symm_swap]
    by_cases h1 : i = a
    · subst h1; simp [hne]; field_simp
    · by_cases h2 : i = b
      · subst h2; simp [hne.symm]; field_simp; ring
      · rw [Equiv.swap_apply_of_ne_of_ne h1 h2]; simp [h1, h2]
  rw [eq_top_iff]
  intro x _
  have hx : x = ∑ i, x i • (Pi.single i (1 : ℂ) : Fin (n - 1) → ℂ) := by
    ext j; simp [Finset.sum_apply, Pi.single_apply]
  rw [hx]
  refine W.sum_mem fun i _ => W.smul_mem _ ?_
  obtain ⟨σ, hσa, hσb⟩ := exists_perm hne (c := (⟨i.1 + 1, by omega⟩ : Fin n)) (d := ⟨0, by omega⟩)
    (by intro h; simp [Fin.ext_iff] at h)
  have : (Pi.single i (1 : ℂ) : Fin (n - 1) → ℂ) = phi σ *ᵥ u := by
    apply einj
    rw [hphi, hEu]
    ext j
    rw [Matrix.mulVec_single_one]
    simp only [Matrix.col_apply, stdEmbed, Matrix.of_apply, Equiv.symm_apply_eq, hσa, hσb, Fin.ext_iff]
  rw [this]
  exact hW _ _ huW

end LieNN.Finite

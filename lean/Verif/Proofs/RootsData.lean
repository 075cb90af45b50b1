import Verif.Proofs.Roots
/-! # Closed forms of the root data -/
namespace LieNN.Roots

open LieNN.Spec

variable {m : ℕ}

/-- Simple roots of type A as a function of the index. -/
def sA (m i : ℕ) : Fin m → ℚ := e m i - e m (i + 1)
/-- Simple roots of type B as a function of the index. -/
def sB (m i : ℕ) : Fin m → ℚ := if i + 1 < m then e m i - e m (i + 1) else e m (m - 1)
/-- Simple roots of type C as a function of the index. -/
def sC (m i : ℕ) : Fin m → ℚ := if i + 1 < m then e m i - e m (i + 1) else (2 : ℚ) • e m (m - 1)
/-- Simple roots of type D as a function of the index. -/
def sD (m i : ℕ) : Fin m → ℚ := if i + 1 < m then e m i - e m (i + 1) else e m (m - 1) + e m (m - 2)

theorem ee' (a b : ℕ) : e m a ⬝ᵥ e m b = if a = b ∧ b < m then 1 else 0 := by
  by_cases hb : b < m
  · rw [ee _ hb]; simp [hb, eq_comm]
  · have : e m b = 0 := by ext k; simp only [e, Pi.zero_apply, if_neg (show ¬ k.1 = b by omega)]
    simp [hb, this]

theorem pe' (a b : ℕ) : psum m a ⬝ᵥ e m b = if b < a ∧ b < m then 1 else 0 := by
  by_cases hb : b < m
  · rw [pe _ hb]; simp [hb]
  · have : e m b = 0 := by ext k; simp only [e, Pi.zero_apply, if_neg (show ¬ k.1 = b by omega)]
    simp [hb, this]

theorem cartan_get (r : ℕ) (s : ℕ → Fin m → ℚ) (L : List (Fin m → ℚ)) (hL : L = (List.range r).map s) :
    ∃ h : r = L.length, ∀ i j : Fin r, cartanMatrix L (Fin.cast h i) (Fin.cast h j) =
      if i ≠ j then 2 * (s i ⬝ᵥ s j) / (s i ⬝ᵥ s i) else 2 := by
  subst hL
  refine ⟨by simp, fun i j => ?_⟩
  simp [cartanMatrix, Fin.ext_iff]

theorem cartan_A (r : ℕ) (i j : Fin r) :
    (if i ≠ j then 2 * (sA (r + 1) i ⬝ᵥ sA (r + 1) j) / (sA (r + 1) i ⬝ᵥ sA (r + 1) i) else 2) =
      (CartanMatrix.A r i j : ℚ) := by
  have hi := i.2
  have hj := j.2
  simp only [CartanMatrix.A, Matrix.of_apply, sA, sub_dotProduct, dotProduct_sub, Fin.ext_iff, ee', pe', true_and, and_true, ne_eq]
  split_ifs <;> first | omega | norm_num

theorem cartan_B (r : ℕ) (i j : Fin r) :
    (if i ≠ j then 2 * (sB r i ⬝ᵥ sB r j) / (sB r i ⬝ᵥ sB r i) else 2) =
      ((CartanMatrix.B r).transpose i j : ℚ) := by
  have hi := i.2
  have hj := j.2
  simp only [CartanMatrix.B, Matrix.of_apply, Matrix.transpose_apply, sB, Fin.ext_iff, ne_eq]
  by_cases h1 : i.1 + 1 < r <;> by_cases h2 : j.1 + 1 < r <;>
    simp only [h1, h2, if_true, if_false, sub_dotProduct, dotProduct_sub, ee', pe', true_and, and_true, ne_eq] <;>
    split_ifs <;> first | omega | norm_num

theorem sC_self (r i : ℕ) (hi : i < r) : sC r i ⬝ᵥ sC r i = if i + 1 < r then 2 else 4 := by
  simp only [sC]
  by_cases h1 : i + 1 < r <;>
    simp only [h1, if_true, if_false, sub_dotProduct, dotProduct_sub, smul_dotProduct, dotProduct_smul, smul_eq_mul, ee', true_and, and_true] <;>
    split_ifs <;> first | omega | norm_num

theorem sC_dot (r i j : ℕ) (hi : i < r) (hj : j < r) (hij : i < j) :
    sC r i ⬝ᵥ sC r j = if i + 1 = j then (if j + 1 < r then -1 else -2) else 0 := by
  simp only [sC, if_pos (show i + 1 < r by omega)]
  by_cases h1 : j + 1 < r <;>
    simp only [h1, if_true, if_false, sub_dotProduct, dotProduct_sub, smul_dotProduct, dotProduct_smul, smul_eq_mul, ee', true_and, and_true] <;>
    split_ifs <;> first | omega | norm_num

theorem cartan_C (r : ℕ) (i j : Fin r) :
    (if i ≠ j then 2 * (sC r i ⬝ᵥ sC r j) / (sC r i ⬝ᵥ sC r i) else 2) =
      ((CartanMatrix.C r).transpose i j : ℚ) := by
  have hi := i.2
  have hj := j.2
  rw [sC_self _ _ hi]
  simp only [CartanMatrix.C, Matrix.of_apply, Matrix.transpose_apply, Fin.ext_iff, ne_eq]
  rcases lt_trichotomy i.1 j.1 with h | h | h
  · rw [sC_dot _ _ _ hi hj h]
    split_ifs <;> first | omega | norm_num
  · simp [h]
  · rw [dotProduct_comm, sC_dot _ _ _ hj hi h]
    split_ifs <;> first | omega | norm_num

theorem sD_self (r i : ℕ) (hr : 2 ≤ r) (hi : i < r) : sD r i ⬝ᵥ sD r i = 2 := by
  simp only [sD]
  by_cases h1 : i + 1 < r <;>
    simp only [h1, if_true, if_false, sub_dotProduct, dotProduct_sub, add_dotProduct, dotProduct_add, ee', true_and, and_true, and_false] <;>
    split_ifs <;> first | omega | norm_num

theorem sD_dot (r i j : ℕ) (hi : i < r) (hj : j < r) (hij : i < j) :
    sD r i ⬝ᵥ sD r j = if i + 1 = j ∧ j + 1 < r then -1 else if i + 3 = r ∧ j + 1 = r then -1 else 0 := by
  simp only [sD, if_pos (show i + 1 < r by omega)]
  by_cases h1 : j + 1 < r <;>
    simp only [h1, if_true, if_false, sub_dotProduct, dotProduct_sub, add_dotProduct, dotProduct_add, ee', true_and, and_true, and_false] <;>
    split_ifs <;> first | omega | norm_num

theorem cartan_D (r : ℕ) (hr : 2 ≤ r) (i j : Fin r) :
    (if i ≠ j then 2 * (sD r i ⬝ᵥ sD r j) / (sD r i ⬝ᵥ sD r i) else 2) =
      (CartanMatrix.D r i j : ℚ) := by
  have hi := i.2
  have hj := j.2
  rw [sD_self _ _ hr hi]
  simp only [CartanMatrix.D, Matrix.of_apply, Fin.ext_iff, ne_eq]
  rcases lt_trichotomy i.1 j.1 with h | h | h
  · rw [sD_dot _ _ _ hi hj h]
    split_ifs <;> first | omega | norm_num
  · simp [h]
  · rw [dotProduct_comm, sD_dot _ _ _ hj hi h]
    split_ifs <;> first | omega | norm_num

/-! ## Fundamental weights -/

theorem dual_of (r : ℕ) (f s : ℕ → Fin m → ℚ) (F R : List (Fin m → ℚ))
    (hF : F = (List.range r).map f) (hR : R = (List.range r).map s)
    (h : ∀ i < r, ∀ j < r, 2 * (f i ⬝ᵥ s j) / (s j ⬝ᵥ s j) = if i = j then 1 else 0) :
    DualWeights r F R := by
  subst hF hR
  refine ⟨by simp, by simp, fun i hi j hj => ?_⟩
  rw [getD_map_range _ _ _ hi, getD_map_range _ _ _ hj]
  exact h i hi j hj

theorem dual_A (r i j : ℕ) (hi : i < r) (hj : j < r) (c : ℚ) :
    2 * ((psum (r + 1) (i + 1) - c • psum (r + 1) (r + 1)) ⬝ᵥ sA (r + 1) j) / (sA (r + 1) j ⬝ᵥ sA (r + 1) j) =
      if i = j then 1 else 0 := by
  simp only [sA, sub_dotProduct, dotProduct_sub, smul_dotProduct, smul_eq_mul, ee', pe', true_and, and_true, ne_eq]
  split_ifs <;> first | omega | (norm_num; done) | (ring_nf; done) 

/-- Fundamental weights of type B as a function of the index. -/
def fB (m i : ℕ) : Fin m → ℚ := if i + 1 < m then psum m (i + 1) else (1 / 2 : ℚ) • psum m m

theorem dual_B (r i j : ℕ) (hi : i < r) (hj : j < r) :
    2 * (fB r i ⬝ᵥ sB r j) / (sB r j ⬝ᵥ sB r j) = if i = j then 1 else 0 := by
  simp only [sB, fB]
  by_cases h1 : i + 1 < r <;> by_cases h2 : j + 1 < r <;>
    simp only [h1, h2, if_true, if_false, sub_dotProduct, dotProduct_sub, smul_dotProduct, smul_eq_mul, ee', pe', true_and, and_true, ne_eq] <;>
    split_ifs <;> first | omega | norm_num

theorem dual_C (r i j : ℕ) (hi : i < r) (hj : j < r) :
    2 * (psum r (i + 1) ⬝ᵥ sC r j) / (sC r j ⬝ᵥ sC r j) = if i = j then 1 else 0 := by
  simp only [sC]
  by_cases h2 : j + 1 < r <;>
    simp only [h2, if_true, if_false, sub_dotProduct, dotProduct_sub, smul_dotProduct, dotProduct_smul, smul_eq_mul, ee', pe', true_and, and_true, ne_eq] <;>
    split_ifs <;> first | omega | norm_num

/-- The fundamental weights of type D as a function of the index. -/
def fD (m i : ℕ) : Fin m → ℚ :=
  if i + 2 < m then psum m (i + 1)
  else if i + 2 = m then (1 / 2 : ℚ) • psum m m - e m (m - 1) else (1 / 2 : ℚ) • psum m m

theorem dual_D (r i j : ℕ) (hr : 2 ≤ r) (hi : i < r) (hj : j < r) :
    2 * (fD r i ⬝ᵥ sD r j) / (sD r j ⬝ᵥ sD r j) = if i = j then 1 else 0 := by
  rw [sD_self _ _ hr hj, mul_div_cancel_left₀ _ (two_ne_zero)]
  have hD : fD r i = if i + 2 < r then psum r (i + 1) else if i + 2 = r then
    (1 / 2 : ℚ) • psum r r - e r (r - 1) else (1 / 2 : ℚ) • psum r r := rfl
  have hS : sD r j = if j + 1 < r then e r j - e r (j + 1) else e r (r - 1) + e r (r - 2) := rfl
  rcases (by omega : i + 2 < r ∨ i + 2 = r ∨ i + 1 = r) with h | h | h
  · rw [hD, if_pos h, hS]
    split_ifs <;> simp only [dotProduct_sub, dotProduct_add, pe'] <;> split_ifs <;> first | omega | norm_num
  · rw [hD, if_neg (by omega), if_pos h, hS]
    split_ifs <;> simp only [dotProduct_sub, dotProduct_add, sub_dotProduct, smul_dotProduct, pe', ee', smul_eq_mul, true_and] <;>
      split_ifs <;> first | omega | norm_num
  · rw [hD, if_neg (by omega), if_neg (by omega), hS]
    split_ifs <;> simp only [dotProduct_sub, dotProduct_add, smul_dotProduct, pe', smul_eq_mul] <;>
      split_ifs <;> first | omega | norm_num

/-! ## Weyl vectors -/

theorem vsum_append (l l' : List (Fin m → ℚ)) : vsum (l ++ l') = vsum l + vsum l' := by
  rw [vsum_eq, vsum_eq, vsum_eq, List.sum_append]

theorem vsum_pairs_apply (f : ℕ → ℕ → Fin m → ℚ) (k : Fin m) :
    vsum (pairs m f) k = ∑ i ∈ Finset.range m, ∑ j ∈ Finset.range i, f i j k := by
  rw [vsum_eq, sum_list_apply, map_pairs, sum_pairs]

theorem vsum_pairs_sub (k : Fin m) : vsum (pairs m fun i j => e m j - e m i) k = m - 1 - 2 * k := by
  rw [vsum_pairs_apply]
  simp only [Pi.sub_apply, e, Finset.sum_sub_distrib]
  rw [sum_pairs_left k k.2, sum_pairs_right k k.2]; ring

theorem vsum_pairs_add (k : Fin m) : vsum (pairs m fun i j => e m j + e m i) k = m - 1 := by
  rw [vsum_pairs_apply]
  simp only [Pi.add_apply, e, Finset.sum_add_distrib]
  rw [sum_pairs_left k k.2, sum_pairs_right k k.2]; ring

theorem vsum_pairs_add' (k : Fin m) : vsum (pairs m fun i j => e m i + e m j) k = m - 1 := by
  rw [← vsum_pairs_add k]
  simp only [add_comm]

theorem vsum_smul_e (c : ℚ) (k : Fin m) : vsum ((List.range m).map fun i => c • e m i) k = c := by
  rw [vsum_eq, sum_list_apply, List.map_map]
  have : ((fun v : Fin m → ℚ => v k) ∘ fun i => c • e m i) = fun i => if k.1 = i then c else 0 := by
    ext i; simp [e]
  rw [this, sum_map_range', Finset.sum_ite_eq]; simp

theorem vsum_psum (n : ℕ) (k : Fin m) (hk : k.1 ≤ n) :
    vsum ((List.range n).map fun i => psum m (i + 1)) k = n - k := by
  rw [vsum_eq, sum_list_apply, List.map_map]
  have : ((fun v : Fin m → ℚ => v k) ∘ fun i => psum m (i + 1)) = fun i => if k.1 < i + 1 then 1 else 0 := by
    ext i; simp [psum_apply]
  rw [this, sum_map_range']
  clear this
  induction n with
  | zero => have : k.1 = 0 := by omega
            simp [this]
  | succ n ih =>
    rw [Finset.sum_range_succ]
    rcases Nat.lt_or_ge k.1 (n + 1) with h | h
    · rw [ih (by omega), if_pos h]; push_cast; ring
    · have : k.1 = n + 1 := by omega
      rw [Finset.sum_eq_zero fun i hi => if_neg (by simp at hi; omega), if_neg (by omega), this]; simp

/-! ## The four functions -/

/-- The value of `rootsA` on a positive rank, and the shape of its simple roots. -/
theorem rootsA_ok (r : ℕ) (hr : 1 ≤ r) : ∃ w, rootsA r = .ok w ∧
    w.roots = (List.range r).map (sA (r + 1)) ∧ w.pos = pairs (r + 1) (fun i j => e (r + 1) j - e (r + 1) i) ∧
    w.fund = (List.range r).map (fun i => psum (r + 1) (i + 1) - (((i + 1 : ℕ) : ℚ) / (r + 1)) • psum (r + 1) (r + 1)) ∧
    w.max = e (r + 1) 0 - e (r + 1) r := by
  refine ⟨_, if_neg (by omega), rfl, rfl, range'_one _ _, ?_⟩
  ext k
  have := k.2
  simp only [e, Pi.sub_apply]
  split_ifs <;> first | omega | norm_num

theorem rootsB_ok (r : ℕ) (hr : 2 ≤ r) : ∃ w, rootsB r = .ok w ∧
    w.roots = (List.range r).map (sB r) ∧
    w.pos = (pairs r (fun i j => e r j + e r i) ++ pairs r (fun i j => e r j - e r i)) ++
      (List.range r).map (e r) ∧
    w.fund = (List.range r).map (fB r) ∧ w.max = e r 0 + e r 1 := by
  unfold rootsB
  rw [if_neg (by omega), if_neg (by omega)]
  refine ⟨_, rfl, ?_, rfl, ?_, ?_⟩
  · exact range_append_last r (by omega) _ _
  · dsimp only
    rw [range'_one, range_append_last r (by omega)]
    rfl
  · ext k
    simp only [e, Pi.add_apply]
    split_ifs <;> first | omega | norm_num

theorem rootsC_ok (r : ℕ) (hr : 2 ≤ r) : ∃ w, rootsC r = .ok w ∧
    w.roots = (List.range r).map (sC r) ∧
    w.pos = (pairs r (fun i j => e r j + e r i) ++ pairs r (fun i j => e r j - e r i)) ++
      (List.range r).map (fun i => (2 : ℚ) • e r i) ∧
    w.fund = (List.range r).map (fun i => psum r (i + 1)) ∧ w.max = (2 : ℚ) • e r 0 := by
  unfold rootsC
  rw [if_neg (by omega), if_neg (by omega)]
  refine ⟨_, rfl, ?_, rfl, range'_one _ _, ?_⟩
  · exact range_append_last r (by omega) _ _
  · ext k
    simp only [e, Pi.smul_apply]
    split_ifs <;> first | omega | norm_num

theorem rootsD_ok (r : ℕ) (hr : 2 ≤ r) : ∃ w, rootsD r = .ok w ∧
    w.roots = (List.range r).map (sD r) ∧
    w.pos = pairs r (fun i j => e r i + e r j) ++ pairs r (fun i j => e r j - e r i) ∧
    w.max = e r 0 + e r 1 ∧
    (r = 2 → w.fund = (List.range 2).map (fD r)) ∧
    (3 ≤ r → w.fund = (List.range (r - 1)).map (fD r) ++ ((List.range (r - 2)).map (fD r) ++ [fD r (r - 1)])) := by
  unfold rootsD
  rw [if_neg (by omega)]
  refine ⟨_, rfl, ?_, rfl, ?_, ?_, ?_⟩
  · exact range_append_last r (by omega) _ _
  · ext k
    simp only [e, Pi.add_apply]
    split_ifs <;> first | omega | norm_num
  · rintro rfl
    simp [fD, List.range_succ]
  · intro h3
    have h1 : (List.range' 1 (r - 2)).map (fun i => psum r i) = (List.range (r - 2)).map (fD r) := by
      rw [range'_one]
      refine List.map_congr_left fun i hi => ?_
      rw [List.mem_range] at hi
      rw [fD, if_pos (by omega)]
    have h2 : (1 / 2 : ℚ) • psum r r - e r (r - 1) = fD r (r - 2) := by
      rw [fD, if_neg (by omega), if_pos (by omega)]
    have h4 : (1 / 2 : ℚ) • psum r r = fD r (r - 1) := by
      rw [fD, if_neg (by omega), if_neg (by omega)]
    dsimp only
    rw [h1, if_neg (by simp; omega), h2, h4]
    have h5 : List.range (r - 1) = List.range (r - 2) ++ [r - 2] := by
      rw [← List.range_succ]; congr 1; omega
    rw [h5]; simp

/-! ## No repeated positive root -/

theorem nodup_pairs {α : Type} (f : ℕ → ℕ → α)
    (hf : ∀ i j i' j', j < i → i < m → j' < i' → i' < m → f i j = f i' j' → i = i' ∧ j = j') :
    (pairs m f).Nodup := by
  rw [pairs, List.nodup_flatMap]
  constructor
  · intro i hi
    rw [List.mem_range'_1] at hi
    refine List.Nodup.map_on (fun j hj j' hj' h => ?_) List.nodup_range
    rw [List.mem_range] at hj hj'
    exact (hf i j i j' hj (by omega) hj' (by omega) h).2
  · refine List.Pairwise.imp_of_mem ?_ (List.nodup_range' (s := 1) (n := m - 1))
    intro i i' hi hi' hne x hx hx'
    rw [List.mem_range'_1] at hi hi'
    simp only [List.mem_map, List.mem_range] at hx hx'
    obtain ⟨j, hj, rfl⟩ := hx
    obtain ⟨j', hj', h⟩ := hx'
    exact hne (hf i j i' j' hj (by omega) hj' (by omega) h.symm).1

theorem pair_inj (c c' : ℚ) (hc : c ≠ 0) (hc' : c' ≠ 0) {i j i' j' : ℕ} (h1 : j < i) (h2 : i < m) (h3 : j' < i') (h4 : i' < m)
    (h : e m j + c • e m i = e m j' + c' • e m i') : i = i' ∧ j = j' ∧ c = c' := by
  have key : ∀ k, k < m → (if k = j then (1 : ℚ) else 0) + c * (if k = i then 1 else 0) =
      (if k = j' then 1 else 0) + c' * (if k = i' then 1 else 0) := by
    intro k hk
    have := congrFun h ⟨k, hk⟩
    simpa [e] using this
  have hjj : j = j' := by
    rcases lt_trichotomy j j' with hl | hl | hl
    · have := key j (by omega)
      rw [if_pos rfl, if_neg (by omega), if_neg (by omega), if_neg (by omega)] at this
      simp at this
    · exact hl
    · have := key j' (by omega)
      rw [if_neg (by omega), if_neg (by omega), if_pos rfl, if_neg (by omega)] at this
      simp at this
  have hii : i = i' := by
    by_contra hne
    have := key i h2
    rw [if_neg (by omega), if_pos rfl, if_neg (by omega), if_neg hne] at this
    simp [hc] at this
  refine ⟨hii, hjj, ?_⟩
  have := key i h2
  rw [if_neg (by omega), if_pos rfl, if_neg (by omega), if_pos hii] at this
  simpa using this

theorem e_inj {i j : ℕ} (hi : i < m) (c : ℚ) (hc : c ≠ 0) (h : c • e m i = c • e m j) : i = j := by
  have := congrFun h ⟨i, hi⟩
  by_contra hne
  simp [e, hc, hne] at this

theorem e_ne_pair {i j k : ℕ} (hk : k < m) (h1 : j < i) (h2 : i < m) (c d : ℚ) (hd : d ≠ 0) : c • e m k ≠ e m j + d • e m i := by
  intro h
  have hj := congrFun h ⟨j, by omega⟩
  have hi := congrFun h ⟨i, h2⟩
  simp only [e, Pi.smul_apply, Pi.add_apply, smul_eq_mul] at hi hj
  have e1 : ¬ j = i := by omega
  have e2 : ¬ i = j := by omega
  simp only [e1, e2, if_true, if_false] at hi hj
  split_ifs at hi hj <;> first | omega | (simp at hi hj; try exact hd hi.symm) | skip

theorem add_form (i j : ℕ) : e m j + e m i = e m j + (1 : ℚ) • e m i := by simp
theorem sub_form (i j : ℕ) : e m j - e m i = e m j + (-1 : ℚ) • e m i := by simp [sub_eq_add_neg]

theorem nodup_add : (pairs m fun i j => e m j + e m i).Nodup :=
  nodup_pairs _ fun i j i' j' h1 h2 h3 h4 h => by
    rw [add_form, add_form] at h
    have := pair_inj 1 1 (by norm_num) (by norm_num) h1 h2 h3 h4 h
    exact ⟨this.1, this.2.1⟩

theorem nodup_sub : (pairs m fun i j => e m j - e m i).Nodup :=
  nodup_pairs _ fun i j i' j' h1 h2 h3 h4 h => by
    rw [sub_form, sub_form] at h
    have := pair_inj (-1) (-1) (by norm_num) (by norm_num) h1 h2 h3 h4 h
    exact ⟨this.1, this.2.1⟩

theorem nodup_add_sub : (pairs m (fun i j => e m j + e m i) ++ pairs m (fun i j => e m j - e m i)).Nodup := by
  refine List.nodup_append'.2 ⟨nodup_add, nodup_sub, ?_⟩
  intro x hx hx'
  obtain ⟨i, j, h1, h2, rfl⟩ := (mem_pairs _ _).1 hx
  obtain ⟨i', j', h3, h4, h⟩ := (mem_pairs _ _).1 hx'
  rw [add_form, sub_form] at h
  have := (pair_inj 1 (-1) (by norm_num) (by norm_num) h1 h2 h3 h4 h).2.2
  norm_num at this

theorem nodup_all (c : ℚ) (hc : c ≠ 0) : ((pairs m (fun i j => e m j + e m i) ++ pairs m (fun i j => e m j - e m i)) ++
    (List.range m).map fun i => c • e m i).Nodup := by
  refine List.nodup_append'.2 ⟨nodup_add_sub, ?_, ?_⟩
  · refine List.Nodup.map_on (fun i hi j hj h => ?_) List.nodup_range
    rw [List.mem_range] at hi
    exact e_inj hi c hc h
  · intro x hx hx'
    simp only [List.mem_map, List.mem_range] at hx'
    obtain ⟨k, hk, rfl⟩ := hx'
    rcases List.mem_append.1 hx with h | h
    · obtain ⟨i, j, h1, h2, h⟩ := (mem_pairs _ _).1 h
      rw [add_form] at h
      exact e_ne_pair hk h1 h2 c 1 (by norm_num) h
    · obtain ⟨i, j, h1, h2, h⟩ := (mem_pairs _ _).1 h
      rw [sub_form] at h
      exact e_ne_pair hk h1 h2 c (-1) (by norm_num) h

/-! ## Membership -/

theorem mem_two (v : Fin m → ℚ) : (v ∈ pairs m (fun i j => e m j + e m i) ∨ v ∈ pairs m fun i j => e m j - e m i) ↔
    (Integral v ∧ v ⬝ᵥ v = 2) ∧ LexPos v := by
  constructor
  · rintro (h | h)
    · obtain ⟨i, j, h1, h2, rfl⟩ := (mem_pairs _ _).1 h
      refine ⟨⟨integral_add (integral_e _) (integral_e _), ?_⟩, ?_⟩
      · rw [add_form, dot_pair h1 h2]; norm_num
      · rw [add_form]; exact lexpos_pair h1 h2 _
    · obtain ⟨i, j, h1, h2, rfl⟩ := (mem_pairs _ _).1 h
      refine ⟨⟨integral_sub (integral_e _) (integral_e _), ?_⟩, ?_⟩
      · rw [sub_form, dot_pair h1 h2]; norm_num
      · rw [sub_form]; exact lexpos_pair h1 h2 _
  · rintro ⟨⟨h1, h2⟩, h3⟩
    obtain ⟨j, i, hji, h | h⟩ := lexpos_two v h1 h2 h3
    · left; exact (mem_pairs _ _).2 ⟨i, j, hji, i.2, h⟩
    · right; exact (mem_pairs _ _).2 ⟨i, j, hji, i.2, h⟩

theorem mem_one (c : ℚ) (hc : 0 < c) (v : Fin m → ℚ) : (v ∈ (List.range m).map fun i => c • e m i) ↔
    (∃ w : Fin m → ℚ, Integral w ∧ w ⬝ᵥ w = 1 ∧ v = c • w) ∧ LexPos v := by
  simp only [List.mem_map, List.mem_range]
  constructor
  · rintro ⟨i, hi, rfl⟩
    refine ⟨⟨e m i, integral_e _, by rw [ee _ hi]; simp, rfl⟩, ?_⟩
    obtain ⟨k, hk, hl⟩ := lexpos_e hi
    exact ⟨k, by simp [hc, hk], fun l h => by simp [hl l h]⟩
  · rintro ⟨⟨w, h1, h2, rfl⟩, k, hk, hl⟩
    obtain ⟨i, rfl⟩ := lexpos_one w h1 h2 ⟨k, by simpa [hc] using hk, fun l h => by simpa [hc.ne'] using hl l h⟩
    exact ⟨i, i.2, rfl⟩

theorem sum_e {i : ℕ} (hi : i < m) : ∑ k, e m i k = 1 := by
  have := e_dot (m := m) (fun _ => 1) hi
  simpa [dotProduct] using this

/-! ## Fundamental coordinates of positive roots -/

theorem psum_dot_pair (a : ℕ) {i j : ℕ} (h1 : j < i) (h2 : i < m) (c : ℚ) :
    psum m a ⬝ᵥ (e m j + c • e m i) = (if j < a then 1 else 0) + c * (if i < a then 1 else 0) := by
  rw [dotProduct_add, dotProduct_smul, pe _ h2, pe _ (h1.trans h2)]; rfl

end LieNN.Roots

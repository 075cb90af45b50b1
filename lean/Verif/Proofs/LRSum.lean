import Verif.Proofs.LRRow
import Verif.Proofs.LRAlt
import Verif.Proofs.SUNCGPat
/-!
# Sums over patterns: symmetry of the weights, the sign-reversing involution
-/
namespace LieNN.LR

open Finset Spec SUN

/-- The rows of a pattern, numbered by their lengths. -/
def xs (n : ℕ) (M : Pat) (k i : ℕ) : ℤ := ent M (n - k) i

/-- The pattern with given rows. -/
def ofXs (n : ℕ) (x : ℕ → ℕ → ℤ) : Pat := patOf n fun r i => x (n - r) i

variable {S : List ℤ} {n : ℕ}

theorem gt_row0' {M : Pat} (hM : IsGT S M) (i : ℕ) : ent M 0 i = S.getD i 0 := by
  match M, hM.2.1 with
  | R :: M', h => simp at h; subst h; rfl

theorem gtf_of {M : Pat} (hn : S.length = n) (_hw : IsWeight S) (h0 : ∀ s ∈ S, 0 ≤ s) (hM : IsGT S M) :
    GTF n (fun i => S.getD i 0) (xs n M) := by
  have hz : ∀ k i, k ≤ i → k ≤ n → xs n M k i = 0 := by
    intro k i hki hkn
    unfold xs ent
    rcases Nat.eq_zero_or_pos k with hk | hk
    · subst hk
      rw [List.getD_eq_default (l := M) _ (by rw [hM.1.1]; omega)]; simp
    · rw [List.getD_eq_default (l := M.getD (n - k) []) _ _]
      rw [hM.1.2 (n - k) (by omega)]; omega
  have hnn : ∀ i j, i + j < n → 0 ≤ ent M i j := by
    intro i j hij
    exact (getD_nonneg h0 _).trans (gt_ge_row0 hM i j (by omega))
  refine ⟨fun i => ?_, hz, fun k i hk => ?_, fun k i hk => ?_⟩
  · simp only [xs, Nat.sub_self]; exact gt_row0' hM i
  · rcases Nat.lt_or_ge i k with h1 | h1
    · have := (hM.2.2 (n - (k + 1)) i (by rw [hM.1.1]; omega)).2
      rwa [show n - (k + 1) + 1 = n - k by omega] at this
    · rw [hz k i h1 (by omega)]
      rcases Nat.lt_or_ge k i with h2 | h2
      · rw [hz (k + 1) i h2 hk]
      · exact hnn _ _ (by omega)
  · rcases Nat.lt_or_ge i k with h1 | h1
    · have := (hM.2.2 (n - (k + 1)) i (by rw [hM.1.1]; omega)).1
      rwa [show n - (k + 1) + 1 = n - k by omega] at this
    · rw [hz k i h1 (by omega), hz (k + 1) (i + 1) (by omega) hk]

theorem isGT_ofXs {x : ℕ → ℕ → ℤ} (hn : S.length = n) (hw : IsWeight S) (h : GTF n (fun i => S.getD i 0) x) :
    IsGT S (ofXs n x) := by
  subst hn
  refine patOf_isGT hw.1 (fun j => ?_) fun i j hij => ?_
  · simpa using h.top j
  · have e : S.length - i = S.length - (i + 1) + 1 := by omega
    rw [e]
    exact ⟨h.dn _ _ (by omega), h.up _ _ (by omega)⟩

theorem xs_ofXs {lam : ℕ → ℤ} {x : ℕ → ℕ → ℤ} (h : GTF n lam x) {k : ℕ} (hk : k ≤ n) (i : ℕ) :
    xs n (ofXs n x) k i = x k i := by
  rcases Nat.lt_or_ge i k with h1 | h1
  · unfold xs ofXs
    rw [patOf_ent _ _ (by omega), show n - (n - k) = k by omega]
  · rw [h.zero k i h1 hk]
    unfold xs ent
    rcases Nat.eq_zero_or_pos k with h2 | h2
    · subst h2
      rw [List.getD_eq_default (l := ofXs n x) _ (by simp [ofXs, patOf])]; simp
    · rw [List.getD_eq_default (l := (ofXs n x).getD (n - k) []) _ _]
      rw [ofXs, (patOf_tri n _).2 (n - k) (by omega)]; omega

theorem ofXs_xs {M : Pat} (hM : Triangular n M) : ofXs n (xs n M) = M := by
  refine tri_ext (patOf_tri _ _) hM fun a b hab => ?_
  rw [ofXs, patOf_ent _ _ hab]
  unfold xs
  rw [show n - (n - a) = a by omega]

theorem ofXs_congr {x y : ℕ → ℕ → ℤ} (h : ∀ k ≤ n, ∀ i, x k i = y k i) : ofXs n x = ofXs n y := by
  unfold ofXs patOf
  refine List.map_congr_left fun r _ => List.map_congr_left fun i _ => h _ (by omega) _

/-- The toggle of a pattern. -/
def togM (n : ℕ) (c : ℤ) (k : ℕ) (M : Pat) : Pat := ofXs n (tog c k (xs n M))

theorem tog_congr {x y : ℕ → ℕ → ℤ} {c : ℤ} {k : ℕ} (hk : k + 2 ≤ n) (h : ∀ k ≤ n, ∀ i, x k i = y k i) :
    ∀ k' ≤ n, ∀ i, tog c k x k' i = tog c k y k' i := by
  intro k' hk' i
  have e : hi x k i = hi y k i := by
    cases i with
    | zero => exact h _ hk _
    | succ i => simp only [hi]; rw [h _ hk, h _ (by omega)]
  simp only [tog, lo, e]
  rw [h _ hk', h (k + 1) (by omega), h _ hk, h k (by omega)]

section
variable (hn : S.length = n) (hw : IsWeight S) (h0 : ∀ s ∈ S, 0 ≤ s)
include hn hw h0

theorem togM_gt {c : ℤ} (hc : 0 ≤ c) {k : ℕ} (hk : k + 2 ≤ n) {M : Pat} (hM : IsGT S M) : IsGT S (togM n c k M) :=
  isGT_ofXs hn hw ((gtf_of hn hw h0 hM).tog hc hk)

theorem xs_togM {c : ℤ} (hc : 0 ≤ c) {k : ℕ} (hk : k + 2 ≤ n) {M : Pat} (hM : IsGT S M) :
    ∀ k' ≤ n, ∀ i, xs n (togM n c k M) k' i = tog c k (xs n M) k' i :=
  fun _ hk' i => xs_ofXs ((gtf_of hn hw h0 hM).tog hc hk) hk' i

theorem togM_togM {c : ℤ} (hc : 0 ≤ c) {k : ℕ} (hk : k + 2 ≤ n) {M : Pat} (hM : IsGT S M) :
    togM n c k (togM n c k M) = M := by
  have h := gtf_of hn hw h0 hM
  rw [togM, ofXs_congr (tog_congr hk (xs_togM hn hw h0 hc hk hM)), h.tog_tog hk, ofXs_xs]
  rw [← hn]; exact hM.1

end

/-- The weight of a pattern. -/
def wv (n : ℕ) (M : Pat) (k : Fin n) : ℤ := wt n (xs n M) k

theorem wt_congr {x y : ℕ → ℕ → ℤ} (h : ∀ k ≤ n, ∀ i, x k i = y k i) {k : ℕ} (hk : k < n) : wt n x k = wt n y k := by
  unfold wt rsum
  rw [sum_congr rfl fun i _ => h (k + 1) hk i, sum_congr rfl fun i _ => h k hk.le i]

theorem om_congr {x y : ℕ → ℕ → ℤ} (h : ∀ k ≤ n, ∀ i, x k i = y k i) (c : ℤ) {k : ℕ} (hk : k < n) :
    om n c x k = om n c y k := by
  unfold om csum
  simp only [h (k + 1) hk, h k hk.le]

theorem dom_congr {x y : ℕ → ℕ → ℤ} (h : ∀ k ≤ n, ∀ i, x k i = y k i) (μ : ℕ → ℤ) (c : ℤ) {k : ℕ} (hk : k + 2 ≤ n) :
    Dom n μ x c k ↔ Dom n μ y c k := by
  unfold Dom
  rw [om_congr h c (by omega : k < n), om_congr h c (by omega : k + 1 < n)]

theorem key_congr {x y : ℕ → ℕ → ℤ} (h : ∀ k ≤ n, ∀ i, x k i = y k i) {μ : ℕ → ℤ} {c k : ℕ} (hk : Key n μ x c k) :
    Key n μ y c k where
  two := hk.two
  viol := fun hd => hk.viol ((dom_congr h μ c hk.two).2 hd)
  last := fun c' hc' k' hk' => (dom_congr h μ c' hk').1 (hk.last c' hc' k' hk')
  first := fun k' hk' => (dom_congr h μ c (by have := hk.two; omega)).1 (hk.first k' hk')

theorem symW_pats {m : ℕ} (hn : S.length = m + 1) (hw : IsWeight S) (h0 : ∀ s ∈ S, 0 ≤ s) :
    SymW (patSet S) (wv (m + 1)) := by
  refine symW_of_swap fun i f => ?_
  have hk : (i : ℕ) + 2 ≤ m + 1 := by have := i.2; omega
  have hc : 0 ≤ S.getD 0 0 := getD_nonneg h0 0
  have hmem : ∀ M ∈ patSet S, togM (m + 1) (S.getD 0 0) i M ∈ patSet S := fun M hM =>
    (mem_patSet hw).2 (togM_gt hn hw h0 hc hk ((mem_patSet hw).1 hM))
  refine sum_nbij' (togM (m + 1) (S.getD 0 0) i) (togM (m + 1) (S.getD 0 0) i) hmem hmem
    (fun M hM => togM_togM hn hw h0 hc hk ((mem_patSet hw).1 hM))
    (fun M hM => togM_togM hn hw h0 hc hk ((mem_patSet hw).1 hM)) fun M hM => ?_
  have hM' := (mem_patSet hw).1 hM
  congr 1
  obtain ⟨w1, w2, w3⟩ := (gtf_of hn hw h0 hM').wt_swap hc le_rfl hk
  funext j
  have e : wv (m + 1) (togM (m + 1) (S.getD 0 0) i M) j = wt (m + 1) (tog (S.getD 0 0) i (xs (m + 1) M)) j :=
    wt_congr (xs_togM hn hw h0 hc hk hM') j.2
  rw [e]
  show wt (m + 1) (xs (m + 1) M) (Equiv.swap i.castSucc i.succ j) = _
  by_cases h1 : j = i.castSucc
  · subst h1
    rw [Equiv.swap_apply_left]
    exact w1.symm
  · by_cases h2 : j = i.succ
    · subst h2
      rw [Equiv.swap_apply_right]
      exact w2.symm
    · rw [Equiv.swap_apply_of_ne_of_ne h1 h2]
      exact (w3 j (fun h => h1 (Fin.ext h)) (fun h => h2 (Fin.ext h))).symm

/-- The weight as a vector. -/
def vec (n : ℕ) (μ : ℕ → ℤ) (k : Fin n) : ℤ := μ k

open Classical in
theorem bad_sum {m : ℕ} (hn : S.length = m + 1) (hw : IsWeight S) (h0 : ∀ s ∈ S, 0 ≤ s) {μ : ℕ → ℤ}
    (hμ : ∀ k, k + 2 ≤ m + 1 → μ (k + 1) ≤ μ k) :
    ∑ M ∈ (patSet S).filter (fun M => ¬ Good (m + 1) μ (xs (m + 1) M)),
      alt (vec (m + 1) μ + rho (m + 1) + wv (m + 1) M) = 0 := by
  have hex : ∀ M ∈ (patSet S).filter (fun M => ¬ Good (m + 1) μ (xs (m + 1) M)),
      ∃ p : ℕ × ℕ, Key (m + 1) μ (xs (m + 1) M) p.1 p.2 := by
    intro M hM
    obtain ⟨hM1, hM2⟩ := mem_filter.1 hM
    obtain ⟨c, k, h⟩ := (gtf_of hn hw h0 ((mem_patSet hw).1 hM1)).exists_key hμ hM2
    exact ⟨(c, k), h⟩
  have hneg : ∀ M (hM : M ∈ (patSet S).filter (fun M => ¬ Good (m + 1) μ (xs (m + 1) M))),
      alt (vec (m + 1) μ + rho (m + 1) + wv (m + 1) (togM (m + 1) (hex M hM).choose.1 (hex M hM).choose.2 M)) =
        - alt (vec (m + 1) μ + rho (m + 1) + wv (m + 1) M) := by
    intro M hM
    have hk := (hex M hM).choose_spec
    set c := (hex M hM).choose.1
    set k := (hex M hM).choose.2
    have hM' := (mem_patSet hw).1 (mem_filter.1 hM).1
    obtain ⟨w1, w2, w3⟩ := (gtf_of hn hw h0 hM').wt_key hk
    have h2 := hk.two
    have hk1 : k < m + 1 := by omega
    have hk2 : k + 1 < m + 1 := by omega
    have hne : (⟨k, hk1⟩ : Fin (m + 1)) ≠ ⟨k + 1, hk2⟩ := by
      intro h; have := congrArg Fin.val h; simp at this
    rw [← alt_swap _ hne]
    congr 1
    funext j
    have e : wv (m + 1) (togM (m + 1) c k M) j = wt (m + 1) (tog c k (xs (m + 1) M)) j :=
      wt_congr (xs_togM hn hw h0 (by omega) h2 hM') j.2
    simp only [Pi.add_apply, Function.comp_apply]
    rw [e]
    simp only [vec, rho, wv]
    by_cases h3 : j = ⟨k, hk1⟩
    · subst h3
      rw [Equiv.swap_apply_left]
      simp only
      push_cast
      linarith
    · by_cases h4 : j = ⟨k + 1, hk2⟩
      · subst h4
        rw [Equiv.swap_apply_right]
        simp only
        push_cast
        linarith
      · rw [Equiv.swap_apply_of_ne_of_ne h3 h4, w3 j (fun h => h3 (Fin.ext h)) (fun h => h4 (Fin.ext h))]
  have hkey : ∀ M (hM : M ∈ (patSet S).filter (fun M => ¬ Good (m + 1) μ (xs (m + 1) M))),
      Key (m + 1) μ (xs (m + 1) (togM (m + 1) (hex M hM).choose.1 (hex M hM).choose.2 M))
        (hex M hM).choose.1 (hex M hM).choose.2 := by
    intro M hM
    have hk := (hex M hM).choose_spec
    have hM' := (mem_patSet hw).1 (mem_filter.1 hM).1
    exact key_congr (fun k' h' i => (xs_togM hn hw h0 (by omega) hk.two hM' k' h' i).symm)
      ((gtf_of hn hw h0 hM').key_tog hk)
  have hmem : ∀ M (hM : M ∈ (patSet S).filter (fun M => ¬ Good (m + 1) μ (xs (m + 1) M))),
      togM (m + 1) (hex M hM).choose.1 (hex M hM).choose.2 M ∈
        (patSet S).filter (fun M => ¬ Good (m + 1) μ (xs (m + 1) M)) := by
    intro M hM
    have hM' := (mem_patSet hw).1 (mem_filter.1 hM).1
    exact mem_filter.2 ⟨(mem_patSet hw).2 (togM_gt hn hw h0 (by omega) (hex M hM).choose_spec.two hM'),
      (hkey M hM).not_good⟩
  refine sum_involution (fun M hM => togM (m + 1) (hex M hM).choose.1 (hex M hM).choose.2 M) ?_ ?_ hmem ?_
  · intro M hM
    rw [hneg M hM, add_neg_cancel]
  · intro M hM hne he
    have h := hneg M hM
    rw [he] at h
    apply hne
    ext v
    have := congrArg (fun f => f.coeff v) h
    simp only [AddMonoidAlgebra.coeff_neg, Finsupp.coe_neg, Pi.neg_apply] at this
    simp only [AddMonoidAlgebra.coeff_zero, Finsupp.coe_zero, Pi.zero_apply]
    omega
  · intro M hM
    have hu := ((hex _ (hmem M hM)).choose_spec).unique (hkey M hM)
    rw [hu.1, hu.2]
    exact togM_togM hn hw h0 (by omega) (hex M hM).choose_spec.two ((mem_patSet hw).1 (mem_filter.1 hM).1)

open Classical in
/-- The product of an alternating sum and a character. -/
theorem alt_mul_pats {m : ℕ} (hn : S.length = m + 1) (hw : IsWeight S) (h0 : ∀ s ∈ S, 0 ≤ s) {μ : ℕ → ℤ}
    (hμ : ∀ k, k + 2 ≤ m + 1 → μ (k + 1) ≤ μ k) :
    alt (vec (m + 1) μ + rho (m + 1)) * chr (patSet S) (wv (m + 1)) =
      ∑ M ∈ (patSet S).filter (fun M => Row (m + 1) μ (xs (m + 1) M)),
        alt (vec (m + 1) μ + rho (m + 1) + wv (m + 1) M) := by
  rw [alt_mul_chr (symW_pats hn hw h0),
    ← sum_filter_add_sum_filter_not _ (fun M => Good (m + 1) μ (xs (m + 1) M)), bad_sum hn hw h0 hμ, add_zero]
  refine sum_congr (filter_congr fun M hM => ?_) fun _ _ => rfl
  exact (gtf_of hn hw h0 ((mem_patSet hw).1 hM)).good_iff_row hμ

/-- The formula of Weyl. -/
theorem weyl {m : ℕ} (hn : S.length = m + 1) (hw : IsWeight S) (h0 : ∀ s ∈ S, 0 ≤ s) :
    alt (rho (m + 1)) * chr (patSet S) (wv (m + 1)) = alt (vec (m + 1) (fun i => S.getD i 0) + rho (m + 1)) := by
  classical
  have h := alt_mul_pats hn hw h0 (μ := fun _ => 0) (fun _ _ => le_rfl)
  have ez : vec (m + 1) (fun _ => 0) + rho (m + 1) = rho (m + 1) := by funext i; simp [vec]
  rw [ez] at h
  rw [h]
  have hlam : ∀ k, k + 2 ≤ m + 1 → S.getD (k + 1) 0 ≤ S.getD k 0 := fun k hk =>
    getD_mono hw (by omega) (by omega)
  let y : ℕ → ℕ → ℤ := fun k i => if i < k then S.getD i 0 else 0
  have hy : GTF (m + 1) (fun i => S.getD i 0) y := by
    refine ⟨fun i => ?_, fun k i hki _ => if_neg (by omega), fun k i hk => ?_, fun k i hk => ?_⟩
    · simp only [y]
      by_cases h1 : i < m + 1
      · rw [if_pos h1]
      · rw [if_neg h1, List.getD_eq_default _ _ (by omega)]
    · simp only [y]
      have := getD_nonneg h0 i
      split_ifs <;> omega
    · simp only [y]
      by_cases h1 : i < k
      · rw [if_pos h1, if_pos (by omega)]
        exact hlam i (by omega)
      · rw [if_neg h1, if_neg (by omega)]
  have hT : ofXs (m + 1) y ∈ (patSet S).filter (fun M => Row (m + 1) (fun _ => 0) (xs (m + 1) M)) := by
    refine mem_filter.2 ⟨(mem_patSet hw).2 (isGT_ofXs hn hw hy), ?_⟩
    exact row_highest (lam := fun i => S.getD i 0) hlam fun k hk i => xs_ofXs hy hk i
  have huniq : ∀ M ∈ (patSet S).filter (fun M => Row (m + 1) (fun _ => 0) (xs (m + 1) M)), M = ofXs (m + 1) y := by
    intro M hM
    obtain ⟨hM1, hM2⟩ := mem_filter.1 hM
    have hM' := (mem_patSet hw).1 hM1
    have hg := gtf_of hn hw h0 hM'
    rw [← ofXs_xs (n := m + 1) (M := M) (by rw [← hn]; exact hM'.1)]
    refine ofXs_congr fun k hk i => ?_
    simp only [y]
    by_cases h1 : i < k
    · rw [if_pos h1]; exact hg.row_zero hM2 i k h1 hk
    · rw [if_neg h1]; exact hg.zero k i (by omega) hk
  rw [sum_eq_single_of_mem _ hT fun M hM hne => absurd (huniq M hM) hne]
  congr 1
  funext k
  simp only [Pi.add_apply, vec, wv]
  rw [wt_congr (fun k hk i => xs_ofXs hy hk i) k.2, add_comm]
  congr 1
  simp only [wt, rsum]
  rw [← sum_sub_distrib, sum_eq_single_of_mem (k : ℕ) (by simp)]
  · simp [y]
  · intro i _ hi
    simp only [y]
    by_cases h1 : i < k
    · rw [if_pos h1, if_pos (by omega), sub_self]
    · rw [if_neg h1, if_neg (by omega), sub_self]

end LieNN.LR

import Mathlib.Algebra.BigOperators.Group.Finset.Basic
import Mathlib.Algebra.BigOperators.Intervals
import Mathlib.Algebra.Order.BigOperators.Group.Finset
import Mathlib.Algebra.Order.Ring.Int
import Mathlib.Tactic.Ring
import Mathlib.Tactic.Linarith
/-!
# Patterns as functions: the toggles of Bender and Knuth on the first columns

`x k i` is the part `i` of the shape filled with the letters smaller than `k`.
-/
namespace LieNN.LR

open Finset

/-- A triangular array with non-negative entries and interlacing rows, extended by zero. -/
structure GTF (n : ℕ) (lam : ℕ → ℤ) (x : ℕ → ℕ → ℤ) : Prop where
  top : ∀ i, x n i = lam i
  zero : ∀ k i, k ≤ i → k ≤ n → x k i = 0
  up : ∀ k i, k < n → x k i ≤ x (k + 1) i
  dn : ∀ k i, k < n → x (k + 1) (i + 1) ≤ x k i

variable {n : ℕ} {lam : ℕ → ℤ} {x : ℕ → ℕ → ℤ}

theorem GTF.anti (h : GTF n lam x) {k : ℕ} (hk : k ≤ n) (i : ℕ) : x k (i + 1) ≤ x k i := by
  rcases Nat.lt_or_ge k n with h1 | h1
  · exact (h.up k (i + 1) h1).trans (h.dn k i h1)
  · obtain rfl : k = n := by omega
    rcases Nat.eq_zero_or_pos k with h0 | h0
    · rw [h.zero k _ (by omega) le_rfl, h.zero k _ (by omega) le_rfl]
    · obtain ⟨m, rfl⟩ : ∃ m, k = m + 1 := ⟨k - 1, by omega⟩
      exact (h.dn m i (by omega)).trans (h.up m i (by omega))

theorem GTF.antitone (h : GTF n lam x) {k : ℕ} (hk : k ≤ n) {i j : ℕ} (hij : i ≤ j) : x k j ≤ x k i := by
  induction j, hij using Nat.le_induction with
  | base => exact le_rfl
  | succ j _ ih => exact (h.anti hk j).trans ih

theorem GTF.nonneg (h : GTF n lam x) {k : ℕ} (hk : k ≤ n) (i : ℕ) : 0 ≤ x k i := by
  rcases Nat.lt_or_ge i k with h1 | h1
  · rw [← h.zero k k le_rfl hk]; exact h.antitone hk h1.le
  · exact (h.zero k i h1 hk).ge

theorem GTF.le_top (h : GTF n lam x) {k : ℕ} (hk : k ≤ n) (i : ℕ) : x k i ≤ lam 0 := by
  refine (h.antitone hk (Nat.zero_le i)).trans ?_
  rw [← h.top]
  clear i
  obtain ⟨m, rfl⟩ := Nat.exists_eq_add_of_le hk
  have key : ∀ j, j ≤ m → x k 0 ≤ x (k + j) 0 := by
    intro j
    induction j with
    | zero => intro _; exact le_rfl
    | succ j ih => intro hj; exact (ih (by omega)).trans (h.up (k + j) 0 (by omega))
  exact key m le_rfl

/-- The largest value that an entry of the row `k + 1` can have between the rows `k` and `k + 2`. -/
def hi (x : ℕ → ℕ → ℤ) (k : ℕ) : ℕ → ℤ
  | 0 => x (k + 2) 0
  | i + 1 => min (x (k + 2) (i + 1)) (x k i)

/-- The smallest value that an entry of the row `k + 1` can have between the rows `k` and `k + 2`. -/
def lo (x : ℕ → ℕ → ℤ) (k i : ℕ) : ℤ := max (x (k + 2) (i + 1)) (x k i)

theorem GTF.lo_le (h : GTF n lam x) {k : ℕ} (hk : k + 2 ≤ n) (i : ℕ) : lo x k i ≤ x (k + 1) i :=
  max_le (h.dn (k + 1) i (by omega)) (h.up k i (by omega))

theorem GTF.le_hi (h : GTF n lam x) {k : ℕ} (hk : k + 2 ≤ n) (i : ℕ) : x (k + 1) i ≤ hi x k i := by
  cases i with
  | zero => exact h.up (k + 1) 0 (by omega)
  | succ i => exact le_min (h.up (k + 1) _ (by omega)) (h.dn k i (by omega))

/-- The toggle of the letters `k` and `k + 1` in the first `c` columns. -/
def tog (c : ℤ) (k : ℕ) (x : ℕ → ℕ → ℤ) (k' i : ℕ) : ℤ :=
  if k' = k + 1 ∧ x (k + 1) i ≤ c then min (hi x k i) c + lo x k i - x (k + 1) i else x k' i

theorem tog_off {c : ℤ} {k k' : ℕ} (h : k' ≠ k + 1) (i : ℕ) : tog c k x k' i = x k' i := by
  rw [tog, if_neg]; exact fun h' => h h'.1

theorem tog_gt {c : ℤ} {k i : ℕ} (h : c < x (k + 1) i) : tog c k x (k + 1) i = x (k + 1) i := by
  rw [tog, if_neg]; exact fun h' => absurd h'.2 (by omega)

theorem tog_le {c : ℤ} {k i : ℕ} (h : x (k + 1) i ≤ c) :
    tog c k x (k + 1) i = min (hi x k i) c + lo x k i - x (k + 1) i := by
  rw [tog, if_pos ⟨rfl, h⟩]

theorem GTF.tog_mem (h : GTF n lam x) {c : ℤ} {k : ℕ} (hk : k + 2 ≤ n) {i : ℕ} (hc : x (k + 1) i ≤ c) :
    lo x k i ≤ tog c k x (k + 1) i ∧ tog c k x (k + 1) i ≤ min (hi x k i) c := by
  rw [tog_le hc]
  have h1 := h.lo_le hk i
  have h2 : x (k + 1) i ≤ min (hi x k i) c := le_min (h.le_hi hk i) hc
  omega

theorem GTF.tog_bound (h : GTF n lam x) {c : ℤ} {k : ℕ} (hk : k + 2 ≤ n) (i : ℕ) :
    lo x k i ≤ tog c k x (k + 1) i ∧ tog c k x (k + 1) i ≤ hi x k i := by
  rcases le_or_gt (x (k + 1) i) c with hc | hc
  · exact ⟨(h.tog_mem hk hc).1, (h.tog_mem hk hc).2.trans (min_le_left _ _)⟩
  · rw [tog_gt hc]; exact ⟨h.lo_le hk i, h.le_hi hk i⟩

theorem GTF.tog_le_iff (h : GTF n lam x) {c : ℤ} {k : ℕ} (hk : k + 2 ≤ n) (i : ℕ) :
    tog c k x (k + 1) i ≤ c ↔ x (k + 1) i ≤ c := by
  rcases le_or_gt (x (k + 1) i) c with hc | hc
  · exact ⟨fun _ => hc, fun _ => (h.tog_mem hk hc).2.trans (min_le_right _ _)⟩
  · rw [tog_gt hc]

theorem GTF.tog (h : GTF n lam x) {c : ℤ} (hc0 : 0 ≤ c) {k : ℕ} (hk : k + 2 ≤ n) : GTF n lam (tog c k x) where
  top i := by rw [tog_off (by omega)]; exact h.top i
  zero k' i hi' hn := by
    by_cases hk' : k' = k + 1
    · subst hk'
      have h0 := h.zero (k + 1) i hi' hn
      rw [tog_le (by omega), h0]
      obtain ⟨j, rfl⟩ : ∃ j, i = j + 1 := ⟨i - 1, by omega⟩
      have e1 : x k j = 0 := h.zero k j (by omega) (by omega)
      have e2 : x (k + 2) (j + 1 + 1) = 0 := h.zero _ _ (by omega) (by omega)
      have e3 : x k (j + 1) = 0 := h.zero k _ (by omega) (by omega)
      have e4 := h.nonneg (k := k + 2) (by omega) (j + 1)
      simp only [hi, lo, e1, e2, e3]
      rw [min_eq_right e4, min_eq_left hc0]
      simp
    · rw [tog_off hk']; exact h.zero k' i hi' hn
  up k' i hn := by
    by_cases h1 : k' = k + 1
    · subst h1
      rw [tog_off (k' := k + 1 + 1) (by omega)]
      refine (h.tog_bound hk i).2.trans ?_
      cases i with
      | zero => exact le_rfl
      | succ i => exact min_le_left _ _
    · rw [tog_off h1]
      by_cases h2 : k' = k
      · subst h2
        exact (le_max_right _ _).trans (h.tog_bound hk i).1
      · rw [tog_off (by omega)]; exact h.up k' i hn
  dn k' i hn := by
    by_cases h1 : k' = k + 1
    · subst h1
      rw [tog_off (k' := k + 1 + 1) (by omega)]
      exact (le_max_left _ _).trans (h.tog_bound hk i).1
    · rw [tog_off h1]
      by_cases h2 : k' = k
      · subst h2
        exact (h.tog_bound hk (i + 1)).2.trans (min_le_right _ _)
      · rw [tog_off (by omega)]; exact h.dn k' i hn

theorem hi_tog (c : ℤ) (k : ℕ) (x : ℕ → ℕ → ℤ) (i : ℕ) : hi (tog c k x) k i = hi x k i := by
  cases i with
  | zero => exact tog_off (by omega) _
  | succ i => simp only [hi]; rw [tog_off (by omega), tog_off (by omega)]

theorem lo_tog (c : ℤ) (k : ℕ) (x : ℕ → ℕ → ℤ) (i : ℕ) : lo (tog c k x) k i = lo x k i := by
  simp only [lo]; rw [tog_off (by omega), tog_off (by omega)]

theorem GTF.tog_tog (h : GTF n lam x) {c : ℤ} {k : ℕ} (hk : k + 2 ≤ n) : LR.tog c k (LR.tog c k x) = x := by
  funext k' i
  by_cases hk' : k' = k + 1
  · subst hk'
    rcases le_or_gt (x (k + 1) i) c with hc | hc
    · rw [tog_le ((h.tog_le_iff hk i).2 hc), hi_tog, lo_tog, tog_le hc]
      omega
    · rw [tog_gt (by rw [tog_gt hc]; exact hc), tog_gt hc]
  · rw [tog_off hk', tog_off hk']

/-! ## Weights -/

/-- The number of entries smaller than `k`. -/
def rsum (n : ℕ) (x : ℕ → ℕ → ℤ) (k : ℕ) : ℤ := ∑ i ∈ range (n + 1), x k i

/-- The number of entries equal to `k`. -/
def wt (n : ℕ) (x : ℕ → ℕ → ℤ) (k : ℕ) : ℤ := rsum n x (k + 1) - rsum n x k

/-- The number of entries smaller than `k`, without the first `c` columns. -/
def csum (n : ℕ) (c : ℤ) (x : ℕ → ℕ → ℤ) (k : ℕ) : ℤ := ∑ i ∈ range (n + 1), max (x k i - c) 0

/-- The number of entries equal to `k`, without the first `c` columns. -/
def om (n : ℕ) (c : ℤ) (x : ℕ → ℕ → ℤ) (k : ℕ) : ℤ := csum n c x (k + 1) - csum n c x k

/-- The number of entries smaller than `k` in the first `c` columns. -/
def lsum (n : ℕ) (c : ℤ) (x : ℕ → ℕ → ℤ) (k : ℕ) : ℤ := ∑ i ∈ range (n + 1), min (x k i) c

theorem rsum_eq (n : ℕ) (c : ℤ) (x : ℕ → ℕ → ℤ) (k : ℕ) : rsum n x k = csum n c x k + lsum n c x k := by
  rw [rsum, csum, lsum, ← sum_add_distrib]
  refine sum_congr rfl fun i _ => ?_
  omega

theorem GTF.csum_tog (h : GTF n lam x) {c : ℤ} {k : ℕ} (hk : k + 2 ≤ n) {c' : ℤ} (hc : c ≤ c') (k' : ℕ) :
    csum n c' (LR.tog c k x) k' = csum n c' x k' := by
  refine sum_congr rfl fun i _ => ?_
  by_cases hk' : k' = k + 1
  · subst hk'
    rcases le_or_gt (x (k + 1) i) c with h1 | h1
    · have := (h.tog_le_iff hk i).2 h1
      omega
    · rw [tog_gt h1]
  · rw [tog_off hk']

theorem GTF.om_tog (h : GTF n lam x) {c : ℤ} {k : ℕ} (hk : k + 2 ≤ n) {c' : ℤ} (hc : c ≤ c') (k' : ℕ) :
    om n c' (LR.tog c k x) k' = om n c' x k' := by
  rw [om, om, h.csum_tog hk hc, h.csum_tog hk hc]

theorem GTF.lsum_tog (h : GTF n lam x) {c : ℤ} (hc0 : 0 ≤ c) {k : ℕ} (hk : k + 2 ≤ n)
    (hcol : ∀ i, c < x (k + 1) i → c ≤ lo x k i) :
    lsum n c (LR.tog c k x) (k + 1) + lsum n c x (k + 1) = lsum n c x (k + 2) + lsum n c x k := by
  have h1 : ∀ i, min (LR.tog c k x (k + 1) i) c + min (x (k + 1) i) c = min (hi x k i) c + min (lo x k i) c := by
    intro i
    have hl := h.lo_le hk i
    have hh := h.le_hi hk i
    rcases le_or_gt (x (k + 1) i) c with hx | hx
    · have := (h.tog_le_iff hk i).2 hx
      have e := tog_le hx
      omega
    · rw [tog_gt hx]
      have := hcol i hx
      omega
  have h2 : ∀ i, min (hi x k (i + 1)) c + min (lo x k i) c = min (x (k + 2) (i + 1)) c + min (x k i) c := by
    intro i
    simp only [hi, lo]
    omega
  have e1 : x (k + 2) (n + 1) = 0 := h.zero _ _ (by omega) (by omega)
  have e2 : x k n = 0 := h.zero _ _ (by omega) (by omega)
  have h3 : min (lo x k n) c = 0 := by
    simp only [lo, e1, e2]; omega
  have h4 : min (x k n) c = 0 := by rw [e2]; omega
  simp only [lsum]
  rw [← sum_add_distrib, sum_congr rfl fun i _ => h1 i, sum_add_distrib, sum_range_succ',
    sum_range_succ (fun i => min (lo x k i) c), h3, sum_range_succ' (fun i => min (x (k + 2) i) c),
    sum_range_succ (fun i => min (x k i) c), h4]
  have h5 : ∑ i ∈ range n, min (hi x k (i + 1)) c + ∑ i ∈ range n, min (lo x k i) c =
      ∑ i ∈ range n, min (x (k + 2) (i + 1)) c + ∑ i ∈ range n, min (x k i) c := by
    rw [← sum_add_distrib, ← sum_add_distrib]
    exact sum_congr rfl fun i _ => h2 i
  have h6 : hi x k 0 = x (k + 2) 0 := rfl
  rw [h6]
  linarith

theorem rsum_tog_off {c : ℤ} {k k' : ℕ} (h : k' ≠ k + 1) : rsum n (tog c k x) k' = rsum n x k' :=
  sum_congr rfl fun i _ => tog_off h i

theorem GTF.wt_tog (h : GTF n lam x) {c : ℤ} (hc0 : 0 ≤ c) {k : ℕ} (hk : k + 2 ≤ n)
    (hcol : ∀ i, c < x (k + 1) i → c ≤ lo x k i) :
    wt n (LR.tog c k x) k = wt n x (k + 1) + om n c x k - om n c x (k + 1) ∧
    wt n (LR.tog c k x) (k + 1) = wt n x k + om n c x (k + 1) - om n c x k ∧
    ∀ k', k' ≠ k → k' ≠ k + 1 → wt n (LR.tog c k x) k' = wt n x k' := by
  have h1 := h.lsum_tog hc0 hk hcol
  have h2 := h.csum_tog hk (le_refl c) (k + 1)
  have h3 := rsum_eq n c (LR.tog c k x) (k + 1)
  have h4 := rsum_eq n c x (k + 1)
  have h5 := rsum_eq n c x (k + 2)
  have h6 := rsum_eq n c x k
  refine ⟨?_, ?_, ?_⟩
  · simp only [wt, om]
    rw [rsum_tog_off (k' := k) (by omega)]
    show _ = rsum n x (k + 2) - rsum n x (k + 1) + _ - (csum n c x (k + 2) - _)
    linarith
  · simp only [wt, om]
    rw [rsum_tog_off (k' := k + 1 + 1) (by omega)]
    show rsum n x (k + 2) - _ = _ + (csum n c x (k + 2) - _) - _
    linarith
  · intro k' h7 h8
    simp only [wt]
    rw [rsum_tog_off (by omega), rsum_tog_off (by omega)]

/-! ## The columns -/

/-- The number of entries smaller than `k` in the column `c`. -/
def col (n : ℕ) (c : ℤ) (x : ℕ → ℕ → ℤ) (k : ℕ) : ℤ := ∑ i ∈ range (n + 1), if c < x k i then 1 else 0

theorem csum_succ (n : ℕ) (c : ℤ) (x : ℕ → ℕ → ℤ) (k : ℕ) : csum n c x k = csum n (c + 1) x k + col n c x k := by
  rw [csum, csum, col, ← sum_add_distrib]
  refine sum_congr rfl fun i _ => ?_
  split_ifs <;> omega

theorem GTF.col_mono (h : GTF n lam x) {c : ℤ} {k : ℕ} (hk : k < n) : col n c x k ≤ col n c x (k + 1) := by
  refine sum_le_sum fun i _ => ?_
  have := h.up k i hk
  split_ifs <;> omega

theorem GTF.col_le (h : GTF n lam x) {c : ℤ} (hc0 : 0 ≤ c) {k : ℕ} (hk : k < n) :
    col n c x (k + 1) ≤ col n c x k + 1 := by
  rw [col, col, sum_range_succ', sum_range_succ]
  have h1 : (if c < x k n then (1 : ℤ) else 0) = 0 := by
    rw [if_neg]
    rw [h.zero k n (by omega) (by omega)]
    omega
  have h2 : ∑ i ∈ range n, (if c < x (k + 1) (i + 1) then (1 : ℤ) else 0) ≤
      ∑ i ∈ range n, if c < x k i then (1 : ℤ) else 0 := by
    refine sum_le_sum fun i _ => ?_
    have := h.dn k i hk
    split_ifs <;> omega
  rw [h1]
  split_ifs <;> omega

theorem GTF.of_col_eq (h : GTF n lam x) {c : ℤ} {k : ℕ} (hk : k < n)
    (he : col n c x (k + 1) = col n c x k) (hc0 : 0 ≤ c) (i : ℕ) (hi' : c < x (k + 1) i) : c < x k i := by
  have hin : i < n + 1 := by
    by_contra hcon
    rw [h.zero (k + 1) i (by omega) (by omega)] at hi'
    omega
  have h1 : ∀ i ∈ range (n + 1), (if c < x k i then (1 : ℤ) else 0) ≤ if c < x (k + 1) i then 1 else 0 := by
    intro i _
    have := h.up k i hk
    split_ifs <;> omega
  have := (sum_eq_sum_iff_of_le h1).1 he.symm i (mem_range.2 hin)
  rw [if_pos hi'] at this
  by_contra hcon
  rw [if_neg hcon] at this
  omega

/-- The weights `μ` plus those of the columns after `c` do not increase from `k` to `k + 1`. -/
def Dom (n : ℕ) (μ : ℕ → ℤ) (x : ℕ → ℕ → ℤ) (c : ℤ) (k : ℕ) : Prop :=
  μ (k + 1) + om n c x (k + 1) ≤ μ k + om n c x k

/-- All columns can be removed one by one, from the first to the last, with a dominant weight left. -/
def Good (n : ℕ) (μ : ℕ → ℤ) (x : ℕ → ℕ → ℤ) : Prop :=
  ∀ c : ℤ, 0 ≤ c → ∀ k, k + 2 ≤ n → Dom n μ x c k

/-- `c` is the last column with a violation and `k` the first letter that violates. -/
structure Key (n : ℕ) (μ : ℕ → ℤ) (x : ℕ → ℕ → ℤ) (c k : ℕ) : Prop where
  two : k + 2 ≤ n
  viol : ¬ Dom n μ x c k
  last : ∀ c' : ℤ, (c : ℤ) < c' → ∀ k', k' + 2 ≤ n → Dom n μ x c' k'
  first : ∀ k', k' < k → Dom n μ x c k'

theorem GTF.csum_large (h : GTF n lam x) {c : ℤ} (hc : lam 0 ≤ c) {k : ℕ} (hk : k ≤ n) : csum n c x k = 0 := by
  refine sum_eq_zero fun i _ => ?_
  have := h.le_top hk i
  omega

theorem GTF.exists_key (h : GTF n lam x) {μ : ℕ → ℤ} (hμ : ∀ k, k + 2 ≤ n → μ (k + 1) ≤ μ k)
    (hbad : ¬ Good n μ x) : ∃ c k, Key n μ x c k := by
  classical
  have hlarge : ∀ c : ℤ, lam 0 ≤ c → ∀ k, k + 2 ≤ n → Dom n μ x c k := by
    intro c hc k hk
    simp only [Dom, om]
    rw [h.csum_large hc (by omega), h.csum_large hc (by omega), h.csum_large hc (by omega)]
    have := hμ k hk
    omega
  unfold Good at hbad
  push Not at hbad
  obtain ⟨c₀, hc₀, k₀, hk₀, hv₀⟩ := hbad
  let V : ℕ → Prop := fun c => ∃ k, k + 2 ≤ n ∧ ¬ Dom n μ x c k
  have hV₀ : V c₀.toNat := ⟨k₀, hk₀, by rwa [Int.toNat_of_nonneg hc₀]⟩
  have hb : c₀.toNat ≤ (lam 0).toNat := by
    by_contra hcon
    exact hv₀ (hlarge c₀ (by omega) k₀ hk₀)
  have hVg : V (Nat.findGreatest V (lam 0).toNat) := Nat.findGreatest_spec hb hV₀
  obtain ⟨hk, hv⟩ := Nat.find_spec hVg
  refine ⟨Nat.findGreatest V (lam 0).toNat, Nat.find hVg, hk, hv, ?_, ?_⟩
  · intro c' hc' k' hk'
    by_contra hcon
    have hV' : V c'.toNat := ⟨k', hk', by rwa [Int.toNat_of_nonneg (by omega)]⟩
    have : c'.toNat ≤ (lam 0).toNat := by
      by_contra hcon'
      exact hcon (hlarge c' (by omega) k' hk')
    have := Nat.le_findGreatest this hV'
    omega
  · intro k' hk'
    by_contra hcon
    exact Nat.find_min hVg hk' ⟨by omega, hcon⟩

theorem Key.unique {μ : ℕ → ℤ} {c k c' k' : ℕ} (h : Key n μ x c k) (h' : Key n μ x c' k') : c = c' ∧ k = k' := by
  have hc : c = c' := by
    rcases lt_trichotomy c c' with h1 | h1 | h1
    · exact absurd (h.last c' (by exact_mod_cast h1) k' h'.two) h'.viol
    · exact h1
    · exact absurd (h'.last c (by exact_mod_cast h1) k h.two) h.viol
  subst hc
  refine ⟨rfl, ?_⟩
  rcases lt_trichotomy k k' with h1 | h1 | h1
  · exact absurd (h'.first k h1) h.viol
  · exact h1
  · exact absurd (h.first k' h1) h'.viol

theorem Key.not_good {μ : ℕ → ℤ} {c k : ℕ} (h : Key n μ x c k) : ¬ Good n μ x :=
  fun hg => h.viol (hg c (by omega) k h.two)

theorem GTF.key_tog (h : GTF n lam x) {μ : ℕ → ℤ} {c k : ℕ} (hk : Key n μ x c k) :
    Key n μ (LR.tog c k x) c k := by
  have e : ∀ c' : ℤ, (c : ℤ) ≤ c' → ∀ k', Dom n μ (LR.tog c k x) c' k' ↔ Dom n μ x c' k' := by
    intro c' hc' k'
    simp only [Dom]
    rw [h.om_tog hk.two hc', h.om_tog hk.two hc']
  refine ⟨hk.two, fun hd => hk.viol ((e _ le_rfl _).1 hd), fun c' hc' k' hk' => ?_, fun k' hk' => ?_⟩
  · exact (e c' hc'.le k').2 (hk.last c' hc' k' hk')
  · exact (e _ le_rfl k').2 (hk.first k' hk')

/-- The toggle exchanges `k` and `k + 1` in `μ + wt + ρ`. -/
theorem GTF.wt_key (h : GTF n lam x) {μ : ℕ → ℤ} {c k : ℕ} (hk : Key n μ x c k) :
    μ k + wt n (LR.tog c k x) k + 1 = μ (k + 1) + wt n x (k + 1) ∧
    μ (k + 1) + wt n (LR.tog c k x) (k + 1) = μ k + wt n x k + 1 ∧
    ∀ k', k' ≠ k → k' ≠ k + 1 → wt n (LR.tog c k x) k' = wt n x k' := by
  have h2 := hk.two
  have hd := hk.last (c + 1) (by omega) k h2
  have hv := hk.viol
  simp only [Dom, om] at hd hv
  rw [csum_succ n c, csum_succ n c x (k + 1), csum_succ n c x k] at hv
  have c1 := h.col_mono (c := (c : ℤ)) (k := k) (by omega)
  have c2 := h.col_le (c := (c : ℤ)) (by omega) (k := k + 1) (by omega)
  have heq : col n c x (k + 1) = col n c x k := by omega
  have hcol : ∀ i, (c : ℤ) < x (k + 1) i → (c : ℤ) ≤ lo x k i := by
    intro i hi'
    have := h.of_col_eq (by omega) heq (by omega) i hi'
    exact this.le.trans (le_max_right _ _)
  obtain ⟨w1, w2, w3⟩ := h.wt_tog (by omega) h2 hcol
  have hom : μ (k + 1) + om n c x (k + 1) = μ k + om n c x k + 1 := by
    simp only [om]
    rw [csum_succ n c x (k + 1), csum_succ n c x k, csum_succ n c x (k + 1 + 1)]
    omega
  refine ⟨?_, ?_, w3⟩
  · rw [w1]; linarith
  · rw [w2]; linarith

/-- The toggle in all columns exchanges the weights of `k` and `k + 1`. -/
theorem GTF.wt_swap (h : GTF n lam x) {c : ℤ} (hc0 : 0 ≤ c) (hc : lam 0 ≤ c) {k : ℕ} (hk : k + 2 ≤ n) :
    wt n (LR.tog c k x) k = wt n x (k + 1) ∧ wt n (LR.tog c k x) (k + 1) = wt n x k ∧
    ∀ k', k' ≠ k → k' ≠ k + 1 → wt n (LR.tog c k x) k' = wt n x k' := by
  obtain ⟨w1, w2, w3⟩ := h.wt_tog hc0 hk (fun i hi' => by
    have := h.le_top (k := k + 1) (by omega) i
    omega)
  simp only [om] at w1 w2
  rw [h.csum_large hc (by omega), h.csum_large hc (by omega), h.csum_large hc (by omega)] at w1 w2
  exact ⟨by rw [w1]; ring, by rw [w2]; ring, w3⟩

end LieNN.LR

import Verif.Proofs.LRPat
/-!
# Reading the rows and reading the columns
-/
namespace LieNN.LR

open Finset

variable {n : ℕ} {lam : ℕ → ℤ} {x : ℕ → ℕ → ℤ}

theorem cut_sum {y : ℕ → ℤ} {c : ℤ} {l N : ℕ} (h1 : ∀ i, i < l → c ≤ y i) (h2 : ∀ i, l ≤ i → y i ≤ c) (hl : l ≤ N) :
    ∑ i ∈ range N, max (y i - c) 0 = ∑ i ∈ range l, y i - l * c := by
  rw [← sum_subset (range_subset_range.2 hl)]
  · rw [sum_congr rfl (g := fun i => y i - c) fun i hi => ?_]
    · rw [sum_sub_distrib]; simp
    · have := h1 i (mem_range.1 hi); omega
  · intro i _ hi
    have := h2 i (by simpa using hi)
    omega

/-- Three consecutive rows. -/
structure Three (N : ℕ) (a b d : ℕ → ℤ) : Prop where
  ba : ∀ i, b i ≤ a i
  ab : ∀ i, a (i + 1) ≤ b i
  db : ∀ i, d i ≤ b i
  bd : ∀ i, b (i + 1) ≤ d i
  zero : ∀ i, N ≤ i → a i = 0

variable {N : ℕ} {a b d : ℕ → ℤ}

theorem Three.anti (h : Three N a b d) {i j : ℕ} (hij : i ≤ j) : a j ≤ a i := by
  induction j, hij using Nat.le_induction with
  | base => exact le_rfl
  | succ j _ ih => exact ((h.ab j).trans (h.ba j)).trans ih

theorem Three.antib (h : Three N a b d) {i j : ℕ} (hij : i ≤ j) : b j ≤ b i := by
  induction j, hij using Nat.le_induction with
  | base => exact le_rfl
  | succ j _ ih => exact ((h.bd j).trans (h.db j)).trans ih

theorem Three.antid (h : Three N a b d) {i j : ℕ} (hij : i ≤ j) : d j ≤ d i := by
  induction j, hij using Nat.le_induction with
  | base => exact le_rfl
  | succ j _ ih => exact ((h.db _).trans (h.bd j)).trans ih

/-- The excess of a letter over the letter before, in the columns after `c`. -/
def colEx (N : ℕ) (a b d : ℕ → ℤ) (c : ℤ) : ℤ :=
  (∑ i ∈ range (N + 1), max (a i - c) 0 - ∑ i ∈ range (N + 1), max (b i - c) 0) -
    (∑ i ∈ range (N + 1), max (b i - c) 0 - ∑ i ∈ range (N + 1), max (d i - c) 0)

/-- The excess of a letter over the letter before, when the row `l` has been read down to the letter. -/
def rowEx (a b d : ℕ → ℤ) (l : ℕ) : ℤ :=
  ∑ i ∈ range (l + 1), (a i - b i) - ∑ i ∈ range l, (b i - d i)

theorem Three.row_of_col (h : Three N a b d) {l : ℕ} (hl : l ≤ N) : rowEx a b d l = colEx N a b d (b l) := by
  have e1 : ∑ i ∈ range (N + 1), max (a i - b l) 0 = ∑ i ∈ range (l + 1), a i - ((l + 1 : ℕ) : ℤ) * b l :=
    cut_sum (fun i hi => (h.antib (by omega : i ≤ l)).trans (h.ba i))
      (fun i hi => (h.anti hi).trans (h.ab l)) (by omega)
  have e2 : ∑ i ∈ range (N + 1), max (b i - b l) 0 = ∑ i ∈ range (l + 1), b i - ((l + 1 : ℕ) : ℤ) * b l :=
    cut_sum (fun i hi => h.antib (by omega)) (fun i hi => h.antib (by omega)) (by omega)
  have e3 : ∑ i ∈ range (N + 1), max (d i - b l) 0 = ∑ i ∈ range l, d i - (l : ℤ) * b l :=
    cut_sum (fun i hi => (h.antib (by omega : i + 1 ≤ l)).trans (h.bd i))
      (fun i hi => (h.antid hi).trans (h.db l)) (by omega)
  rw [colEx, e1, e2, e3, rowEx, sum_sub_distrib, sum_sub_distrib, sum_range_succ (fun i => b i)]
  push_cast
  ring

theorem Three.col_of_row (h : Three N a b d) {m : ℤ} (hm : 0 ≤ m) (hrow : ∀ l ≤ N, rowEx a b d l ≤ m) {c : ℤ}
    (hc : 0 ≤ c) : colEx N a b d c ≤ m := by
  classical
  rcases le_or_gt (a 0) c with h0 | h0
  · have e1 := cut_sum (y := a) (c := c) (l := 0) (N := N + 1) (fun i hi => absurd hi (by omega))
      (fun i hi => (h.anti hi).trans h0) (by omega)
    have e2 := cut_sum (y := b) (c := c) (l := 0) (N := N + 1) (fun i hi => absurd hi (by omega))
      (fun i hi => ((h.ba i).trans (h.anti hi)).trans h0) (by omega)
    have e3 := cut_sum (y := d) (c := c) (l := 0) (N := N + 1) (fun i hi => absurd hi (by omega))
      (fun i hi => (((h.db i).trans (h.ba i)).trans (h.anti hi)).trans h0) (by omega)
    rw [colEx, e1, e2, e3]
    simpa using hm
  · have hex : ∃ l, a (l + 1) ≤ c := ⟨N, by rw [h.zero _ (by omega)]; exact hc⟩
    obtain ⟨l, hl, hmin⟩ : ∃ l, a (l + 1) ≤ c ∧ ∀ i, i ≤ l → c < a i := by
      refine ⟨Nat.find hex, Nat.find_spec hex, ?_⟩
      intro i hi
      cases i with
      | zero => exact h0
      | succ i =>
        have := Nat.find_min hex (m := i) (by omega)
        omega
    have hlN : l < N := by
      by_contra hcon
      have := hmin l le_rfl
      rw [h.zero l (by omega)] at this
      omega
    have e1 : ∑ i ∈ range (N + 1), max (a i - c) 0 = ∑ i ∈ range (l + 1), a i - ((l + 1 : ℕ) : ℤ) * c :=
      cut_sum (fun i hi => (hmin i (by omega)).le) (fun i hi => (h.anti hi).trans hl) (by omega)
    have hr := hrow l (by omega)
    have hbl : ∀ i, i < l → c ≤ b i := fun i hi => ((hmin (i + 1) (by omega)).trans_le (h.ab i)).le
    have hbu : ∀ i, l < i → b i ≤ c := fun i hi => (h.ba i).trans ((h.anti (by omega : l + 1 ≤ i)).trans hl)
    rcases le_or_gt (b l) c with hb | hb
    · have e2 : ∑ i ∈ range (N + 1), max (b i - c) 0 = ∑ i ∈ range l, b i - (l : ℤ) * c :=
        cut_sum hbl (fun i hi => (h.antib hi).trans hb) (by omega)
      cases l with
      | zero =>
        have e3 : ∑ i ∈ range (N + 1), max (d i - c) 0 = ∑ i ∈ range 0, d i - ((0 : ℕ) : ℤ) * c :=
          cut_sum (fun i hi => absurd hi (by omega)) (fun i hi => (h.db i).trans ((h.antib hi).trans hb)) (by omega)
        rw [colEx, e1, e2, e3]
        simp [rowEx] at hr ⊢
        linarith
      | succ p =>
        have hdl : ∀ i, i < p → c ≤ d i := fun i hi => (hbl (i + 1) (by omega)).trans (h.bd i)
        have hdu : ∀ i, p + 1 ≤ i → d i ≤ c := fun i hi => (h.db i).trans ((h.antib hi).trans hb)
        rcases le_or_gt (d p) c with hd | hd
        · have e3 : ∑ i ∈ range (N + 1), max (d i - c) 0 = ∑ i ∈ range p, d i - (p : ℤ) * c :=
            cut_sum hdl (fun i hi => (h.antid hi).trans hd) (by omega)
          have hr' := hrow p (by omega)
          have hab := h.ab p
          rw [colEx, e1, e2, e3]
          rw [rowEx, sum_sub_distrib, sum_sub_distrib] at hr'
          rw [sum_range_succ, sum_range_succ, sum_range_succ] at *
          push_cast at *
          linarith
        · have e3 : ∑ i ∈ range (N + 1), max (d i - c) 0 = ∑ i ∈ range (p + 1), d i - ((p + 1 : ℕ) : ℤ) * c :=
            cut_sum (fun i hi => by
              rcases Nat.lt_or_ge i p with h1 | h1
              · exact hdl i h1
              · obtain rfl : i = p := by omega
                exact hd.le) hdu (by omega)
          rw [colEx, e1, e2, e3]
          rw [rowEx, sum_sub_distrib, sum_sub_distrib, sum_range_succ (fun i => b i)] at hr
          push_cast at *
          linarith
    · have e2 : ∑ i ∈ range (N + 1), max (b i - c) 0 = ∑ i ∈ range (l + 1), b i - ((l + 1 : ℕ) : ℤ) * c :=
        cut_sum (fun i hi => by
          rcases Nat.lt_or_ge i l with h1 | h1
          · exact hbl i h1
          · obtain rfl : i = l := by omega
            exact hb.le) (fun i hi => hbu i (by omega)) (by omega)
      have hdl : ∀ i, i < l → c ≤ d i := by
        intro i hi
        rcases Nat.lt_or_ge (i + 1) l with h1 | h1
        · exact (hbl (i + 1) h1).trans (h.bd i)
        · obtain rfl : l = i + 1 := by omega
          exact hb.le.trans (h.bd i)
      have hdu : ∀ i, l + 1 ≤ i → d i ≤ c := fun i hi => (h.db i).trans (hbu i (by omega))
      have hdb := h.db l
      rw [rowEx, sum_sub_distrib, sum_sub_distrib] at hr
      rcases le_or_gt (d l) c with hd | hd
      · have e3 : ∑ i ∈ range (N + 1), max (d i - c) 0 = ∑ i ∈ range l, d i - (l : ℤ) * c :=
          cut_sum hdl (fun i hi => (h.antid hi).trans hd) (by omega)
        rw [colEx, e1, e2, e3]
        rw [sum_range_succ (fun i => b i)] at *
        push_cast at *
        linarith
      · have e3 : ∑ i ∈ range (N + 1), max (d i - c) 0 = ∑ i ∈ range (l + 1), d i - ((l + 1 : ℕ) : ℤ) * c :=
          cut_sum (fun i hi => by
            rcases Nat.lt_or_ge i l with h1 | h1
            · exact hdl i h1
            · obtain rfl : i = l := by omega
              exact hd.le) hdu (by omega)
        rw [colEx, e1, e2, e3]
        rw [sum_range_succ (fun i => b i), sum_range_succ (fun i => d i)] at *
        push_cast at *
        linarith

/-- The condition of the Littlewood-Richardson rule: the rows are read from the first to the last, each from
right to left; no letter becomes more frequent than the letter before. -/
def Row (n : ℕ) (μ : ℕ → ℤ) (x : ℕ → ℕ → ℤ) : Prop :=
  ∀ k, k + 2 ≤ n → ∀ l, l ≤ n →
    μ (k + 1) + ∑ i ∈ range (l + 1), (x (k + 2) i - x (k + 1) i) ≤ μ k + ∑ i ∈ range l, (x (k + 1) i - x k i)

theorem GTF.three (h : GTF n lam x) {k : ℕ} (hk : k + 2 ≤ n) : Three n (x (k + 2)) (x (k + 1)) (x k) where
  ba i := h.up (k + 1) i (by omega)
  ab i := h.dn (k + 1) i (by omega)
  db i := h.up k i (by omega)
  bd i := h.dn k i (by omega)
  zero i hi := h.zero (k + 2) i (by omega) hk

theorem GTF.good_iff_row (h : GTF n lam x) {μ : ℕ → ℤ} (hμ : ∀ k, k + 2 ≤ n → μ (k + 1) ≤ μ k) :
    Good n μ x ↔ Row n μ x := by
  have e : ∀ c k, Dom n μ x c k ↔ colEx n (x (k + 2)) (x (k + 1)) (x k) c ≤ μ k - μ (k + 1) := by
    intro c k
    simp only [Dom, om, csum, colEx]
    constructor <;> intro h' <;> linarith
  constructor
  · intro hg k hk l hl
    have := (e _ _).1 (hg (x (k + 1) l) (h.nonneg (by omega) l) k hk)
    rw [← (h.three hk).row_of_col hl, rowEx] at this
    linarith
  · intro hr c hc k hk
    refine (e _ _).2 ((h.three hk).col_of_row (by have := hμ k hk; omega) (fun l hl => ?_) hc)
    have := hr k hk l hl
    rw [rowEx]
    linarith

/-! ## The weight zero -/

/-- The pattern of the highest weight. -/
theorem GTF.row_zero (h : GTF n lam x) (hr : Row n (fun _ => 0) x) (l : ℕ) :
    ∀ k, l < k → k ≤ n → x k l = lam l := by
  induction l using Nat.strong_induction_on with
  | _ l ih =>
    intro k hlk hkn
    obtain ⟨m, rfl⟩ := Nat.exists_eq_add_of_le hkn
    clear hkn
    induction m generalizing k with
    | zero => exact h.top l
    | succ m ihm =>
      have h1 : x (k + 1) l = lam l := by
        have e : k + (m + 1) = k + 1 + m := by omega
        rw [e] at h hr ih
        exact ihm (k + 1) (by omega) h hr ih
      obtain ⟨p, rfl⟩ : ∃ p, k = p + 1 := ⟨k - 1, by omega⟩
      have h2 := hr p (by omega) l (by omega)
      have e1 : ∑ i ∈ range l, (x (p + 2) i - x (p + 1) i) = 0 := by
        refine sum_eq_zero fun i hi => ?_
        have hi' := mem_range.1 hi
        rw [ih i hi' (p + 2) (by omega) (by omega), ih i hi' (p + 1) (by omega) (by omega), sub_self]
      have e2 : ∑ i ∈ range l, (x (p + 1) i - x p i) = 0 := by
        refine sum_eq_zero fun i hi => ?_
        have hi' := mem_range.1 hi
        rw [ih i hi' p (by omega) (by omega), ih i hi' (p + 1) (by omega) (by omega), sub_self]
      rw [sum_range_succ, e1, e2] at h2
      beta_reduce at h2
      have h3 := h.up (p + 1) l (by omega)
      have h4 : x (p + 2) l = lam l := h1
      have h5 : x (p + 1) l ≤ x (p + 2) l := h3
      omega

theorem row_highest (hlam : ∀ k, k + 2 ≤ n → lam (k + 1) ≤ lam k)
    (hx : ∀ k ≤ n, ∀ i, x k i = if i < k then lam i else 0) : Row n (fun _ => 0) x := by
  intro k hk l hl
  have e1 : ∀ i, x (k + 2) i - x (k + 1) i = if i = k + 1 then lam (k + 1) else 0 := by
    intro i
    rw [hx _ hk, hx _ (by omega)]
    by_cases h1 : i = k + 1
    · subst h1; simp
    · rw [if_neg h1]
      by_cases h2 : i < k + 1
      · rw [if_pos h2, if_pos (by omega), sub_self]
      · rw [if_neg h2, if_neg (by omega), sub_self]
  have e2 : ∀ i, x (k + 1) i - x k i = if i = k then lam k else 0 := by
    intro i
    rw [hx _ (by omega), hx _ (by omega)]
    by_cases h1 : i = k
    · subst h1; simp
    · rw [if_neg h1]
      by_cases h2 : i < k
      · rw [if_pos h2, if_pos (by omega), sub_self]
      · rw [if_neg h2, if_neg (by omega), sub_self]
  simp only [e1, e2, sum_ite_eq', mem_range]
  have := hlam k hk
  by_cases h1 : k < l
  · rw [if_pos (by omega), if_pos h1]; omega
  · rw [if_neg (by omega), if_neg h1]

end LieNN.LR

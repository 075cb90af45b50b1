import Verif.Proofs.SUNDim
/-!
# The ladder coefficients
-/
namespace LieNN.SUN

open Spec

theorem get2_ok {n : ℕ} {M : Pat} (hM : Triangular n M) {i j : ℕ} (h : i + j < n) :
    get2 M i j = .ok (ent M i j) := by
  have h1 : i < M.length := by rw [hM.1]; omega
  have h2 := hM.2 i (by omega)
  unfold get2 ent
  rw [List.getElem?_eq_getElem h1]
  rw [List.getD_eq_getElem _ _ h1] at h2 ⊢
  dsimp only
  rw [List.getElem?_eq_getElem (by omega), List.getD_eq_getElem _ _ (by omega)]

theorem get2_error {n : ℕ} {M : Pat} (hM : Triangular n M) {i j : ℕ} (h : n ≤ i + j) :
    get2 M i j = .error .indexError := by
  unfold get2
  by_cases h1 : i < M.length
  · have h2 := hM.2 i (by rw [← hM.1]; exact h1)
    rw [List.getElem?_eq_getElem h1]
    rw [List.getD_eq_getElem _ _ h1] at h2
    dsimp only
    rw [List.getElem?_eq_none (by omega)]
  · rw [List.getElem?_eq_none (by omega)]

/-- The condition `is_valid_M` checks. -/
def Good (n : ℕ) (M : Pat) : Prop := ∀ i j, i + j + 1 < n →
  ent M (i + 1) j ≤ ent M i j ∧ ent M i (j + 1) ≤ ent M (i + 1) j ∧ 0 ≤ ent M i (j + 1)

/-- What `is_valid_M` computes. -/
theorem isValidM_eq {n : ℕ} {M : Pat} (hM : Triangular n M) :
    ∃ b, isValidM M = .ok b ∧ (b = true ↔ Good n M) := by
  unfold isValidM triplets
  rw [LieNN.mapM_ok (g := fun ij : ℕ × ℕ => (ent M (ij.1 - 1) ij.2, ent M (ij.1 - 1) (ij.2 + 1),
    ent M ij.1 ij.2))]
  · refine ⟨_, rfl, ?_⟩
    rw [hM.1]
    simp only [List.all_eq_true, List.mem_map, List.mem_flatMap, List.mem_range, List.mem_range'_1,
      Good]
    constructor
    · intro h i j hij
      have := h _ ⟨(i + 1, j), ⟨i + 1, by omega, j, by omega, rfl⟩, rfl⟩
      simp at this
      exact ⟨this.1.1, this.1.2, this.2⟩
    · rintro h _ ⟨_, ⟨i, hi, j, hj, rfl⟩, rfl⟩
      have := h (i - 1) j (by omega)
      rw [show i - 1 + 1 = i by omega] at this
      simp
      exact ⟨⟨this.1, this.2.1⟩, this.2.2⟩
  · rintro ij hij
    simp only [List.mem_map, List.mem_flatMap, List.mem_range, List.mem_range'_1, hM.1] at hij
    obtain ⟨i, hi, j, hj, rfl⟩ := hij
    dsimp only
    rw [get2_ok hM (by omega), get2_ok hM (by omega), get2_ok hM (by omega)]
    rfl

theorem good_interlacing {n : ℕ} {M : Pat} (hM : Triangular n M) (h : Good n M) : Interlacing M := by
  intro i j hij
  rw [hM.1] at hij
  exact ⟨(h i j hij).2.1, (h i j hij).1⟩

theorem row_antitone {M : Pat} (h : Interlacing M) {i : ℕ} : ∀ {j j' : ℕ}, j ≤ j' →
    i + j' + 1 ≤ M.length → (i + 1 < M.length ∨ j = j') → ent M i j' ≤ ent M i j := by
  intro j j' hj hl _
  induction j', hj using Nat.le_induction with
  | base => exact le_rfl
  | succ j' hj ih =>
    have := h i j' (by omega)
    have := ih (by omega) (by omega)
    omega

theorem nonneg_of_last {M : Pat} (hI : Interlacing M) (h0 : 0 ≤ ent M 0 (M.length - 1)) :
    ∀ i j, i + j < M.length → 0 ≤ ent M i j := by
  have h1 : ∀ i, i < M.length → 0 ≤ ent M i (M.length - 1 - i) := by
    intro i
    induction i with
    | zero => intro _; exact h0
    | succ i ih =>
      intro hi
      have := hI i (M.length - 1 - (i + 1)) (by omega)
      rw [show M.length - 1 - (i + 1) + 1 = M.length - 1 - i by omega] at this
      have := ih (by omega)
      omega
  intro i j hij
  have h2 := h1 i (by omega)
  have h3 := row_antitone hI (i := i) (j := j) (j' := M.length - 1 - i) (by omega) (by omega)
    (by omega)
  omega

theorem good_iff {n : ℕ} {M : Pat} (hM : Triangular n M) (h2 : 2 ≤ n) :
    Good n M ↔ Interlacing M ∧ ∀ i j, i + j < n → 0 ≤ ent M i j := by
  constructor
  · intro h
    have hI := good_interlacing hM h
    refine ⟨hI, ?_⟩
    have := (h 0 (n - 2) (by omega)).2.2
    rw [← hM.1]
    refine nonneg_of_last hI ?_
    rw [hM.1]
    rwa [show n - 2 + 1 = n - 1 by omega] at this
  · rintro ⟨hI, h0⟩ i j hij
    have := hI i j (by rw [hM.1]; omega)
    exact ⟨this.2, this.1, h0 _ _ (by omega)⟩

/-! ## Shifting one entry -/

theorem length_addAt (M : Pat) (l k : ℕ) (c : ℤ) : (addAt M l k c).length = M.length := by
  simp [addAt]

theorem row_addAt (M : Pat) (l k : ℕ) (c : ℤ) (i : ℕ) : (addAt M l k c).getD i [] =
    (M.getD i []).mapIdx fun j x => if (i, j) = (l, k) then x + c else x := by
  unfold addAt
  by_cases h : i < M.length
  · rw [List.getD_eq_getElem _ _ (by simpa using h), List.getD_eq_getElem _ _ h]
    simp
  · rw [List.getD_eq_default _ _ (by simpa using h), List.getD_eq_default _ _ (by simpa using h)]
    simp

theorem ent_addAt {n : ℕ} {M : Pat} (hM : Triangular n M) (l k : ℕ) (c : ℤ) (i j : ℕ) (h : i + j < n) :
    ent (addAt M l k c) i j = ent M i j + if i = l ∧ j = k then c else 0 := by
  unfold ent
  rw [row_addAt]
  have h2 := hM.2 i (by omega)
  rw [List.getD_eq_getElem _ _ (by rw [List.length_mapIdx]; omega),
    List.getD_eq_getElem (M.getD i []) _ (show j < (M.getD i []).length by omega)]
  simp only [List.getElem_mapIdx, Prod.mk.injEq]
  split_ifs <;> simp

theorem tri_addAt {n : ℕ} {M : Pat} (hM : Triangular n M) (l k : ℕ) (c : ℤ) :
    Triangular n (addAt M l k c) := by
  refine ⟨by rw [length_addAt, hM.1], fun i hi => ?_⟩
  rw [row_addAt, List.length_mapIdx]
  exact hM.2 i hi

/-- Triangular arrays with the same entries are equal. -/
theorem tri_ext {n : ℕ} {M N : Pat} (hM : Triangular n M) (hN : Triangular n N)
    (h : ∀ i j, i + j < n → ent M i j = ent N i j) : M = N := by
  apply List.ext_getElem
  · rw [hM.1, hN.1]
  · intro i h1 h2
    have hi : i < n := by rw [← hM.1]; exact h1
    have a := hM.2 i hi
    have b := hN.2 i hi
    rw [List.getD_eq_getElem _ _ h1] at a
    rw [List.getD_eq_getElem _ _ h2] at b
    apply List.ext_getElem
    · omega
    · intro j h3 h4
      have := h i j (by omega)
      unfold ent at this
      rwa [List.getD_eq_getElem _ _ h1, List.getD_eq_getElem _ _ h2, List.getD_eq_getElem _ _ h3,
        List.getD_eq_getElem _ _ h4] at this

theorem addAt_addAt {n : ℕ} {M : Pat} (hM : Triangular n M) (l k : ℕ) (c : ℤ) :
    addAt (addAt M l k c) l k (-c) = M := by
  refine tri_ext (tri_addAt (tri_addAt hM l k c) l k (-c)) hM fun i j hij => ?_
  rw [ent_addAt (tri_addAt hM l k c) _ _ _ _ _ hij, ent_addAt hM _ _ _ _ _ hij]
  split_ifs <;> simp

/-! ## The coefficients -/

theorem foldlM_mul {α : Type} (L : List α) (f : ℤ → α → Py ℤ) (g : α → ℤ)
    (h : ∀ a ∈ L, ∀ z, f z a = .ok (z * g a)) (z : ℤ) : L.foldlM f z = .ok (z * (L.map g).prod) := by
  induction L generalizing z with
  | nil => simp; rfl
  | cons a L ih =>
    rw [List.foldlM_cons, h a (by simp)]
    simp only [SU2.ok_bind', List.map_cons, List.prod_cons]
    rw [ih (fun b hb => h b (by simp [hb]))]
    rw [mul_assoc]

theorem prod_range_listZ (f : ℕ → ℤ) (n : ℕ) : ((List.range n).map f).prod = ∏ i ∈ Finset.range n, f i := by
  rw [← List.prod_toFinset f List.nodup_range, List.toFinset_range]

theorem prodLoop_ok {n : ℕ} {M : Pat} (hM : Triangular n M) {row k l count : ℕ} (s num : ℤ)
    (h : row + count ≤ n) (hk : k + l < n) : prodLoop M row k l count s num =
      .ok (num * ∏ p ∈ Finset.range count, (ent M row p - ent M k l + l - p + s)) := by
  unfold prodLoop
  rw [foldlM_mul _ _ (fun p : ℕ => ent M row p - ent M k l + l - p + s), prod_range_listZ]
  intro p hp z
  have := List.mem_range.1 hp
  rw [get2_ok hM (by omega), get2_ok hM hk]
  rfl

theorem denLoop_ok {n : ℕ} {M : Pat} (hM : Triangular n M) {k l count : ℕ} (s : ℤ)
    (h : k + count ≤ n) (hk : k + l < n) : denLoop M k l count s =
      .ok (∏ p ∈ (Finset.range count).erase l,
        ((ent M k p - ent M k l + l - p) * (ent M k p - ent M k l + l - p + s))) := by
  unfold denLoop
  rw [foldlM_mul _ _ (fun p : ℕ => if p = l then 1 else
    ((ent M k p - ent M k l + l - p) * (ent M k p - ent M k l + l - p + s))), prod_range_listZ, one_mul]
  · congr 1
    rw [← Finset.filter_ne' (Finset.range count) l, Finset.prod_filter]
    exact Finset.prod_congr rfl fun p _ => by by_cases h : p = l <;> simp [h]
  · intro p hp z
    have := List.mem_range.1 hp
    split_ifs with hl
    · simp; rfl
    · rw [get2_ok hM (by omega), get2_ok hM hk]
      rfl

/-- The numerator of the coefficients, `x` being the entry that moves to `x + 1`. -/
def numF (n : ℕ) (M : Pat) (k l : ℕ) (x : ℤ) : ℤ :=
  (∏ p ∈ Finset.range (n - k + 1), (ent M (k - 1) p - x + l - p)) *
    ∏ p ∈ Finset.range (n - k - 1), (ent M (k + 1) p - x + l - p - 1)

/-- The denominator of the coefficients. -/
def denF (n : ℕ) (M : Pat) (k l : ℕ) (x : ℤ) : ℤ :=
  ∏ p ∈ (Finset.range (n - k)).erase l, ((ent M k p - x + l - p) * (ent M k p - x + l - p - 1))

theorem coeffUpper_eq {n : ℕ} {M : Pat} (hM : Triangular n M) {k l : ℕ} (h1 : 1 ≤ k) (hk : k + l < n) :
    coeffUpper M k l = finish (numF n M k l (ent M k l)) (denF n M k l (ent M k l)) := by
  unfold coeffUpper
  simp only [hM.1]
  rw [prodLoop_ok hM _ _ (by omega) hk]
  simp only [SU2.ok_bind']
  rw [prodLoop_ok hM _ _ (by omega) hk]
  simp only [SU2.ok_bind']
  rw [denLoop_ok hM _ (by omega) hk]
  simp only [SU2.ok_bind']
  unfold numF denF
  simp only [one_mul, add_zero, sub_eq_add_neg]

theorem coeffLower_eq {n : ℕ} {M : Pat} (hM : Triangular n M) {k l : ℕ} (h1 : 1 ≤ k) (hk : k + l < n) :
    coeffLower M k l = finish (numF n M k l (ent M k l - 1)) (denF n M k l (ent M k l - 1)) := by
  unfold coeffLower
  simp only [hM.1]
  rw [prodLoop_ok hM _ _ (by omega) hk]
  simp only [SU2.ok_bind']
  rw [prodLoop_ok hM _ _ (by omega) hk]
  simp only [SU2.ok_bind']
  rw [denLoop_ok hM _ (by omega) hk]
  simp only [SU2.ok_bind']
  unfold numF denF
  congr 1
  · rw [one_mul]
    congr 1
    · exact Finset.prod_congr rfl fun p _ => by ring
    · exact Finset.prod_congr rfl fun p _ => by ring
  · exact Finset.prod_congr rfl fun p _ => by ring

/-- The entry moves from `x` to `x + 1` between the bounds of the pattern. -/
def CanMove (n : ℕ) (M : Pat) (k l : ℕ) (x : ℤ) : Prop :=
  (∀ p, p ≤ l → x + 1 ≤ ent M (k - 1) p) ∧ (∀ p, l < p → p < n - k + 1 → ent M (k - 1) p ≤ x) ∧
    (∀ p, p < l → x + 1 ≤ ent M (k + 1) p) ∧ (∀ p, l ≤ p → p < n - k - 1 → ent M (k + 1) p ≤ x) ∧
    (∀ p, p < l → x + 1 ≤ ent M k p) ∧ (∀ p, l < p → p < n - k → ent M k p ≤ x)

theorem denF_pos {n : ℕ} {M : Pat} {k l : ℕ} {x : ℤ} (h : CanMove n M k l x) : 0 < denF n M k l x := by
  obtain ⟨_, _, _, _, h5, h6⟩ := h
  refine Finset.prod_pos fun p hp => ?_
  rw [Finset.mem_erase, Finset.mem_range] at hp
  rcases Nat.lt_or_gt_of_ne hp.1 with hl | hl
  · have := h5 p hl
    exact mul_pos (by omega) (by omega)
  · have := h6 p hl hp.2
    exact mul_pos_of_neg_of_neg (by omega) (by omega)

/-- The sign of a product over a range, positive below `a` and negative from `a` on. -/
theorem prod_sign (f : ℕ → ℤ) (a c : ℕ) (hac : a ≤ c) (h1 : ∀ p, p < a → 0 < f p)
    (h2 : ∀ p, a ≤ p → p < c → f p < 0) :
    0 < (-1) ^ (c - a) * ∏ p ∈ Finset.range c, f p := by
  rw [← Finset.prod_range_mul_prod_Ico _ hac]
  have h3 : 0 < ∏ p ∈ Finset.range a, f p := Finset.prod_pos fun p hp => h1 p (Finset.mem_range.1 hp)
  have h4 : (-1) ^ (c - a) * ∏ p ∈ Finset.Ico a c, f p = ∏ p ∈ Finset.Ico a c, (- f p) := by
    rw [Finset.prod_neg]
    simp
  have h5 : 0 < ∏ p ∈ Finset.Ico a c, (- f p) := Finset.prod_pos fun p hp => by
    rw [Finset.mem_Ico] at hp
    have := h2 p hp.1 hp.2
    omega
  rw [← mul_assoc, mul_comm _ (∏ p ∈ Finset.range a, f p), mul_assoc, h4]
  exact mul_pos h3 h5

theorem numF_neg {n : ℕ} {M : Pat} {k l : ℕ} {x : ℤ} (hk : k + l < n) (h : CanMove n M k l x) :
    numF n M k l x < 0 := by
  obtain ⟨h1, h2, h3, h4, _, _⟩ := h
  have s1 := prod_sign (fun p => ent M (k - 1) p - x + l - p) (l + 1) (n - k + 1) (by omega)
    (fun p hp => by have := h1 p (by omega); omega)
    (fun p hp hc => by have := h2 p (by omega) hc; omega)
  have s2 := prod_sign (fun p => ent M (k + 1) p - x + l - p - 1) l (n - k - 1) (by omega)
    (fun p hp => by have := h3 p hp; omega)
    (fun p hp hc => by have := h4 p hp hc; omega)
  have s3 := mul_pos s1 s2
  unfold numF
  rw [show n - k + 1 - (l + 1) = (n - k - 1 - l) + 1 by omega, pow_succ] at s3
  have s4 : ((-1 : ℤ) ^ (n - k - 1 - l)) * (-1) ^ (n - k - 1 - l) = 1 := by
    rw [← mul_pow]; simp
  generalize ((-1 : ℤ) ^ (n - k - 1 - l)) = e at s3 s4
  have s5 : ∀ A B : ℤ, e * -1 * A * (e * B) = -(A * B) := by
    intro A B
    linear_combination (-(A * B)) * s4
  rw [s5] at s3
  omega

/-- The square of the coefficient. -/
def coefSq (n : ℕ) (M : Pat) (k l : ℕ) (x : ℤ) : ℚ := -(numF n M k l x : ℚ) / denF n M k l x

theorem coefSq_pos {n : ℕ} {M : Pat} {k l : ℕ} {x : ℤ} (hk : k + l < n) (h : CanMove n M k l x) :
    0 < coefSq n M k l x := by
  unfold coefSq
  have := numF_neg hk h
  have := denF_pos h
  refine div_pos ?_ (by exact_mod_cast this)
  have : (numF n M k l x : ℚ) < 0 := by exact_mod_cast numF_neg hk h
  linarith

theorem finish_ok {n : ℕ} {M : Pat} {k l : ℕ} {x : ℤ} (hk : k + l < n) (h : CanMove n M k l x) :
    finish (numF n M k l x) (denF n M k l x) = .ok (Real.sqrt (coefSq n M k l x)) := by
  unfold finish
  have hp := (coefSq_pos hk h).le
  unfold coefSq at hp
  rw [if_neg (denF_pos h).ne', pyAssert_of hp]
  rfl

/-- Both the pattern and the pattern with one more at the place `(k, l)` interlace. -/
theorem canMove_of {n : ℕ} {M N : Pat} (hM : Triangular n M) (hMI : Interlacing M)
    (hNI : Interlacing N) {k l : ℕ} (hk1 : 1 ≤ k) (hk : k + l < n) (hN : N = addAt M k l 1) :
    CanMove n M k l (ent M k l) := by
  subst hN
  have hl : (addAt M k l 1).length = n := by rw [length_addAt, hM.1]
  have e : ∀ i j, i + j < n → ent (addAt M k l 1) i j = ent M i j + if i = k ∧ j = l then 1 else 0 :=
    fun i j h => ent_addAt hM k l 1 i j h
  have a1 : ent M k l + 1 ≤ ent M (k - 1) l := by
    have := (hNI (k - 1) l (by omega)).2
    rw [show k - 1 + 1 = k by omega, e _ _ hk, e _ _ (by omega), if_pos ⟨rfl, rfl⟩,
      if_neg (by omega)] at this
    omega
  have a2 : ent M (k - 1) (l + 1) ≤ ent M k l := by
    have := (hMI (k - 1) l (by rw [hM.1]; omega)).1
    rwa [show k - 1 + 1 = k by omega] at this
  have a3 : ∀ q, l = q + 1 → ent M k l + 1 ≤ ent M (k + 1) q := by
    rintro q rfl
    have := (hNI k q (by omega)).1
    rw [e _ _ hk, e _ _ (by omega), if_pos ⟨rfl, rfl⟩, if_neg (by omega)] at this
    omega
  have a4 : l < n - k - 1 → ent M (k + 1) l ≤ ent M k l := fun h =>
    (hMI k l (by rw [hM.1]; omega)).2
  have anti : ∀ i j j', j ≤ j' → i + j' + 1 ≤ n → ent M i j' ≤ ent M i j := fun i j j' h h' => by
    rcases Nat.eq_or_lt_of_le h with rfl | h''
    · exact le_rfl
    · exact row_antitone hMI h (by rw [hM.1]; omega) (by rw [hM.1]; omega)
  refine ⟨fun p hp => ?_, fun p hp hp' => ?_, fun p hp => ?_, fun p hp hp' => ?_, fun p hp => ?_,
    fun p hp hp' => ?_⟩
  · have := anti (k - 1) p l hp (by omega); omega
  · have := anti (k - 1) (l + 1) p hp (by omega); omega
  · have := anti (k + 1) p (l - 1) (by omega) (by omega)
    have := a3 (l - 1) (by omega)
    omega
  · have := anti (k + 1) l p hp (by omega)
    have := a4 (by omega)
    omega
  · have b1 := anti k p (l - 1) (by omega) (by omega)
    have b2 := a3 (l - 1) (by omega)
    have b3 := (hMI k (l - 1) (by rw [hM.1]; omega)).2
    omega
  · exact anti k l p (by omega) (by omega)

/-- The numbers that enter do not depend on the entry that moves. -/
theorem numF_addAt {n : ℕ} {M : Pat} (hM : Triangular n M) {k l : ℕ} (h1 : 1 ≤ k) (hk : k + l < n)
    (c x : ℤ) : numF n (addAt M k l c) k l x = numF n M k l x := by
  unfold numF
  congr 1
  · refine Finset.prod_congr rfl fun p hp => ?_
    have := Finset.mem_range.1 hp
    rw [ent_addAt hM _ _ _ _ _ (by omega), if_neg (by omega), add_zero]
  · refine Finset.prod_congr rfl fun p hp => ?_
    have := Finset.mem_range.1 hp
    rw [ent_addAt hM _ _ _ _ _ (by omega), if_neg (by omega), add_zero]

theorem denF_addAt {n : ℕ} {M : Pat} (hM : Triangular n M) {k l : ℕ}
    (c x : ℤ) : denF n (addAt M k l c) k l x = denF n M k l x := by
  unfold denF
  refine Finset.prod_congr rfl fun p hp => ?_
  rw [Finset.mem_erase, Finset.mem_range] at hp
  rw [ent_addAt hM _ _ _ _ _ (by omega), if_neg (by omega), add_zero]

theorem coeffUpper_ok {n : ℕ} {M : Pat} (hM : Triangular n M) (hMI : Interlacing M) {k l : ℕ}
    (hNI : Interlacing (addAt M k l 1)) (hk1 : 1 ≤ k) (hk : k + l < n) :
    coeffUpper M k l = .ok (Real.sqrt (coefSq n M k l (ent M k l))) := by
  rw [coeffUpper_eq hM hk1 hk, finish_ok hk (canMove_of hM hMI hNI hk1 hk rfl)]

theorem coeffLower_ok {n : ℕ} {M : Pat} (hM : Triangular n M) (hMI : Interlacing M) {k l : ℕ}
    (hNI : Interlacing (addAt M k l 1)) (hk1 : 1 ≤ k) (hk : k + l < n) :
    coeffLower (addAt M k l 1) k l = .ok (Real.sqrt (coefSq n M k l (ent M k l))) := by
  rw [coeffLower_eq (tri_addAt hM k l 1) hk1 hk, ent_addAt hM _ _ _ _ _ hk, if_pos ⟨rfl, rfl⟩,
    add_sub_cancel_right, numF_addAt hM hk1 hk, denF_addAt hM,
    finish_ok hk (canMove_of hM hMI hNI hk1 hk rfl)]

end LieNN.SUN

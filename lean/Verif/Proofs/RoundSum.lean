import Mathlib.Analysis.Complex.Norm
import Mathlib.Tactic.Linarith
import Mathlib.Tactic.Positivity
import Mathlib.Tactic.Ring
import Mathlib.Tactic.FieldSimp
import Verif.Model.RoundCheck
/-!
# Error bounds for sums and scalar products with rounding errors
-/
namespace LieNN

/-- The number of nonzero terms. -/
noncomputable def nz (s : Multiset ℝ) : ℕ := by classical exact s.countP (fun t => t ≠ 0)

theorem nz_add (s t : Multiset ℝ) : nz (s + t) = nz s + nz t := by
  classical
  unfold nz
  exact Multiset.countP_add _ _ _

theorem nz_eq_zero {s : Multiset ℝ} (h : nz s = 0) : ∀ t ∈ s, t = 0 := by
  classical
  unfold nz at h
  rw [Multiset.countP_eq_zero] at h
  intro t ht
  exact not_not.1 (h t ht)

theorem sum_abs_nonneg (s : Multiset ℝ) : 0 ≤ (s.map fun t => |t|).sum :=
  Multiset.sum_nonneg (by
    intro x hx
    obtain ⟨t, -, rfl⟩ := Multiset.mem_map.1 hx
    exact abs_nonneg t)

theorem abs_sum_le (s : Multiset ℝ) : |s.sum| ≤ (s.map fun t => |t|).sum := by
  induction s using Multiset.induction_on with
  | empty => simp
  | cons a s ih =>
    rw [Multiset.sum_cons, Multiset.map_cons, Multiset.sum_cons]
    exact (abs_add_le _ _).trans (add_le_add le_rfl ih)

theorem sumRun_err {u : ℝ} (hu : 0 ≤ u) {s : Multiset ℝ} {z : ℝ} (h : SumRun u s z) :
    (nz s = 0 → z = 0) ∧ |z - s.sum| ≤ ((1 + u) ^ (nz s - 1) - 1) * (s.map fun t => |t|).sum := by
  induction h with
  | nil => simp
  | one t =>
    constructor
    · intro h0
      exact nz_eq_zero h0 t (Multiset.mem_singleton_self t)
    · have : (0 : ℝ) ≤ ((1 + u) ^ (nz {t} - 1) - 1) * |t| :=
        mul_nonneg (sub_nonneg.2 (one_le_pow₀ (by linarith))) (abs_nonneg t)
      simpa using this
  | @add s t x y z hx hy hz h₁ h₂ ihx ihy =>
    obtain ⟨ax, bx⟩ := ihx
    obtain ⟨ay, byy⟩ := ihy
    rw [nz_add, Multiset.sum_add, Multiset.map_add, Multiset.sum_add]
    have Sn := sum_abs_nonneg s
    have Tn := sum_abs_nonneg t
    have hpow : ∀ m : ℕ, (1 : ℝ) ≤ (1 + u) ^ m := fun m => one_le_pow₀ (by linarith)
    have hz0 : ∀ w : Multiset ℝ, nz w = 0 → w.sum = 0 ∧ (w.map fun t => |t|).sum = 0 := by
      intro w hw
      have := nz_eq_zero hw
      refine ⟨Multiset.sum_eq_zero this, Multiset.sum_eq_zero ?_⟩
      intro v hv
      obtain ⟨t, ht, rfl⟩ := Multiset.mem_map.1 hv
      rw [this t ht, abs_zero]
    rcases Nat.eq_zero_or_pos (nz s) with hs | hs
    · have hx0 := ax hs
      have hzy := h₁ hx0
      refine ⟨fun h' => by rw [hzy]; exact ay (by omega), ?_⟩
      rw [hs, Nat.zero_add, hzy, (hz0 s hs).1, (hz0 s hs).2, zero_add, zero_add]
      exact byy
    rcases Nat.eq_zero_or_pos (nz t) with ht | ht
    · have hy0 := ay ht
      have hzx := h₂ hy0
      refine ⟨fun h' => by omega, ?_⟩
      rw [ht, Nat.add_zero, hzx, (hz0 t ht).1, (hz0 t ht).2, add_zero, add_zero]
      exact bx
    refine ⟨fun h' => by omega, ?_⟩
    set S := (s.map fun t => |t|).sum
    set T := (t.map fun t => |t|).sum
    have hz' : |z - (x + y)| ≤ u * |x + y| := hz
    have xs : |x| ≤ (1 + u) ^ (nz s - 1) * S := by
      have : |x| ≤ |x - s.sum| + |s.sum| := by
        have := abs_add_le (x - s.sum) s.sum
        rwa [sub_add_cancel] at this
      have := abs_sum_le s
      nlinarith
    have ys : |y| ≤ (1 + u) ^ (nz t - 1) * T := by
      have : |y| ≤ |y - t.sum| + |t.sum| := by
        have := abs_add_le (y - t.sum) t.sum
        rwa [sub_add_cancel] at this
      have := abs_sum_le t
      nlinarith
    have e1 : |z - (s.sum + t.sum)| ≤ |z - (x + y)| + |x - s.sum| + |y - t.sum| := by
      have := abs_add_three (z - (x + y)) (x - s.sum) (y - t.sum)
      have e : z - (s.sum + t.sum) = z - (x + y) + (x - s.sum) + (y - t.sum) := by ring
      rw [e]; exact this
    have e2 : u * |x + y| ≤ u * ((1 + u) ^ (nz s - 1) * S) + u * ((1 + u) ^ (nz t - 1) * T) := by
      rw [← mul_add]
      exact mul_le_mul_of_nonneg_left ((abs_add_le x y).trans (add_le_add xs ys)) hu
    have p1 : (1 + u) ^ (nz s - 1) * (1 + u) ≤ (1 + u) ^ (nz s + nz t - 1) := by
      rw [← pow_succ]
      exact pow_le_pow_right₀ (by linarith) (by omega)
    have p2 : (1 + u) ^ (nz t - 1) * (1 + u) ≤ (1 + u) ^ (nz s + nz t - 1) := by
      rw [← pow_succ]
      exact pow_le_pow_right₀ (by linarith) (by omega)
    have q1 := mul_le_mul_of_nonneg_right p1 Sn
    have q2 := mul_le_mul_of_nonneg_right p2 Tn
    nlinarith

/-- The exact sum is a run. -/
theorem sumRun_exact {u : ℝ} (hu : 0 ≤ u) (s : Multiset ℝ) : SumRun u s s.sum := by
  induction s using Multiset.induction_on with
  | empty => simpa using SumRun.nil
  | cons a s ih =>
    rw [← Multiset.singleton_add, Multiset.sum_add, Multiset.sum_singleton]
    refine SumRun.add (SumRun.one a) ih ?_ (fun h => by rw [h, zero_add]) (fun h => by rw [h, add_zero])
    unfold Rnd
    rw [sub_self, norm_zero]
    positivity

theorem rnd_self {E : Type*} [NormedAddCommGroup E] {u : ℝ} (hu : 0 ≤ u) (x : E) : Rnd u x x := by
  unfold Rnd
  rw [sub_self, norm_zero]
  positivity

theorem Rnd.norm_le {E : Type*} [NormedAddCommGroup E] {u : ℝ} {x y : E} (h : Rnd u x y) : ‖y‖ ≤ (1 + u) * ‖x‖ := by
  have := norm_add_le (y - x) x
  rw [sub_add_cancel] at this
  unfold Rnd at h
  linarith

theorem Rnd.eq_zero {E : Type*} [NormedAddCommGroup E] {u : ℝ} {x y : E} (h : Rnd u x y) (hx : x = 0) : y = 0 := by
  unfold Rnd at h
  rw [hx, sub_zero, norm_zero, mul_zero] at h
  exact norm_le_zero_iff.1 h

/-- Real scalar products: `2 n` computed products, summed. -/
theorem part_err {u : ℝ} (hu : 0 ≤ u) {n : ℕ} {p q t s : Fin n → ℝ} (ht : ∀ k, Rnd u (p k) (t k)) (hs : ∀ k, Rnd u (q k) (s k))
    {z : ℝ} (hz : SumRun u (Finset.univ.val.map t + Finset.univ.val.map s) z) {S : Finset (Fin n)}
    (hp : ∀ k, k ∉ S → p k = 0) (hq : ∀ k, k ∉ S → q k = 0) :
    |z - (∑ k, p k + ∑ k, q k)| ≤ ((1 + u) ^ (2 * S.card) - 1) * ∑ k, (|p k| + |q k|) := by
  classical
  have hone : ∀ m : ℕ, (1 : ℝ) ≤ (1 + u) ^ m := fun m => one_le_pow₀ (by linarith)
  have cnt : ∀ {f g : Fin n → ℝ}, (∀ k, Rnd u (f k) (g k)) → (∀ k, k ∉ S → f k = 0) →
      nz (Finset.univ.val.map g) ≤ S.card := by
    intro f g hfg hf
    unfold nz
    rw [Multiset.countP_map, ← Finset.filter_val, Finset.card_val]
    refine Finset.card_le_card fun k hk => ?_
    by_contra hkS
    exact (Finset.mem_filter.1 hk).2 ((hfg k).eq_zero (hf k hkS))
  obtain ⟨h0, h1⟩ := sumRun_err hu hz
  have hN : nz (Finset.univ.val.map t + Finset.univ.val.map s) ≤ 2 * S.card := by
    rw [nz_add]
    have := cnt ht hp
    have := cnt hs hq
    omega
  have es : (Finset.univ.val.map t + Finset.univ.val.map s).sum = ∑ k, t k + ∑ k, s k := Multiset.sum_add _ _
  have ea : ((Finset.univ.val.map t + Finset.univ.val.map s).map fun x => |x|).sum = ∑ k, |t k| + ∑ k, |s k| := by
    rw [Multiset.map_add, Multiset.sum_add, Multiset.map_map, Multiset.map_map]
    rfl
  rw [es, ea] at h1
  set N := nz (Finset.univ.val.map t + Finset.univ.val.map s)
  have hS0 : 0 ≤ ∑ k, (|p k| + |q k|) := Finset.sum_nonneg fun k _ => by positivity
  have hts : ∑ k, |t k| + ∑ k, |s k| ≤ (1 + u) * ∑ k, (|p k| + |q k|) := by
    rw [← Finset.sum_add_distrib, Finset.mul_sum]
    refine Finset.sum_le_sum fun k _ => ?_
    have h1 : |t k| ≤ (1 + u) * |p k| := (ht k).norm_le
    have h2 : |s k| ≤ (1 + u) * |q k| := (hs k).norm_le
    linarith
  have hd : |(∑ k, t k + ∑ k, s k) - (∑ k, p k + ∑ k, q k)| ≤ u * ∑ k, (|p k| + |q k|) := by
    have e : (∑ k, t k + ∑ k, s k) - (∑ k, p k + ∑ k, q k) = ∑ k, ((t k - p k) + (s k - q k)) := by
      rw [Finset.sum_add_distrib, Finset.sum_sub_distrib, Finset.sum_sub_distrib]; ring
    rw [e, Finset.mul_sum]
    refine (Finset.abs_sum_le_sum_abs _ _).trans (Finset.sum_le_sum fun k _ => ?_)
    have h1 : |t k - p k| ≤ u * |p k| := ht k
    have h2 : |s k - q k| ≤ u * |q k| := hs k
    have := abs_add_le (t k - p k) (s k - q k)
    linarith
  rcases Nat.eq_zero_or_pos N with hN0 | hNp
  · have hz0 : z = 0 := h0 hN0
    have ht0 : ∀ k, t k = 0 := fun k => nz_eq_zero hN0 _ (Multiset.mem_add.2 (Or.inl (Multiset.mem_map_of_mem _ (Finset.mem_univ_val k))))
    have hs0 : ∀ k, s k = 0 := fun k => nz_eq_zero hN0 _ (Multiset.mem_add.2 (Or.inr (Multiset.mem_map_of_mem _ (Finset.mem_univ_val k))))
    by_cases hSc : S.card = 0
    · rw [Finset.card_eq_zero] at hSc
      have hp0 : ∀ k, p k = 0 := fun k => hp k (by rw [hSc]; simp)
      have hq0 : ∀ k, q k = 0 := fun k => hq k (by rw [hSc]; simp)
      simp [hz0, hp0, hq0]
    · simp only [ht0, hs0, Finset.sum_const_zero, add_zero, zero_sub] at hd
      rw [hz0, zero_sub]
      refine hd.trans (mul_le_mul_of_nonneg_right ?_ hS0)
      have : (1 + u) ^ 1 ≤ (1 + u) ^ (2 * S.card) := pow_le_pow_right₀ (by linarith) (by omega)
      rw [pow_one] at this
      linarith
  · have e1 : |z - (∑ k, p k + ∑ k, q k)| ≤ |z - (∑ k, t k + ∑ k, s k)| + |(∑ k, t k + ∑ k, s k) - (∑ k, p k + ∑ k, q k)| :=
      abs_sub_le _ _ _
    have e2 : ((1 + u) ^ (N - 1) - 1) * (∑ k, |t k| + ∑ k, |s k|) ≤
        ((1 + u) ^ (N - 1) - 1) * ((1 + u) * ∑ k, (|p k| + |q k|)) :=
      mul_le_mul_of_nonneg_left hts (sub_nonneg.2 (hone _))
    have e3 : (1 + u) ^ (N - 1) * (1 + u) ≤ (1 + u) ^ (2 * S.card) := by
      rw [← pow_succ]
      exact pow_le_pow_right₀ (by linarith) (by omega)
    have e4 := mul_le_mul_of_nonneg_right e3 hS0
    nlinarith

/-- Complex scalar products: `S` has the indices of the nonzero products. -/
theorem dot_err {u : ℝ} (hu : 0 ≤ u) {n : ℕ} {a b : Fin n → ℂ} {z : ℂ} (h : DotRun u a b z) {S : Finset (Fin n)}
    (hS : ∀ k, k ∉ S → a k = 0 ∨ b k = 0) :
    ‖z - ∑ k, a k * b k‖ ≤ 3 / 2 * ((1 + u) ^ (2 * S.card) - 1) * ∑ k, ‖a k‖ * ‖b k‖ := by
  obtain ⟨t₁, t₂, t₃, t₄, h1, h2, h3, h4, hr, hi⟩ := h
  have hone : (1 : ℝ) ≤ (1 + u) ^ (2 * S.card) := one_le_pow₀ (by linarith)
  have hre := part_err hu h1 h2 hr (S := S) (fun k hk => by rcases hS k hk with h | h <;> simp [h])
    (fun k hk => by rcases hS k hk with h | h <;> simp [h])
  have him := part_err hu h3 h4 hi (S := S) (fun k hk => by rcases hS k hk with h | h <;> simp [h])
    (fun k hk => by rcases hS k hk with h | h <;> simp [h])
  have cs : ∀ x y : ℂ, |x.re * y.re| + |x.im * y.im| ≤ ‖x‖ * ‖y‖ ∧ |x.re * y.im| + |x.im * y.re| ≤ ‖x‖ * ‖y‖ := by
    intro x y
    rw [abs_mul, abs_mul, abs_mul, abs_mul]
    have nx : ‖x‖ ^ 2 = |x.re| ^ 2 + |x.im| ^ 2 := by
      rw [Complex.sq_norm, Complex.normSq_apply, sq_abs, sq_abs]; ring
    have ny : ‖y‖ ^ 2 = |y.re| ^ 2 + |y.im| ^ 2 := by
      rw [Complex.sq_norm, Complex.normSq_apply, sq_abs, sq_abs]; ring
    constructor <;>
    · refine abs_le_of_sq_le_sq' ?_ (by positivity) |>.2
      rw [mul_pow, nx, ny]
      nlinarith [sq_nonneg (|x.re| * |y.im| - |x.im| * |y.re|), sq_nonneg (|x.re| * |y.re| - |x.im| * |y.im|)]
  set B := ∑ k, ‖a k‖ * ‖b k‖ with hB
  set γ := (1 + u) ^ (2 * S.card) - 1 with hγ
  have g0 : 0 ≤ γ := sub_nonneg.2 hone
  have B0 : 0 ≤ B := Finset.sum_nonneg fun k _ => by positivity
  have r1 : |(z - ∑ k, a k * b k).re| ≤ γ * B := by
    have e : (z - ∑ k, a k * b k).re = z.re - (∑ k, (a k).re * (b k).re + ∑ k, -((a k).im * (b k).im)) := by
      rw [Complex.sub_re, Complex.re_sum, ← Finset.sum_add_distrib]
      congr 1
    rw [e]
    refine hre.trans (mul_le_mul_of_nonneg_left (Finset.sum_le_sum fun k _ => ?_) g0)
    rw [abs_neg]
    exact (cs _ _).1
  have r2 : |(z - ∑ k, a k * b k).im| ≤ γ * B := by
    have e : (z - ∑ k, a k * b k).im = z.im - (∑ k, (a k).re * (b k).im + ∑ k, (a k).im * (b k).re) := by
      rw [Complex.sub_im, Complex.im_sum, ← Finset.sum_add_distrib]
      congr 1
    rw [e]
    exact him.trans (mul_le_mul_of_nonneg_left (Finset.sum_le_sum fun k _ => (cs _ _).2) g0)
  refine abs_le_of_sq_le_sq' ?_ (by positivity) |>.2
  rw [Complex.sq_norm, Complex.normSq_apply, ← abs_mul_abs_self (z - ∑ k, a k * b k).re,
    ← abs_mul_abs_self (z - ∑ k, a k * b k).im]
  nlinarith [abs_nonneg (z - ∑ k, a k * b k).re, abs_nonneg (z - ∑ k, a k * b k).im, mul_nonneg g0 B0]

/-- The exact scalar product is a run. -/
theorem dotRun_exact {u : ℝ} (hu : 0 ≤ u) {n : ℕ} (a b : Fin n → ℂ) : DotRun u a b (∑ k, a k * b k) := by
  refine ⟨_, _, _, _, fun k => rnd_self hu _, fun k => rnd_self hu _, fun k => rnd_self hu _, fun k => rnd_self hu _, ?_, ?_⟩
  · have e : (∑ k, a k * b k).re = (Finset.univ.val.map (fun k => (a k).re * (b k).re) +
        Finset.univ.val.map (fun k => -((a k).im * (b k).im))).sum := by
      rw [Multiset.sum_add, Complex.re_sum]
      change _ = ∑ k, (a k).re * (b k).re + ∑ k, -((a k).im * (b k).im)
      rw [← Finset.sum_add_distrib]
      refine Finset.sum_congr rfl fun k _ => ?_
      rw [Complex.mul_re]; ring
    rw [e]
    exact sumRun_exact hu _
  · have e : (∑ k, a k * b k).im = (Finset.univ.val.map (fun k => (a k).re * (b k).im) +
        Finset.univ.val.map (fun k => (a k).im * (b k).re)).sum := by
      rw [Multiset.sum_add, Complex.im_sum]
      change _ = ∑ k, (a k).re * (b k).im + ∑ k, (a k).im * (b k).re
      rw [← Finset.sum_add_distrib]
      refine Finset.sum_congr rfl fun k _ => ?_
      rw [Complex.mul_im]
    rw [e]
    exact sumRun_exact hu _

/-- A scalar product of perturbed entries. -/
theorem dot_total {u α β : ℝ} (hu : 0 ≤ u) (hα : 0 ≤ α) {n : ℕ} {a b a' b' : Fin n → ℂ} {z : ℂ}
    (ha : ∀ k, Rnd α (a k) (a' k)) (hb : ∀ k, Rnd β (b k) (b' k)) (h : DotRun u a' b' z) {S : Finset (Fin n)}
    (hS : ∀ k, k ∉ S → a k = 0 ∨ b k = 0) :
    ‖z - ∑ k, a k * b k‖ ≤ (3 / 2 * ((1 + u) ^ (2 * S.card) - 1) * ((1 + α) * (1 + β)) + ((1 + α) * (1 + β) - 1)) *
      ∑ k, ‖a k‖ * ‖b k‖ := by
  have e1 := dot_err hu h (S := S) (fun k hk => (hS k hk).imp (fun h0 => (ha k).eq_zero h0) (fun h0 => (hb k).eq_zero h0))
  have hone : (1 : ℝ) ≤ (1 + u) ^ (2 * S.card) := one_le_pow₀ (by linarith)
  have e2 : ∑ k, ‖a' k‖ * ‖b' k‖ ≤ (1 + α) * (1 + β) * ∑ k, ‖a k‖ * ‖b k‖ := by
    rw [Finset.mul_sum]
    refine Finset.sum_le_sum fun k _ => ?_
    calc ‖a' k‖ * ‖b' k‖ ≤ ((1 + α) * ‖a k‖) * ((1 + β) * ‖b k‖) :=
          mul_le_mul (ha k).norm_le (hb k).norm_le (norm_nonneg _) (by positivity)
      _ = _ := by ring
  have e3 : ‖∑ k, a' k * b' k - ∑ k, a k * b k‖ ≤ ((1 + α) * (1 + β) - 1) * ∑ k, ‖a k‖ * ‖b k‖ := by
    rw [← Finset.sum_sub_distrib, Finset.mul_sum]
    refine (norm_sum_le _ _).trans (Finset.sum_le_sum fun k _ => ?_)
    have e : a' k * b' k - a k * b k = (a' k - a k) * b' k + a k * (b' k - b k) := by ring
    rw [e]
    refine (norm_add_le _ _).trans ?_
    rw [norm_mul, norm_mul]
    have h1 : ‖a' k - a k‖ ≤ α * ‖a k‖ := ha k
    have h2 : ‖b' k - b k‖ ≤ β * ‖b k‖ := hb k
    have h3 := (hb k).norm_le
    have h4 : ‖a' k - a k‖ * ‖b' k‖ ≤ (α * ‖a k‖) * ((1 + β) * ‖b k‖) :=
      mul_le_mul h1 h3 (norm_nonneg _) (by positivity)
    have h5 := mul_le_mul_of_nonneg_left h2 (norm_nonneg (a k))
    nlinarith
  have e4 := norm_sub_le_norm_sub_add_norm_sub z (∑ k, a' k * b' k) (∑ k, a k * b k)
  have e5 := mul_le_mul_of_nonneg_left e2 (show (0 : ℝ) ≤ 3 / 2 * ((1 + u) ^ (2 * S.card) - 1) by linarith)
  nlinarith

/-- A comparison passes when the difference is below `99 / 100` of the absolute tolerance. -/
theorem closeRun_true {u atol rtol : ℝ} (hu' : u ≤ 1 / 1000) (hr : 0 ≤ rtol) {x y : ℂ} {b : Bool}
    (h : CloseRun u atol rtol x y b) (hxy : ‖x - y‖ ≤ 99 / 100 * atol) : b = true := by
  obtain ⟨d, s, hd, hs, hb⟩ := h
  refine hb.2 ?_
  have ha : 0 ≤ atol := by
    have := norm_nonneg (x - y)
    linarith
  have hd' : |d - ‖x - y‖| ≤ 5 * u * |‖x - y‖| := hd
  have hs' : |s - (atol + rtol * ‖y‖)| ≤ 5 * u * |atol + rtol * ‖y‖| := hs
  have hw : 0 ≤ atol + rtol * ‖y‖ := by positivity
  rw [abs_of_nonneg (norm_nonneg _)] at hd'
  rw [abs_of_nonneg hw] at hs'
  have h1 := (abs_le.1 hd').2
  have h2 := (abs_le.1 hs').1
  have h3 : rtol * ‖y‖ ≥ 0 := by positivity
  have h4 : 5 * u * ‖x - y‖ ≤ 5 / 1000 * ‖x - y‖ := mul_le_mul_of_nonneg_right (by linarith) (norm_nonneg _)
  have h5 : 5 * u * (atol + rtol * ‖y‖) ≤ 5 / 1000 * (atol + rtol * ‖y‖) := mul_le_mul_of_nonneg_right (by linarith) hw
  nlinarith

/-- The computed coefficient has a relative error of `4 u`. -/
theorem powRun_rnd {u x y : ℝ} (hu : 0 ≤ u) (hu' : u ≤ 1 / 1000) (h : PowRun u x y) : Rnd (4 * u) x y := by
  obtain ⟨q, p, hq, hp, rfl⟩ := h
  have hq' : |q - x ^ 2| ≤ u * |x ^ 2| := hq
  have hp' : |p - √q| ≤ 2 * u * |√q| := hp
  rw [abs_of_nonneg (Real.sqrt_nonneg q)] at hp'
  have hx2 : |x ^ 2| = |x| ^ 2 := by rw [abs_pow]
  rw [hx2] at hq'
  have hxs : x ^ 2 = |x| ^ 2 := (sq_abs x).symm
  rw [hxs] at hq'
  set w := |x| with hw
  have w0 : 0 ≤ w := abs_nonneg x
  have hq0 : 0 ≤ q := by
    have := (abs_le.1 hq').1
    nlinarith [sq_nonneg w]
  have s1 : |√q - w| ≤ u * w := by
    have h1 : (√q - w) * (√q + w) = q - w ^ 2 := by
      have := Real.mul_self_sqrt hq0
      nlinarith
    rcases eq_or_lt_of_le w0 with h0 | h0
    · have : q = 0 := by
        rw [← h0] at hq'
        have := (abs_le.1 hq').2
        nlinarith
      rw [this, ← h0]; simp
    · have h2 : |√q - w| * (√q + w) ≤ u * w ^ 2 := by
        rw [← abs_of_nonneg (show 0 ≤ √q + w by positivity), ← abs_mul, h1]
        exact hq'
      have h3 : |√q - w| * w ≤ |√q - w| * (√q + w) :=
        mul_le_mul_of_nonneg_left (by have := Real.sqrt_nonneg q; linarith) (abs_nonneg _)
      have h4 : |√q - w| * w ≤ (u * w) * w := by nlinarith
      exact le_of_mul_le_mul_right h4 h0
  have s2 : √q ≤ (1 + u) * w := by
    have := (abs_le.1 s1).2
    linarith
  have s3 : |p - w| ≤ 4 * u * w := by
    have := abs_sub_le p (√q) w
    have : 2 * u * √q ≤ 2 * u * ((1 + u) * w) := mul_le_mul_of_nonneg_left s2 (by linarith)
    nlinarith [mul_nonneg hu w0]
  unfold Rnd
  rw [Real.norm_eq_abs, Real.norm_eq_abs, ← hw]
  split_ifs with hx
  · rw [hw, abs_of_pos hx] at s3
    rw [hw, abs_of_pos hx]
    exact s3
  · have hxw : w = -x := abs_of_nonpos (not_lt.1 hx)
    have : -p - x = -(p - w) := by rw [hxw]; ring
    rw [this, abs_neg]
    exact s3

end LieNN

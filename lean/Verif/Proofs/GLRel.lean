import Mathlib.Algebra.Lie.Basic
import Mathlib.Data.Complex.Basic
import Mathlib.Tactic.Ring
import Mathlib.Tactic.Linarith
import Mathlib.Tactic.Module
import Mathlib.Tactic.Abel
/-!
# From the simple root vectors to all matrix units

Elements `e_i`, `f_i`, `D_i` that satisfy the relations of the simple root vectors and of the diagonal
of the general linear Lie algebra: the nested commutators then satisfy the relations of the matrix
units.
-/
namespace LieNN.GL

variable {L : Type} [LieRing L] [LieAlgebra ℂ L]

/-- The relations. -/
structure Gen (N : ℕ) (e f D : ℕ → L) (σ : L →ₗ[ℂ] L) : Prop where
  De : ∀ i j, i < N → j + 1 < N →
    ⁅D i, e j⁆ = ((if i = j then 1 else 0) - (if i = j + 1 then 1 else 0) : ℂ) • e j
  DD : ∀ i j, i < N → j < N → ⁅D i, D j⁆ = 0
  ef : ∀ i j, i + 1 < N → j + 1 < N → ⁅e i, f j⁆ = if i = j then D i - D (i + 1) else 0
  s1 : ∀ i j, i + 1 < j → j + 1 < N → ⁅e i, e j⁆ = 0
  s2 : ∀ i, i + 2 < N → ⁅e i, ⁅e i, e (i + 1)⁆⁆ = 0
  s3 : ∀ i, i + 2 < N → ⁅e (i + 1), ⁅e i, e (i + 1)⁆⁆ = 0
  anti : ∀ x y, σ ⁅x, y⁆ = ⁅σ y, σ x⁆
  σe : ∀ i, i + 1 < N → σ (e i) = f i
  σf : ∀ i, i + 1 < N → σ (f i) = e i
  σD : ∀ i, i < N → σ (D i) = D i

/-- The nested commutators of the `e`. -/
def up (e : ℕ → L) : ℕ → ℕ → L
  | 0, k => e k
  | d + 1, k => ⁅e k, up e d (k + 1)⁆

/-- The nested commutators of the `f`. -/
def dn (f : ℕ → L) : ℕ → ℕ → L
  | 0, l => f l
  | d + 1, l => ⁅f (l + d + 1), dn f d l⁆

/-- All the elements. -/
def G (e f D : ℕ → L) (k l : ℕ) : L :=
  if k < l then up e (l - k - 1) k else if l < k then dn f (k - l - 1) l else D k

variable {N : ℕ} {e f D : ℕ → L} {σ : L →ₗ[ℂ] L}

omit [LieAlgebra ℂ L] in
theorem jac (x y z : L) : ⁅x, ⁅y, z⁆⁆ = ⁅⁅x, y⁆, z⁆ + ⁅y, ⁅x, z⁆⁆ := leibniz_lie x y z

theorem Gen.up_low (g : Gen N e f D σ) : ∀ d k i, i + 1 < k → k + d + 1 < N → ⁅e i, up e d k⁆ = 0 := by
  intro d
  induction d with
  | zero => intro k i h1 h2; exact g.s1 i k h1 h2
  | succ d ih =>
    intro k i h1 h2
    rw [up, jac, g.s1 i k h1 (by omega), ih (k + 1) i (by omega) (by omega)]
    simp

theorem Gen.up_high (g : Gen N e f D σ) : ∀ d k i, k + d + 1 < i → i + 1 < N → ⁅e i, up e d k⁆ = 0 := by
  intro d
  induction d with
  | zero =>
    intro k i h1 h2
    rw [up, ← lie_skew, g.s1 k i h1 h2, neg_zero]
  | succ d ih =>
    intro k i h1 h2
    rw [up, jac, ih (k + 1) i (by omega) (by omega), ← lie_skew (e i) (e k),
      g.s1 k i (by omega) (by omega)]
    simp

theorem Gen.up_right (g : Gen N e f D σ) : ∀ d k, k + d + 2 < N →
    ⁅up e d k, e (k + d + 1)⁆ = up e (d + 1) k := by
  intro d
  induction d with
  | zero => intro k h; rfl
  | succ d ih =>
    intro k h
    have h1 := ih (k + 1) (by omega)
    rw [show k + 1 + d + 1 = k + (d + 1) + 1 by omega] at h1
    rw [up, lie_lie, h1, g.s1 k _ (by omega) (by omega)]
    simp [up]

theorem eq_zero_of_neg {x : L} (h : x = -x) : x = 0 := by
  have h2 : (2 : ℂ) • x = 0 := by
    rw [two_smul]
    nth_rewrite 1 [h]
    simp
  exact (smul_eq_zero.1 h2).resolve_left (by norm_num)

theorem Gen.up_in (g : Gen N e f D σ) : ∀ d k i, k ≤ i → i ≤ k + d → k + d + 1 < N →
    ⁅e i, up e d k⁆ = 0 := by
  intro d
  induction d with
  | zero =>
    intro k i h1 h2 _
    have : i = k := by omega
    subst this
    exact lie_self _
  | succ d ih =>
    intro k i h1 h2 h3
    have hfirst : ⁅e k, up e (d + 1) k⁆ = 0 := by
      cases d with
      | zero => exact g.s2 k (by omega)
      | succ d =>
        have hz : ⁅e k, up e d (k + 1 + 1)⁆ = 0 := g.up_low d (k + 1 + 1) k (by omega) (by omega)
        rw [up, up, jac (e k) (e (k + 1)), hz, lie_zero, add_zero, jac, g.s2 k (by omega), hz]
        simp
    rcases Nat.eq_or_lt_of_le h1 with rfl | h1
    · exact hfirst
    rcases Nat.eq_or_lt_of_le (show k + 1 ≤ i from h1) with rfl | h1
    · cases d with
      | zero => exact g.s3 k (by omega)
      | succ d =>
        have hw : ⁅e (k + 1), up e (d + 1) (k + 1)⁆ = 0 := ih (k + 1) (k + 1) le_rfl (by omega) (by omega)
        have hb : ⁅e (k + 1), ⁅e k, e (k + 1)⁆⁆ = 0 := g.s3 k (by omega)
        have hz : ⁅e k, up e d (k + 1 + 1)⁆ = 0 := g.up_low d (k + 1 + 1) k (by omega) (by omega)
        apply eq_zero_of_neg
        -- `E = [[A, B], Z]`
        have hE : up e (d + 1 + 1) k = ⁅⁅e k, e (k + 1)⁆, up e d (k + 1 + 1)⁆ := by
          rw [up, up, jac, hz, lie_zero, add_zero]
        have h4 : ⁅e (k + 1), up e (d + 1 + 1) k⁆ = ⁅⁅e k, e (k + 1)⁆, up e (d + 1) (k + 1)⁆ := by
          rw [hE, jac, hb, zero_lie, zero_add]
          rfl
        have h5 : ⁅⁅e k, e (k + 1)⁆, up e (d + 1) (k + 1)⁆ = -⁅e (k + 1), up e (d + 1 + 1) k⁆ := by
          rw [lie_lie, hw, lie_zero, zero_sub]
          rfl
        exact h4.trans h5
    · rw [up, jac, ih (k + 1) i (by omega) (by omega) (by omega), ← lie_skew (e i) (e k),
        g.s1 k i (by omega) (by omega)]
      simp

theorem Gen.Df (g : Gen N e f D σ) (i j : ℕ) (hi : i < N) (hj : j + 1 < N) :
    ⁅D i, f j⁆ = (-((if i = j then 1 else 0) - (if i = j + 1 then 1 else 0)) : ℂ) • f j := by
  have h := congrArg σ (g.De i j hi hj)
  rw [g.anti, g.σe j hj, g.σD i hi, map_smul, g.σe j hj] at h
  rw [← lie_skew, h, neg_smul]

theorem Gen.D_up (g : Gen N e f D σ) : ∀ d k i, i < N → k + d + 1 < N →
    ⁅D i, up e d k⁆ = ((if i = k then 1 else 0) - (if i = k + d + 1 then 1 else 0) : ℂ) • up e d k := by
  intro d
  induction d with
  | zero => intro k i hi hk; exact g.De i k hi hk
  | succ d ih =>
    intro k i hi hk
    rw [up, jac, g.De i k hi (by omega), ih (k + 1) i hi (by omega), smul_lie, lie_smul, ← add_smul]
    congr 1
    rw [show k + 1 + d + 1 = k + (d + 1) + 1 by omega]
    ring

theorem Gen.D_dn (g : Gen N e f D σ) : ∀ d l i, i < N → l + d + 1 < N →
    ⁅D i, dn f d l⁆ = ((if i = l + d + 1 then 1 else 0) - (if i = l then 1 else 0) : ℂ) • dn f d l := by
  intro d
  induction d with
  | zero =>
    intro l i hi hl
    rw [dn, g.Df i l hi hl]
    congr 1
    simp
  | succ d ih =>
    intro l i hi hl
    rw [dn, jac, g.Df i _ hi (by omega), ih l i hi (by omega), smul_lie, lie_smul, ← add_smul]
    congr 1
    rw [show l + d + 1 + 1 = l + (d + 1) + 1 by omega]
    ring

theorem Gen.f1 (g : Gen N e f D σ) (i j : ℕ) (h1 : i + 1 < j) (h2 : j + 1 < N) : ⁅f j, f i⁆ = 0 := by
  have h := congrArg σ (g.s1 i j h1 h2)
  rwa [g.anti, g.σe i (by omega), g.σe j h2, map_zero] at h

theorem Gen.dn_far (g : Gen N e f D σ) : ∀ d l j, l + d + 1 < j → j + 1 < N → ⁅f j, dn f d l⁆ = 0 := by
  intro d
  induction d with
  | zero => intro l j h1 h2; exact g.f1 l j h1 h2
  | succ d ih =>
    intro l j h1 h2
    rw [dn, jac, g.f1 _ j (by omega) h2, ih l j (by omega) h2]
    simp

theorem Gen.e_dn (g : Gen N e f D σ) : ∀ d l i, i + 1 < N → l + d + 1 < N →
    ⁅e i, dn f d l⁆ = (if i = l + d then (if d = 0 then D i else dn f (d - 1) l) else 0) -
      (if i = l then (if d = 0 then D (i + 1) else dn f (d - 1) (l + 1)) else 0) := by
  intro d
  induction d with
  | zero =>
    intro l i hi hl
    rw [dn, g.ef i l hi (by omega)]
    by_cases h : i = l <;> simp [h]
  | succ d ih =>
    intro l i hi hl
    rw [dn, jac, g.ef i _ hi (by omega), ih l i hi (by omega)]
    by_cases h1 : i = l + d + 1
    · subst h1
      rw [if_pos rfl, if_neg (by omega), if_neg (by omega), sub_lie, g.D_dn d l _ (by omega) (by omega),
        g.D_dn d l _ (by omega) (by omega)]
      have : ¬ l + d + 1 = l := by omega
      have : ¬ l + d + 1 + 1 = l := by omega
      have h0 : l + d + 1 = l + (d + 1) := by omega
      simp [*]
      omega
    · rw [if_neg h1, zero_lie, zero_add, if_neg (show ¬ i = l + (d + 1) by omega)]
      by_cases h2 : i = l
      · subst h2
        cases d with
        | zero =>
          simp only [add_zero, if_true]
          rw [lie_sub, ← lie_skew _ (D i), ← lie_skew _ (D (i + 1)), g.Df i _ (by omega) (by omega),
            g.Df (i + 1) _ (by omega) (by omega)]
          have : ¬ i = i + 1 + 1 := by omega
          simp [dn, this]
        | succ d =>
          rw [if_neg (by omega), if_pos rfl]
          simp only [zero_sub, lie_neg, if_true, Nat.add_sub_cancel]
          rw [if_neg (by omega), if_neg (by omega)]
          rw [dn, show i + 1 + d + 1 = i + (d + 1) + 1 by omega]
      · rw [if_neg h2, if_neg h2, sub_zero, sub_zero]
        by_cases h3 : i = l + d
        · rw [if_pos h3, if_neg (by omega)]
          cases d with
          | zero => omega
          | succ d => exact g.dn_far d l _ (by omega) (by omega)
        · rw [if_neg h3, lie_zero]

omit [LieAlgebra ℂ L] in
theorem G_up {k l : ℕ} (h : k < l) : G e f D k l = up e (l - k - 1) k := if_pos h

omit [LieAlgebra ℂ L] in
theorem G_dn {k l : ℕ} (h : l < k) : G e f D k l = dn f (k - l - 1) l := by
  unfold G
  rw [if_neg (by omega), if_pos h]

omit [LieAlgebra ℂ L] in
theorem G_diag (k : ℕ) : G e f D k k = D k := by
  unfold G
  rw [if_neg (by omega), if_neg (by omega)]

/-- The relation of a matrix unit with all of them. -/
def Rel (N : ℕ) (e f D : ℕ → L) (i j : ℕ) : Prop := ∀ k l, k < N → l < N →
  ⁅G e f D i j, G e f D k l⁆ = (if j = k then G e f D i l else 0) - (if l = i then G e f D k j else 0)

theorem Gen.rel_e (g : Gen N e f D σ) (i : ℕ) (hi : i + 1 < N) : Rel N e f D i (i + 1) := by
  intro k l hk hl
  have hG : G e f D i (i + 1) = e i := by
    rw [G_up (by omega), show i + 1 - i - 1 = 0 by omega]
    rfl
  rw [hG]
  rcases lt_trichotomy k l with h | h | h
  · -- `k < l`
    rw [G_up h]
    by_cases h1 : i + 1 = k
    · subst h1
      rw [if_pos rfl, if_neg (by omega), sub_zero, G_up (by omega),
        show l - i - 1 = (l - (i + 1) - 1) + 1 by omega]
      rfl
    rw [if_neg h1, zero_sub]
    by_cases h2 : l = i
    · subst h2
      rw [if_pos rfl, G_up (by omega), ← lie_skew]
      have := g.up_right (l - k - 1) k (by omega)
      rw [show k + (l - k - 1) + 1 = l by omega] at this
      rw [this, show l + 1 - k - 1 = l - k - 1 + 1 by omega]
    rw [if_neg h2, neg_zero]
    by_cases h3 : i + 1 < k
    · exact g.up_low _ _ _ h3 (by omega)
    by_cases h4 : l < i
    · exact g.up_high _ _ _ (by omega) (by omega)
    exact g.up_in _ _ _ (by omega) (by omega) (by omega)
  · subst h
    rw [G_diag, ← lie_skew, g.De k i hk hi]
    by_cases h1 : i + 1 = k
    · subst h1
      simp [hG]
    · rw [if_neg h1, if_neg (show ¬ k = i + 1 by omega)]
      by_cases h2 : k = i
      · subst h2
        simp [hG]
      · simp [h2]
  · rw [G_dn h, g.e_dn _ _ _ hi (by omega)]
    congr 1
    · by_cases h1 : i + 1 = k
      · subst h1
        rw [if_pos rfl, if_pos (by omega)]
        by_cases h2 : l = i
        · subst h2
          rw [if_pos (by omega), G_diag]
        · rw [if_neg (by omega), G_dn (by omega)]
          congr 1
          omega
      · rw [if_neg (by omega), if_neg h1]
    · by_cases h1 : l = i
      · subst h1
        rw [if_pos rfl, if_pos rfl]
        by_cases h2 : k = l + 1
        · subst h2
          rw [if_pos (by omega), G_diag]
        · rw [if_neg (by omega), G_dn (by omega)]
          congr 1
      · rw [if_neg (by omega), if_neg h1]

theorem Gen.rel_D (g : Gen N e f D σ) (i : ℕ) (hi : i < N) : Rel N e f D i i := by
  intro k l hk hl
  rw [G_diag]
  have key : ⁅D i, G e f D k l⁆ = ((if i = k then 1 else 0) - (if l = i then 1 else 0) : ℂ) • G e f D k l := by
    rcases lt_trichotomy k l with h | h | h
    · rw [G_up h, g.D_up _ _ _ hi (by omega), show k + (l - k - 1) + 1 = l by omega]
      simp only [eq_comm (a := i) (b := l)]
    · subst h
      rw [G_diag, g.DD i k hi hk]
      simp [eq_comm (a := i) (b := k)]
    · rw [G_dn h, g.D_dn _ _ _ hi (by omega), show l + (k - l - 1) + 1 = k by omega]
      simp only [eq_comm (a := i) (b := l)]
  rw [key, sub_smul]
  congr 1
  · by_cases h : i = k
    · subst h; simp
    · simp [h]
  · by_cases h : l = i
    · subst h; simp
    · simp [h]

theorem Gen.σ_up (g : Gen N e f D σ) : ∀ d k, k + d + 1 < N → σ (up e d k) = dn f d k := by
  intro d
  induction d with
  | zero => intro k h; exact g.σe k h
  | succ d ih =>
    intro k h
    rw [← g.up_right d k (by omega), g.anti, ih k (by omega), g.σe _ (by omega)]
    rfl

theorem Gen.σσ (g : Gen N e f D σ) : ∀ d k, k + d + 1 < N → σ (dn f d k) = up e d k := by
  intro d
  induction d with
  | zero => intro k h; exact g.σf k h
  | succ d ih =>
    intro k h
    rw [dn, g.anti, ih k (by omega), g.σf _ (by omega), g.up_right d k (by omega)]

theorem Gen.σG (g : Gen N e f D σ) (k l : ℕ) (hk : k < N) (hl : l < N) : σ (G e f D k l) = G e f D l k := by
  rcases lt_trichotomy k l with h | h | h
  · rw [G_up h, G_dn h, g.σ_up _ _ (by omega)]
  · subst h
    rw [G_diag, g.σD k hk]
  · rw [G_dn h, G_up h, g.σσ _ _ (by omega)]

theorem Gen.rel_symm (g : Gen N e f D σ) {i j : ℕ} (hi : i < N) (hj : j < N) (h : Rel N e f D i j) :
    Rel N e f D j i := by
  intro k l hk hl
  have h1 := congrArg σ (h l k hl hk)
  rw [g.anti, g.σG _ _ hl hk, g.σG _ _ hi hj, map_sub] at h1
  rw [← lie_skew, h1, neg_sub]
  congr 1
  · by_cases e1 : k = i
    · rw [if_pos e1, if_pos e1.symm, g.σG _ _ hl hj]
    · rw [if_neg e1, if_neg (Ne.symm e1), map_zero]
  · by_cases e1 : j = l
    · rw [if_pos e1, if_pos e1.symm, g.σG _ _ hi hk]
    · rw [if_neg e1, if_neg (Ne.symm e1), map_zero]

omit [LieAlgebra ℂ L] in
theorem Gen.rel_trans {i j m : ℕ} (hi : i < N) (hj : j < N) (hm : m < N) (him : i ≠ m)
    (h1 : Rel N e f D i j) (h2 : Rel N e f D j m) : Rel N e f D i m := by
  intro k l hk hl
  have hG : G e f D i m = ⁅G e f D i j, G e f D j m⁆ := by
    rw [h1 j m hj hm, if_pos rfl, if_neg (Ne.symm him), sub_zero]
  have a1 : ⁅G e f D i j, if m = k then G e f D j l else 0⁆ =
      if m = k then G e f D i l - (if l = i then G e f D j j else 0) else 0 := by
    by_cases c : m = k
    · rw [if_pos c, if_pos c, h1 j l hj hl, if_pos rfl]
    · rw [if_neg c, if_neg c, lie_zero]
  have a2 : ⁅G e f D i j, if l = j then G e f D k m else 0⁆ =
      if l = j then (if j = k then G e f D i m else 0) else 0 := by
    by_cases c : l = j
    · rw [if_pos c, if_pos c, h1 k m hk hm, if_neg (Ne.symm him), sub_zero]
    · rw [if_neg c, if_neg c, lie_zero]
  have a3 : ⁅G e f D j m, if j = k then G e f D i l else 0⁆ =
      if j = k then -(if l = j then G e f D i m else 0) else 0 := by
    by_cases c : j = k
    · rw [if_pos c, if_pos c, h2 i l hi hl, if_neg (Ne.symm him), zero_sub]
    · rw [if_neg c, if_neg c, lie_zero]
  have a4 : ⁅G e f D j m, if l = i then G e f D k j else 0⁆ =
      if l = i then (if m = k then G e f D j j else 0) - G e f D k m else 0 := by
    by_cases c : l = i
    · rw [if_pos c, if_pos c, h2 k j hk hj, if_pos rfl]
    · rw [if_neg c, if_neg c, lie_zero]
  rw [hG, lie_lie, h1 k l hk hl, h2 k l hk hl, lie_sub, lie_sub, a1, a2, a3, a4]
  split_ifs <;> abel

/-- The elements satisfy the relations of the matrix units. -/
theorem Gen.rel (g : Gen N e f D σ) (i j : ℕ) (hi : i < N) (hj : j < N) : Rel N e f D i j := by
  have hup : ∀ d k, k + d + 1 < N → Rel N e f D k (k + d + 1) := by
    intro d
    induction d with
    | zero => intro k hk; exact g.rel_e k hk
    | succ d ih =>
      intro k hk
      have := ih (k + 1) (by omega)
      rw [show k + 1 + d + 1 = k + (d + 1) + 1 by omega] at this
      exact Gen.rel_trans (by omega) (by omega) (by omega) (by omega) (g.rel_e k (by omega)) this
  rcases lt_trichotomy i j with h | h | h
  · have := hup (j - i - 1) i (by omega)
    rwa [show i + (j - i - 1) + 1 = j by omega] at this
  · subst h
    exact g.rel_D i hi
  · have := hup (i - j - 1) j (by omega)
    rw [show j + (i - j - 1) + 1 = i by omega] at this
    exact g.rel_symm hj hi this

end LieNN.GL

import Mathlib.LinearAlgebra.Matrix.ToLin
import Mathlib.LinearAlgebra.Matrix.ConjTranspose
import Mathlib.Data.Complex.Basic
import Mathlib.Data.Complex.BigOperators
import Mathlib.LinearAlgebra.Matrix.DotProduct
import Mathlib.LinearAlgebra.Dual.Lemmas
import Mathlib.Tactic.Module
import Mathlib.Tactic.NoncommRing
/-!
# Highest weight theory for raising operators, their adjoints and weights
-/
namespace LieNN.Ladder

set_option linter.unusedSectionVars false

open Matrix Finset

variable {ι κ : Type} [Fintype ι] [DecidableEq ι] [Fintype κ] [DecidableEq κ]

/-- Raising operators `P l`, `l < r`, with their adjoints and weights. -/
structure Sys (r : ℕ) (c : ℕ → ℕ → ℝ) (P Z : ℕ → Matrix ι ι ℂ) (ht : ι → ℤ) : Prop where
  comm : ∀ l m, l < r → m < r → P l * (P m)ᴴ - (P m)ᴴ * P l = if l = m then (2 : ℂ) • Z l else 0
  ZP : ∀ i l, i < r → l < r → Z i * P l - P l * Z i = (c i l : ℂ) • P l
  Zh : ∀ i, i < r → (Z i)ᴴ = Z i
  up : ∀ l, l < r → ∀ a b, P l a b ≠ 0 → ht a = ht b + 1

variable {r : ℕ} {c : ℕ → ℕ → ℝ} {P Z : ℕ → Matrix ι ι ℂ} {ht : ι → ℤ}
variable {P' Z' : ℕ → Matrix κ κ ℂ} {ht' : κ → ℤ}

/-- Killed by all raising operators. -/
def Killed (r : ℕ) (P : ℕ → Matrix ι ι ℂ) (x : ι → ℂ) : Prop := ∀ l, l < r → P l *ᵥ x = 0

theorem exists_killed (s : Sys r c P Z ht) (U : Submodule ℂ (ι → ℂ))
    (hU : ∀ l, l < r → ∀ x ∈ U, P l *ᵥ x ∈ U) {w : ι → ℂ} (hw : w ∈ U) (hw0 : w ≠ 0) :
    ∃ u ∈ U, u ≠ 0 ∧ Killed r P u := by
  obtain ⟨H, hH⟩ : ∃ H : ℤ, ∀ a, ht a ≤ H := by
    obtain ⟨H, hH⟩ := (Set.finite_range ht).bddAbove
    exact ⟨H, fun a => hH ⟨a, rfl⟩⟩
  have key : ∀ n : ℕ, ∀ w ∈ U, w ≠ 0 → (∀ a, w a ≠ 0 → H - n ≤ ht a) → ∃ u ∈ U, u ≠ 0 ∧ Killed r P u := by
    intro n
    induction n with
    | zero =>
      intro w hw hw0 hs
      refine ⟨w, hw, hw0, fun l hl => ?_⟩
      funext a
      rw [mulVec, dotProduct]
      refine sum_eq_zero fun b _ => ?_
      by_contra hne
      have h1 := s.up l hl a b (left_ne_zero_of_mul hne)
      have h2 := hs b (right_ne_zero_of_mul hne)
      have := hH a
      push_cast at h2
      omega
    | succ n ih =>
      intro w hw hw0 hs
      by_cases hk : Killed r P w
      · exact ⟨w, hw, hw0, hk⟩
      · unfold Killed at hk
        push Not at hk
        obtain ⟨l, hl, hne⟩ := hk
        refine ih _ (hU l hl w hw) hne fun a ha => ?_
        rw [mulVec, dotProduct] at ha
        obtain ⟨b, _, hb⟩ := exists_ne_zero_of_sum_ne_zero ha
        have h1 := s.up l hl a b (left_ne_zero_of_mul hb)
        have h2 := hs b (right_ne_zero_of_mul hb)
        push_cast at h2
        omega
  obtain ⟨h, hh⟩ : ∃ h : ℤ, ∀ a, h ≤ ht a := by
    obtain ⟨h, hh⟩ := (Set.finite_range ht).bddBelow
    exact ⟨h, fun a => hh ⟨a, rfl⟩⟩
  refine key (H - h).toNat w hw hw0 fun a _ => ?_
  have := hh a
  have := hH a
  omega

/-- The only vectors that are killed are the multiples of one coordinate vector. -/
structure Top (r : ℕ) (P : ℕ → Matrix ι ι ℂ) (top : ι) : Prop where
  killed : Killed r P (Pi.single top 1)
  only : ∀ x, Killed r P x → ∃ a : ℂ, x = a • Pi.single top 1

theorem adj_dot (A : Matrix ι κ ℂ) (x : ι → ℂ) (y : κ → ℂ) :
    star x ⬝ᵥ (A *ᵥ y) = star (Aᴴ *ᵥ x) ⬝ᵥ y := by
  rw [star_mulVec, conjTranspose_conjTranspose, dotProduct_mulVec]

theorem cyclic (s : Sys r c P Z ht) {top : ι} (t : Top r P top) (U : Submodule ℂ (ι → ℂ))
    (hP : ∀ l, l < r → ∀ x ∈ U, P l *ᵥ x ∈ U) (hM : ∀ l, l < r → ∀ x ∈ U, (P l)ᴴ *ᵥ x ∈ U)
    (ht : Pi.single top 1 ∈ U) : U = ⊤ := by
  by_contra hne
  obtain ⟨f, hf, hUf⟩ := Submodule.exists_le_ker_of_lt_top U (lt_top_iff_ne_top.2 hne)
  let y : ι → ℂ := fun i => star (f (Pi.single i 1))
  have hfy : ∀ x, f x = star y ⬝ᵥ x := by
    intro x
    rw [LinearMap.pi_apply_eq_sum_univ f x, dotProduct]
    refine sum_congr rfl fun i _ => ?_
    simp only [y, Pi.star_apply, star_star, smul_eq_mul, mul_comm]
    congr 2
    funext j
    simp [Pi.single_apply, eq_comm]
  let V : Submodule ℂ (ι → ℂ) :=
    { carrier := {x | ∀ u ∈ U, star x ⬝ᵥ u = 0}
      add_mem' := fun {a b} ha hb u hu => by rw [star_add, add_dotProduct, ha u hu, hb u hu, add_zero]
      zero_mem' := fun u _ => by simp
      smul_mem' := fun a x hx u hu => by rw [star_smul, smul_dotProduct, hx u hu, smul_zero] }
  have hyV : y ∈ V := fun u hu => by
    rw [← hfy]
    exact hUf hu
  have hy0 : y ≠ 0 := by
    intro h0
    refine hf (LinearMap.ext fun x => ?_)
    rw [hfy, h0]
    simp
  obtain ⟨u, huV, hu0, hk⟩ := exists_killed s V (fun l hl x hx u hu => by
    have := hx _ (hM l hl u hu)
    rw [adj_dot, conjTranspose_conjTranspose] at this
    exact this) hyV hy0
  obtain ⟨a, rfl⟩ := t.only u hk
  have := huV _ ht
  rw [star_smul, smul_dotProduct] at this
  have h1 : star (Pi.single top (1 : ℂ)) ⬝ᵥ (Pi.single top (1 : ℂ) : ι → ℂ) = 1 := by
    simp
  rw [h1, smul_eq_mul, mul_one] at this
  apply hu0
  rw [star_eq_zero.1 this, zero_smul]

/-- A matrix that commutes with everything is a multiple of the identity. -/
theorem commutant (s : Sys r c P Z ht) {top : ι} (t : Top r P top) (T : Matrix ι ι ℂ)
    (hP : ∀ l, l < r → T * P l = P l * T) (hM : ∀ l, l < r → T * (P l)ᴴ = (P l)ᴴ * T) :
    ∃ a : ℂ, T = a • (1 : Matrix ι ι ℂ) := by
  obtain ⟨a, ha⟩ := t.only (T *ᵥ Pi.single top 1) fun l hl => by
    rw [mulVec_mulVec, ← hP l hl, ← mulVec_mulVec, t.killed l hl, mulVec_zero]
  refine ⟨a, ?_⟩
  have := cyclic s t (LinearMap.ker (Matrix.mulVecLin (T - a • 1)))
    (fun l hl x hx => by
      rw [LinearMap.mem_ker, mulVecLin_apply] at hx ⊢
      rw [mulVec_mulVec, sub_mul, hP l hl, smul_mul_assoc, one_mul]
      have : P l * T - a • P l = P l * (T - a • 1) := by rw [mul_sub, mul_smul_comm, mul_one]
      rw [this, ← mulVec_mulVec, hx, mulVec_zero])
    (fun l hl x hx => by
      rw [LinearMap.mem_ker, mulVecLin_apply] at hx ⊢
      rw [mulVec_mulVec, sub_mul, hM l hl, smul_mul_assoc, one_mul]
      have : (P l)ᴴ * T - a • (P l)ᴴ = (P l)ᴴ * (T - a • 1) := by rw [mul_sub, mul_smul_comm, mul_one]
      rw [this, ← mulVec_mulVec, hx, mulVec_zero])
    (by
      rw [LinearMap.mem_ker, mulVecLin_apply, sub_mulVec, ha, smul_mulVec, one_mulVec, sub_self])
  rw [LinearMap.ker_eq_top] at this
  have h0 : T - a • 1 = 0 := by
    rw [← Matrix.toLin'_apply'] at this
    exact (map_eq_zero_iff _ (Matrix.toLin' (R := ℂ)).injective).1 this
  exact sub_eq_zero.1 h0

/-- An intertwiner is determined by the image of the highest vector. -/
theorem intertwiner_unique (s : Sys r c P Z ht) {top : ι} (t : Top r P top) (T : Matrix κ ι ℂ)
    (hP : ∀ l, l < r → T * P l = P' l * T) (hM : ∀ l, l < r → T * (P l)ᴴ = (P' l)ᴴ * T)
    (h0 : T *ᵥ Pi.single top 1 = 0) : T = 0 := by
  have := cyclic s t (LinearMap.ker (Matrix.mulVecLin T))
    (fun l hl x hx => by
      rw [LinearMap.mem_ker, mulVecLin_apply] at hx ⊢
      rw [mulVec_mulVec, hP l hl, ← mulVec_mulVec, hx, mulVec_zero])
    (fun l hl x hx => by
      rw [LinearMap.mem_ker, mulVecLin_apply] at hx ⊢
      rw [mulVec_mulVec, hM l hl, ← mulVec_mulVec, hx, mulVec_zero])
    (by rw [LinearMap.mem_ker, mulVecLin_apply, h0])
  rw [LinearMap.ker_eq_top, ← Matrix.toLin'_apply'] at this
  exact (map_eq_zero_iff _ (Matrix.toLin' (R := ℂ)).injective).1 this

/-! ## Existence of intertwiners -/

theorem ZM (s : Sys r c P Z ht) {i l : ℕ} (hi : i < r) (hl : l < r) :
    Z i * (P l)ᴴ - (P l)ᴴ * Z i = -((c i l : ℂ) • (P l)ᴴ) := by
  have := congrArg conjTranspose (s.ZP i l hi hl)
  rw [conjTranspose_sub, conjTranspose_mul, conjTranspose_mul, conjTranspose_smul, s.Zh i hi] at this
  have e : star ((c i l : ℝ) : ℂ) = ((c i l : ℝ) : ℂ) := Complex.conj_ofReal _
  rw [e] at this
  rw [← this, neg_sub]

/-- The vectors obtained from one by lowering. -/
inductive Word (r : ℕ) (P : ℕ → Matrix ι ι ℂ) (P' : ℕ → Matrix κ κ ℂ) (u₀ : (ι → ℂ) × (κ → ℂ)) :
    (ι → ℂ) × (κ → ℂ) → Prop
  | base : Word r P P' u₀ u₀
  | step (l : ℕ) (hl : l < r) (x : (ι → ℂ) × (κ → ℂ)) (hx : Word r P P' u₀ x) :
      Word r P P' u₀ ((P l)ᴴ *ᵥ x.1, (P' l)ᴴ *ᵥ x.2)

/-- The span of these vectors. -/
def cyc (r : ℕ) (P : ℕ → Matrix ι ι ℂ) (P' : ℕ → Matrix κ κ ℂ) (u₀ : (ι → ℂ) × (κ → ℂ)) :
    Submodule ℂ ((ι → ℂ) × (κ → ℂ)) := Submodule.span ℂ {x | Word r P P' u₀ x}

/-- Both actions at once. -/
def act (A : Matrix ι ι ℂ) (B : Matrix κ κ ℂ) : ((ι → ℂ) × (κ → ℂ)) →ₗ[ℂ] ((ι → ℂ) × (κ → ℂ)) :=
  A.mulVecLin.prodMap B.mulVecLin

theorem act_apply (A : Matrix ι ι ℂ) (B : Matrix κ κ ℂ) (x : (ι → ℂ) × (κ → ℂ)) :
    act A B x = (A *ᵥ x.1, B *ᵥ x.2) := rfl

theorem cyc_lower {u₀ : (ι → ℂ) × (κ → ℂ)} {l : ℕ} (hl : l < r) {x : (ι → ℂ) × (κ → ℂ)}
    (hx : x ∈ cyc r P P' u₀) : act (P l)ᴴ (P' l)ᴴ x ∈ cyc r P P' u₀ := by
  have h : cyc r P P' u₀ ≤ (cyc r P P' u₀).comap (act (P l)ᴴ (P' l)ᴴ) := by
    refine Submodule.span_le.2 fun y hy => ?_
    exact Submodule.subset_span (Word.step l hl y hy)
  exact h hx

theorem word_weight (s : Sys r c P Z ht) (s' : Sys r c P' Z' ht') {u₀ : (ι → ℂ) × (κ → ℂ)}
    (hz : ∀ i, i < r → ∃ a : ℂ, act (Z i) (Z' i) u₀ = a • u₀) {x : (ι → ℂ) × (κ → ℂ)}
    (hx : Word r P P' u₀ x) : ∀ i, i < r → ∃ a : ℂ, act (Z i) (Z' i) x = a • x := by
  induction hx with
  | base => exact hz
  | step l hl x hx ih =>
    intro i hi
    obtain ⟨a, ha⟩ := ih i hi
    have h1 : Z i *ᵥ x.1 = a • x.1 := congrArg Prod.fst ha
    have h2 : Z' i *ᵥ x.2 = a • x.2 := congrArg Prod.snd ha
    refine ⟨a - c i l, ?_⟩
    have e1 : Z i * (P l)ᴴ = (P l)ᴴ * Z i - (c i l : ℂ) • (P l)ᴴ := by
      rw [sub_eq_add_neg, ← ZM s hi hl]; abel
    have e2 : Z' i * (P' l)ᴴ = (P' l)ᴴ * Z' i - (c i l : ℂ) • (P' l)ᴴ := by
      rw [sub_eq_add_neg, ← ZM s' hi hl]; abel
    rw [act_apply]
    refine Prod.ext ?_ ?_
    · simp only [mulVec_mulVec, e1, sub_mulVec, smul_mulVec, Prod.smul_fst]
      rw [← mulVec_mulVec, h1, mulVec_smul]
      module
    · simp only [mulVec_mulVec, e2, sub_mulVec, smul_mulVec, Prod.smul_snd]
      rw [← mulVec_mulVec, h2, mulVec_smul]
      module

theorem cyc_raise (s : Sys r c P Z ht) (s' : Sys r c P' Z' ht') {u₀ : (ι → ℂ) × (κ → ℂ)}
    (hz : ∀ i, i < r → ∃ a : ℂ, act (Z i) (Z' i) u₀ = a • u₀)
    (hk : Killed r P u₀.1) (hk' : Killed r P' u₀.2) {l : ℕ} (hl : l < r) {x : (ι → ℂ) × (κ → ℂ)}
    (hx : x ∈ cyc r P P' u₀) : act (P l) (P' l) x ∈ cyc r P P' u₀ := by
  have h : cyc r P P' u₀ ≤ (cyc r P P' u₀).comap (act (P l) (P' l)) := by
    refine Submodule.span_le.2 fun y hy' => ?_
    obtain ⟨hy⟩ : Nonempty (PLift (Word r P P' u₀ y)) := ⟨⟨hy'⟩⟩
    obtain ⟨hy⟩ := hy
    clear hy'
    change act (P l) (P' l) y ∈ cyc r P P' u₀
    induction hy with
    | base =>
      have : act (P l) (P' l) u₀ = 0 := Prod.ext (hk l hl) (hk' l hl)
      rw [this]
      exact Submodule.zero_mem _
    | step m hm y hy ih =>
      have e : act (P l) (P' l) ((P m)ᴴ *ᵥ y.1, (P' m)ᴴ *ᵥ y.2) =
          act (P m)ᴴ (P' m)ᴴ (act (P l) (P' l) y) + if l = m then (2 : ℂ) • act (Z l) (Z' l) y else 0 := by
        have e1 : P l * (P m)ᴴ = (P m)ᴴ * P l + if l = m then (2 : ℂ) • Z l else 0 := by
          rw [← s.comm l m hl hm]; abel
        have e2 : P' l * (P' m)ᴴ = (P' m)ᴴ * P' l + if l = m then (2 : ℂ) • Z' l else 0 := by
          rw [← s'.comm l m hl hm]; abel
        simp only [act_apply, mulVec_mulVec, e1, e2, add_mulVec]
        by_cases hlm : l = m
        · simp [hlm, smul_mulVec]
        · simp [hlm]
      rw [e]
      refine Submodule.add_mem _ (cyc_lower hm ih) ?_
      split_ifs
      · obtain ⟨a, ha⟩ := word_weight s s' hz hy l hl
        rw [ha]
        exact Submodule.smul_mem _ _ (Submodule.smul_mem _ _ (Submodule.subset_span hy))
      · exact Submodule.zero_mem _
  exact h hx

/-- The highest vector and the rest. -/
theorem cyc_split {u₀ : (ι → ℂ) × (κ → ℂ)} {x : (ι → ℂ) × (κ → ℂ)} (hx : x ∈ cyc r P P' u₀) :
    ∃ a : ℂ, ∃ y ∈ Submodule.span ℂ {y | ∃ l < r, ∃ z : (ι → ℂ) × (κ → ℂ), y = act (P l)ᴴ (P' l)ᴴ z},
      x = a • u₀ + y := by
  induction hx using Submodule.span_induction with
  | mem x hx =>
    cases hx with
    | base => exact ⟨1, 0, Submodule.zero_mem _, by simp⟩
    | step l hl y hy => exact ⟨0, _, Submodule.subset_span ⟨l, hl, y, rfl⟩, by simp [act_apply]⟩
  | zero => exact ⟨0, 0, Submodule.zero_mem _, by simp⟩
  | add x y _ _ hx hy =>
    obtain ⟨a, x', hx', rfl⟩ := hx
    obtain ⟨b, y', hy', rfl⟩ := hy
    exact ⟨a + b, x' + y', Submodule.add_mem _ hx' hy', by module⟩
  | smul k x _ hx =>
    obtain ⟨a, x', hx', rfl⟩ := hx
    exact ⟨k * a, k • x', Submodule.smul_mem _ _ hx', by module⟩

theorem dot_self_zero {x : κ → ℂ} (h : star x ⬝ᵥ x = 0) : x = 0 := by
  have h1 : (star x ⬝ᵥ x).re = ∑ i, Complex.normSq (x i) := by
    rw [dotProduct, Complex.re_sum]
    refine sum_congr rfl fun i _ => ?_
    rw [Pi.star_apply, Complex.star_def, ← Complex.normSq_eq_conj_mul_self, Complex.ofReal_re]
  rw [h, Complex.zero_re] at h1
  have h2 := (sum_eq_zero_iff_of_nonneg fun i _ => Complex.normSq_nonneg (x i)).1 h1.symm
  funext i
  exact Complex.normSq_eq_zero.1 (h2 i (mem_univ i))

/-- Every vector that is killed and has the weights of the highest vector is the image of the highest
vector under an intertwiner. -/
theorem lift (s : Sys r c P Z ht) (s' : Sys r c P' Z' ht') {top : ι} (t : Top r P top) {v : κ → ℂ}
    (hk : Killed r P' v)
    (hz : ∀ i, i < r → ∃ a : ℂ, Z i *ᵥ Pi.single top 1 = a • Pi.single top 1 ∧ Z' i *ᵥ v = a • v) :
    ∃ T : Matrix κ ι ℂ, T *ᵥ Pi.single top 1 = v ∧ (∀ l, l < r → T * P l = P' l * T) ∧
      ∀ l, l < r → T * (P l)ᴴ = (P' l)ᴴ * T := by
  let u₀ : (ι → ℂ) × (κ → ℂ) := (Pi.single top 1, v)
  have hz' : ∀ i, i < r → ∃ a : ℂ, act (Z i) (Z' i) u₀ = a • u₀ := by
    intro i hi
    obtain ⟨a, h1, h2⟩ := hz i hi
    exact ⟨a, Prod.ext h1 h2⟩
  have hraise : ∀ l, l < r → ∀ x ∈ cyc r P P' u₀, act (P l) (P' l) x ∈ cyc r P P' u₀ :=
    fun l hl x hx => cyc_raise s s' hz' t.killed hk hl hx
  have hlow : ∀ l, l < r → ∀ x ∈ cyc r P P' u₀, act (P l)ᴴ (P' l)ᴴ x ∈ cyc r P P' u₀ :=
    fun l hl x hx => cyc_lower hl hx
  have hu₀ : u₀ ∈ cyc r P P' u₀ := Submodule.subset_span Word.base
  -- the first component is everything
  have hsurj : (cyc r P P' u₀).map (LinearMap.fst ℂ (ι → ℂ) (κ → ℂ)) = ⊤ := by
    refine cyclic s t _ (fun l hl x hx => ?_) (fun l hl x hx => ?_) ⟨u₀, hu₀, rfl⟩
    · obtain ⟨y, hy, rfl⟩ := hx
      exact ⟨_, hraise l hl y hy, rfl⟩
    · obtain ⟨y, hy, rfl⟩ := hx
      exact ⟨_, hlow l hl y hy, rfl⟩
  -- the first component determines the second
  have hinj : ∀ w : κ → ℂ, ((0 : ι → ℂ), w) ∈ cyc r P P' u₀ → w = 0 := by
    intro w hw
    by_contra hw0
    obtain ⟨w₀, hw₀, hne, hkw⟩ := exists_killed s'
      ((cyc r P P' u₀).comap (LinearMap.inr ℂ (ι → ℂ) (κ → ℂ))) (fun l hl x hx => by
        have := hraise l hl _ hx
        rw [act_apply] at this
        simp only [LinearMap.inr_apply, mulVec_zero] at this
        exact this) (w := w) hw hw0
    have hw₀ : ((0 : ι → ℂ), w₀) ∈ cyc r P P' u₀ := hw₀
    obtain ⟨a, y, hy, e⟩ := cyc_split hw₀
    have hyt : y.1 top = 0 ∧ star w₀ ⬝ᵥ y.2 = 0 := by
      clear e
      induction hy using Submodule.span_induction with
      | mem y hy =>
        obtain ⟨l, hl, z, rfl⟩ := hy
        constructor
        · have h1 := adj_dot (P l)ᴴ (Pi.single top 1) z.1
          rw [conjTranspose_conjTranspose, t.killed l hl, star_zero, zero_dotProduct] at h1
          rw [← h1, act_apply]
          simp
        · rw [act_apply]
          change star w₀ ⬝ᵥ ((P' l)ᴴ *ᵥ z.2) = 0
          rw [adj_dot, conjTranspose_conjTranspose, hkw l hl, star_zero, zero_dotProduct]
      | zero => simp
      | add x y _ _ hx hy =>
        refine ⟨?_, ?_⟩
        · rw [Prod.fst_add, Pi.add_apply, hx.1, hy.1, add_zero]
        · rw [Prod.snd_add, dotProduct_add, hx.2, hy.2, add_zero]
      | smul k x _ hx =>
        refine ⟨?_, ?_⟩
        · rw [Prod.smul_fst, Pi.smul_apply, hx.1, smul_zero]
        · rw [Prod.smul_snd, dotProduct_smul, hx.2, smul_zero]
    have ha : a = 0 := by
      have := congrFun (congrArg Prod.fst e) top
      simpa [u₀, hyt.1] using this.symm
    have hw2 : w₀ = y.2 := by
      have := congrArg Prod.snd e
      simpa [ha] using this
    exact hne (dot_self_zero (by nth_rewrite 2 [hw2]; exact hyt.2))
  have huniq : ∀ x w w', (x, w) ∈ cyc r P P' u₀ → (x, w') ∈ cyc r P P' u₀ → w = w' := by
    intro x w w' h h'
    have := hinj (w - w') (by
      have := Submodule.sub_mem _ h h'
      rwa [Prod.mk_sub_mk, sub_self] at this)
    exact sub_eq_zero.1 this
  have hex : ∀ x : ι → ℂ, ∃ w : κ → ℂ, (x, w) ∈ cyc r P P' u₀ := by
    intro x
    have : x ∈ (cyc r P P' u₀).map (LinearMap.fst ℂ (ι → ℂ) (κ → ℂ)) := by rw [hsurj]; trivial
    obtain ⟨y, hy, rfl⟩ := this
    exact ⟨y.2, hy⟩
  choose g hg using hex
  let L : (ι → ℂ) →ₗ[ℂ] (κ → ℂ) :=
    { toFun := g
      map_add' := fun x y => huniq _ _ _ (hg _) (Submodule.add_mem _ (hg x) (hg y))
      map_smul' := fun a x => huniq _ _ _ (hg _) (Submodule.smul_mem _ a (hg x)) }
  have hL : ∀ x, (LinearMap.toMatrix' L) *ᵥ x = g x := fun x => by
    rw [← Matrix.toLin'_apply, Matrix.toLin'_toMatrix']
    rfl
  refine ⟨LinearMap.toMatrix' L, ?_, fun l hl => ?_, fun l hl => ?_⟩
  · rw [hL]
    exact huniq _ _ _ (hg _) hu₀
  · apply Matrix.toLin'.injective
    refine LinearMap.ext fun x => ?_
    rw [Matrix.toLin'_apply, Matrix.toLin'_apply, ← mulVec_mulVec, ← mulVec_mulVec, hL, hL]
    exact huniq _ _ _ (hg _) (hraise l hl _ (hg x))
  · apply Matrix.toLin'.injective
    refine LinearMap.ext fun x => ?_
    rw [Matrix.toLin'_apply, Matrix.toLin'_apply, ← mulVec_mulVec, ← mulVec_mulVec, hL, hL]
    exact huniq _ _ _ (hg _) (hlow l hl _ (hg x))

end LieNN.Ladder

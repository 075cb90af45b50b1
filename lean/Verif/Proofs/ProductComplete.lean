import Verif.Proofs.Semisimple
import Verif.Proofs.DecomposeSum
/-!
# Irreducible families of a product are products
-/
namespace LieNN.Semi

open Matrix Module LieNN LieNN.Spec

variable {p q d d₁ m : ℕ}

/-- The matrices of a list, side by side, the column index of the matrices running slowest. -/
def wide (S : Fin m → Matrix (Fin d) (Fin d₁) ℂ) : Matrix (Fin d) (Fin (d₁ * m)) ℂ :=
  fun r c => S (finProdFinEquiv.symm c).2 r (finProdFinEquiv.symm c).1

theorem wide_apply (S : Fin m → Matrix (Fin d) (Fin d₁) ℂ) (r : Fin d) (u : Fin d₁) (i : Fin m) :
    wide S r (finProdFinEquiv (u, i)) = S i r u := by
  simp [wide]

theorem wide_ext {M N : Matrix (Fin d) (Fin (d₁ * m)) ℂ} (h : ∀ r u i, M r (finProdFinEquiv (u, i)) = N r (finProdFinEquiv (u, i))) :
    M = N := by
  ext r c
  obtain ⟨⟨u, i⟩, rfl⟩ := finProdFinEquiv.surjective c
  exact h r u i

theorem mul_wide (M : Matrix (Fin d) (Fin d) ℂ) (S : Fin m → Matrix (Fin d) (Fin d₁) ℂ) : M * wide S = wide fun i => M * S i := by
  refine wide_ext fun r u i => ?_
  simp only [wide_apply, Matrix.mul_apply]

theorem sum_prod (f : Fin (d₁ * m) → ℂ) : ∑ c, f c = ∑ u : Fin d₁, ∑ i : Fin m, f (finProdFinEquiv (u, i)) := by
  rw [← finProdFinEquiv.sum_comp, Fintype.sum_prod_type]

theorem wide_mul_left (S : Fin m → Matrix (Fin d) (Fin d₁) ℂ) (x : Matrix (Fin d₁) (Fin d₁) ℂ) :
    wide S * kron x 1 = wide fun i => S i * x := by
  refine wide_ext fun r u i => ?_
  rw [wide_apply, Matrix.mul_apply, Matrix.mul_apply, sum_prod]
  refine Finset.sum_congr rfl fun v _ => ?_
  simp [wide_apply, kron_apply, Matrix.one_apply]

theorem wide_mul_right (S : Fin m → Matrix (Fin d) (Fin d₁) ℂ) (y : Matrix (Fin m) (Fin m) ℂ) :
    wide S * kron (1 : Matrix (Fin d₁) (Fin d₁) ℂ) y = wide fun i => ∑ j, y j i • S j := by
  refine wide_ext fun r u i => ?_
  rw [wide_apply, Matrix.mul_apply, sum_prod, Finset.sum_comm, Matrix.sum_apply]
  refine Finset.sum_congr rfl fun v _ => ?_
  simp [wide_apply, kron_apply, Matrix.one_apply, mul_comm]

theorem exists_inverse {e : ℕ} (h : e = d) (M : Matrix (Fin d) (Fin e) ℂ) (hM : Function.Injective M.mulVecLin) :
    ∃ P : Matrix (Fin e) (Fin d) ℂ, M * P = 1 ∧ P * M = 1 := by
  subst h
  have hu : IsUnit M := by
    rw [← Matrix.mulVec_injective_iff_isUnit]
    exact hM
  have hu' := (isUnit_iff_isUnit_det M).1 hu
  exact ⟨M⁻¹, mul_nonsing_inv _ hu', nonsing_inv_mul _ hu'⟩

/-- The vectors of the product all of whose rows are in a subspace. -/
def rows (W : Submodule ℂ (Fin m → ℂ)) : Submodule ℂ (Fin (d₁ * m) → ℂ) where
  carrier := {v | ∀ u : Fin d₁, (fun i => v (finProdFinEquiv (u, i))) ∈ W}
  zero_mem' := fun _ => W.zero_mem
  add_mem' := fun hv hw u => W.add_mem (hv u) (hw u)
  smul_mem' := fun c _ hv u => W.smul_mem c (hv u)

theorem rows_left (W : Submodule ℂ (Fin m → ℂ)) {v : Fin (d₁ * m) → ℂ} (hv : v ∈ rows W) (x : Matrix (Fin d₁) (Fin d₁) ℂ) :
    kron x (1 : Matrix (Fin m) (Fin m) ℂ) *ᵥ v ∈ rows W := by
  intro u
  have : (fun i => (kron x (1 : Matrix (Fin m) (Fin m) ℂ) *ᵥ v) (finProdFinEquiv (u, i))) =
      ∑ u', x u u' • fun i => v (finProdFinEquiv (u', i)) := by
    funext i
    rw [mulVec, dotProduct, sum_prod, Finset.sum_apply]
    refine Finset.sum_congr rfl fun u' _ => ?_
    simp [kron_apply, Matrix.one_apply]
  rw [this]
  exact W.sum_mem fun u' _ => W.smul_mem _ (hv u')

theorem rows_right (W : Submodule ℂ (Fin m → ℂ)) {v : Fin (d₁ * m) → ℂ} (hv : v ∈ rows W) {y : Matrix (Fin m) (Fin m) ℂ}
    (hy : ∀ w ∈ W, y *ᵥ w ∈ W) : kron (1 : Matrix (Fin d₁) (Fin d₁) ℂ) y *ᵥ v ∈ rows W := by
  intro u
  have : (fun i => (kron (1 : Matrix (Fin d₁) (Fin d₁) ℂ) y *ᵥ v) (finProdFinEquiv (u, i))) =
      y *ᵥ fun i => v (finProdFinEquiv (u, i)) := by
    funext i
    rw [mulVec, dotProduct, sum_prod, mulVec, dotProduct, Finset.sum_comm]
    refine Finset.sum_congr rfl fun i' _ => ?_
    simp [kron_apply, Matrix.one_apply]
  rw [this]
  exact hy _ (hv u)

/-- A vector in one row. -/
def pad (u : Fin d₁) (w : Fin m → ℂ) : Fin (d₁ * m) → ℂ :=
  fun c => if (finProdFinEquiv.symm c).1 = u then w (finProdFinEquiv.symm c).2 else 0

theorem pad_mem (W : Submodule ℂ (Fin m → ℂ)) {u : Fin d₁} {w : Fin m → ℂ} (hw : w ∈ W) : pad u w ∈ rows W := by
  intro u'
  by_cases h : u' = u
  · subst h
    simpa [pad] using hw
  · simp only [pad, Equiv.symm_apply_apply, if_neg h]
    exact W.zero_mem

theorem pad_apply (u u' : Fin d₁) (w : Fin m → ℂ) (i : Fin m) : pad u w (finProdFinEquiv (u', i)) = if u' = u then w i else 0 := by
  simp [pad]

/-- The vectors whose product with everything is in a subspace. -/
def heads (K : Submodule ℂ (Fin (d₁ * m) → ℂ)) : Submodule ℂ (Fin m → ℂ) where
  carrier := {w | ∀ u : Fin d₁, pad u w ∈ K}
  zero_mem' := fun u => by
    have : pad u (0 : Fin m → ℂ) = 0 := by funext c; simp [pad]
    rw [this]
    exact K.zero_mem
  add_mem' := fun {v w} hv hw u => by
    have : pad u (v + w) = pad u v + pad u w := by
      funext c
      simp only [pad, Pi.add_apply]
      split_ifs <;> simp
    rw [this]
    exact K.add_mem (hv u) (hw u)
  smul_mem' := fun c {v} hv u => by
    have : pad u (c • v) = c • pad u v := by
      funext c
      simp only [pad, Pi.smul_apply]
      split_ifs <;> simp
    rw [this]
    exact K.smul_mem _ (hv u)

theorem sum_pad (v : Fin (d₁ * m) → ℂ) : ∑ u, pad u (fun i => v (finProdFinEquiv (u, i))) = v := by
  funext c
  obtain ⟨⟨u, i⟩, rfl⟩ := finProdFinEquiv.surjective c
  rw [Finset.sum_apply]
  simp only [pad_apply]
  simp

theorem rows_le {L : Submodule ℂ (Fin m → ℂ)} {K : Submodule ℂ (Fin (d₁ * m) → ℂ)} (h : L ≤ heads K) : rows L ≤ K := by
  intro v hv
  rw [← sum_pad v]
  exact K.sum_mem fun u _ => h (hv u) u

theorem kron_pad (y : Matrix (Fin m) (Fin m) ℂ) (u : Fin d₁) (w : Fin m → ℂ) : kron 1 y *ᵥ pad u w = pad u (y *ᵥ w) := by
  funext c
  obtain ⟨⟨u', i⟩, rfl⟩ := finProdFinEquiv.surjective c
  rw [mulVec, dotProduct, sum_prod, pad_apply]
  simp only [kron_apply, pad_apply, Matrix.one_apply]
  split_ifs with h
  · subst h
    simp [mulVec, dotProduct]
  · refine Finset.sum_eq_zero fun v _ => Finset.sum_eq_zero fun j _ => ?_
    by_cases hv : u' = v
    · subst hv
      simp [h]
    · simp [hv]

/-- A subspace of a product that is invariant under an irreducible family on the left contains the product of everything with some
vector. -/
theorem heads_ne_bot {x : Fin p → Matrix (Fin d₁) (Fin d₁) ℂ} (hx : IrreducibleFamily x) {K : Submodule ℂ (Fin (d₁ * m) → ℂ)}
    (hinv : Invariant (fun a => kron (x a) (1 : Matrix (Fin m) (Fin m) ℂ)) K) (hne : K ≠ ⊥) : heads K ≠ ⊥ := by
  obtain ⟨U, hU, hmin⟩ := exists_minimal _ hinv hne
  obtain ⟨V, P, k, hPV, hV, hr, hk⟩ := hmin.block
  -- components
  have hcomp : ∀ i a, x a * (Matrix.of fun u c => V (finProdFinEquiv (u, i)) c) = (Matrix.of fun u c => V (finProdFinEquiv (u, i)) c) * k a := by
    intro i a
    ext u c
    have := congrFun (congrFun (hV a) (finProdFinEquiv (u, i))) c
    rw [Matrix.mul_apply, sum_prod, Matrix.mul_apply] at this
    rw [Matrix.mul_apply, Matrix.mul_apply]
    simp only [kron_apply, Matrix.one_apply, Matrix.of_apply] at this ⊢
    rw [← this]
    refine Finset.sum_congr rfl fun v _ => ?_
    simp
  have hVne : V ≠ 0 := by
    rintro rfl
    have : Nonempty (Fin (finrank ℂ U)) := ⟨⟨0, hk.1⟩⟩
    rw [Matrix.mul_zero] at hPV
    exact zero_ne_one hPV
  obtain ⟨i₀, hi₀⟩ : ∃ i, (Matrix.of fun u c => V (finProdFinEquiv (u, i)) c : Matrix (Fin d₁) _ ℂ) ≠ 0 := by
    by_contra hall
    push Not at hall
    refine hVne (Matrix.ext fun r c => ?_)
    obtain ⟨⟨u, i⟩, rfl⟩ := finProdFinEquiv.surjective r
    exact congrFun (congrFun (hall i) u) c
  obtain ⟨Q, P', h1, h2, h3⟩ := equivalent_of_ne_zero hx hk (hcomp i₀) hi₀
  have hcom : ∀ i, ∃ c : ℂ, (Matrix.of fun u c => V (finProdFinEquiv (u, i)) c) * P' = c • 1 := by
    intro i
    refine schur hx fun a => ?_
    have h4 : k a * P' = P' * x a := by
      have := congrArg (fun M => P' * M * P') (h3 a)
      simp only [Matrix.mul_assoc, h1, Matrix.mul_one] at this
      rw [← Matrix.mul_assoc P' Q, h2, Matrix.one_mul] at this
      exact this.symm
    rw [← Matrix.mul_assoc, hcomp, Matrix.mul_assoc, h4, Matrix.mul_assoc]
  choose c hc using hcom
  intro hbot
  have hmem : c ∈ heads K := by
    intro u
    have h0 : (V * P').mulVecLin (Pi.single u 1) ∈ LinearMap.range V.mulVecLin :=
      ⟨P' *ᵥ Pi.single u 1, by rw [mulVecLin_apply, mulVecLin_apply, mulVec_mulVec]⟩
    rw [hr] at h0
    have h1 : (V * P').mulVecLin (Pi.single u 1) = pad u c := by
      funext r
      obtain ⟨⟨u', i⟩, rfl⟩ := finProdFinEquiv.surjective r
      rw [mulVecLin_apply, mulVec_single_one, pad_apply]
      have h2 : (V * P') (finProdFinEquiv (u', i)) u = (c i • (1 : Matrix (Fin d₁) (Fin d₁) ℂ)) u' u := by
        rw [← hc i]
        rfl
      change (V * P') (finProdFinEquiv (u', i)) u = _
      rw [h2, Matrix.smul_apply, Matrix.one_apply]
      simp
    exact hU (h1 ▸ h0)
  rw [hbot, Submodule.mem_bot] at hmem
  have h8 := hc i₀
  rw [hmem, Pi.zero_apply, zero_smul] at h8
  apply hi₀
  have h9 := congrArg (· * Q) h8
  simpa only [Matrix.mul_assoc, h2, Matrix.mul_one, Matrix.zero_mul] using h9

/-- Independent intertwiners from an irreducible family are jointly injective. -/
theorem wide_injective {X : Fin p → Matrix (Fin d) (Fin d) ℂ} {x : Fin p → Matrix (Fin d₁) (Fin d₁) ℂ} (hx : IrreducibleFamily x)
    {S : Fin m → Matrix (Fin d) (Fin d₁) ℂ} (hS : ∀ i a, X a * S i = S i * x a) (hli : LinearIndependent ℂ S) :
    LinearMap.ker (wide S).mulVecLin = ⊥ := by
  by_contra hne
  have hX : ∀ a, X a * wide S = wide S * kron (x a) 1 := by
    intro a
    rw [mul_wide, wide_mul_left]
    simp only [hS]
  have hinv : Invariant (fun a => kron (x a) (1 : Matrix (Fin m) (Fin m) ℂ)) (LinearMap.ker (wide S).mulVecLin) := by
    intro a w hw
    rw [LinearMap.mem_ker, mulVecLin_apply] at hw ⊢
    rw [mulVec_mulVec, ← hX, ← mulVec_mulVec, hw, mulVec_zero]
  obtain ⟨c, hc, hc0⟩ := Submodule.exists_mem_ne_zero_of_ne_bot (heads_ne_bot hx hinv hne)
  refine hc0 (funext fun i => Fintype.linearIndependent_iff.1 hli c ?_ i)
  ext r u
  have h1 := congrFun (LinearMap.mem_ker.1 (hc u)) r
  rw [mulVecLin_apply, mulVec, dotProduct, sum_prod, Finset.sum_comm] at h1
  rw [Matrix.sum_apply]
  refine Eq.trans (Finset.sum_congr rfl fun i _ => ?_) h1
  simp [wide_apply, pad_apply, mul_comm]

/-- Two commuting families that are jointly irreducible are a product of irreducible families. -/
theorem split_irreducible {X : Fin p → Matrix (Fin d) (Fin d) ℂ} {Y : Fin q → Matrix (Fin d) (Fin d) ℂ} (hd : 0 < d)
    (hc : ∀ a b, X a * Y b = Y b * X a) (hirr : ∀ W, Invariant X W → Invariant Y W → W = ⊥ ∨ W = ⊤) :
    ∃ (d₁ d₂ : ℕ) (x : Fin p → Matrix (Fin d₁) (Fin d₁) ℂ) (y : Fin q → Matrix (Fin d₂) (Fin d₂) ℂ), IrreducibleFamily x ∧
      IrreducibleFamily y ∧ ∃ (Q : Matrix (Fin d) (Fin (d₁ * d₂)) ℂ) (P : Matrix (Fin (d₁ * d₂)) (Fin d) ℂ), Q * P = 1 ∧ P * Q = 1 ∧
      (∀ a, X a * Q = Q * kron (x a) 1) ∧ ∀ b, Y b * Q = Q * kron 1 (y b) := by
  have : Nonempty (Fin d) := ⟨⟨0, hd⟩⟩
  obtain ⟨U, -, hmin⟩ := exists_minimal (X := X) ⊤ (fun _ _ _ => trivial) (by exact top_ne_bot)
  obtain ⟨V, P₀, x, hPV, hV, -, hx⟩ := hmin.block
  set M := intertwiners X x with hM
  let B := Module.finBasis ℂ M
  let S : Fin (finrank ℂ M) → Matrix (Fin d) (Fin (finrank ℂ U)) ℂ := fun i => (B i).1
  have hS : ∀ i a, X a * S i = S i * x a := fun i => (B i).2
  have hli : LinearIndependent ℂ S := B.linearIndependent.map' M.subtype (Submodule.ker_subtype M)
  have hY : ∀ b i, Y b * S i ∈ M := by
    intro b i a
    rw [← Matrix.mul_assoc, hc, Matrix.mul_assoc, hS, Matrix.mul_assoc]
  let y : Fin q → Matrix (Fin (finrank ℂ M)) (Fin (finrank ℂ M)) ℂ := fun b => Matrix.of fun j i => B.repr ⟨Y b * S i, hY b i⟩ j
  have hy : ∀ b i, Y b * S i = ∑ j, y b j i • S j := by
    intro b i
    have := congrArg Subtype.val (B.sum_repr ⟨Y b * S i, hY b i⟩)
    refine this.symm.trans ?_
    rw [Submodule.coe_sum]
    exact Finset.sum_congr rfl fun j _ => rfl
  have hX' : ∀ a, X a * wide S = wide S * kron (x a) 1 := by
    intro a
    rw [mul_wide, wide_mul_left]
    simp only [hS]
  have hY' : ∀ b, Y b * wide S = wide S * kron 1 (y b) := by
    intro b
    rw [mul_wide, wide_mul_right]
    simp only [hy]
  have hker := wide_injective hx hS hli
  have hVM : V ∈ M := hV
  have hVne : V ≠ 0 := by
    rintro rfl
    have : Nonempty (Fin (finrank ℂ U)) := ⟨⟨0, hx.1⟩⟩
    rw [Matrix.mul_zero] at hPV
    exact zero_ne_one hPV
  have hmpos : 0 < finrank ℂ M := by
    rw [finrank_pos_iff]
    exact ⟨⟨⟨V, hVM⟩, 0, fun h => hVne (congrArg Subtype.val h)⟩⟩
  have hinj := LinearMap.ker_eq_bot.1 hker
  have hrange : LinearMap.range (wide S).mulVecLin = ⊤ := by
    rcases hirr (LinearMap.range (wide S).mulVecLin)
      (by
        rintro a _ ⟨v, rfl⟩
        exact ⟨kron (x a) 1 *ᵥ v, by rw [mulVecLin_apply, mulVecLin_apply, mulVec_mulVec, mulVec_mulVec, hX']⟩)
      (by
        rintro b _ ⟨v, rfl⟩
        exact ⟨kron 1 (y b) *ᵥ v, by rw [mulVecLin_apply, mulVecLin_apply, mulVec_mulVec, mulVec_mulVec, hY']⟩) with h | h
    · exfalso
      have hpos : 0 < finrank ℂ U * finrank ℂ M := Nat.mul_pos hx.1 hmpos
      have h0 : (wide S).mulVecLin (Pi.single ⟨0, hpos⟩ 1) = (wide S).mulVecLin 0 := by
        rw [map_zero, ← Submodule.mem_bot ℂ, ← h]
        exact ⟨_, rfl⟩
      have := congrFun (hinj h0) ⟨0, hpos⟩
      simp at this
    · exact h
  have hdim : finrank ℂ U * finrank ℂ M = d := by
    have := (LinearEquiv.ofBijective _ ⟨hinj, LinearMap.range_eq_top.1 hrange⟩).finrank_eq
    simpa using this
  obtain ⟨P, hP1, hP2⟩ := exists_inverse hdim (wide S) hinj
  refine ⟨_, _, x, y, hx, ⟨hmpos, fun W hW => ?_⟩, wide S, P, hP1, hP2, hX', hY'⟩
  let K := rows (d₁ := finrank ℂ U) W
  rcases hirr (K.map (wide S).mulVecLin)
    (by
      rintro a _ ⟨v, hv, rfl⟩
      refine ⟨kron (x a) 1 *ᵥ v, rows_left W hv (x a), ?_⟩
      rw [mulVecLin_apply, mulVecLin_apply, mulVec_mulVec, mulVec_mulVec, hX'])
    (by
      rintro b _ ⟨v, hv, rfl⟩
      refine ⟨kron 1 (y b) *ᵥ v, rows_right W hv (hW b), ?_⟩
      rw [mulVecLin_apply, mulVecLin_apply, mulVec_mulVec, mulVec_mulVec, hY']) with h | h
  · left
    rw [Submodule.eq_bot_iff]
    intro w hw
    have h1 : pad ⟨0, hx.1⟩ w ∈ K := pad_mem W hw
    have h2 : (wide S).mulVecLin (pad ⟨0, hx.1⟩ w) = (wide S).mulVecLin 0 := by
      rw [map_zero, ← Submodule.mem_bot ℂ, ← h]
      exact ⟨_, h1, rfl⟩
    have h3 := hinj h2
    funext i
    have := congrFun h3 (finProdFinEquiv (⟨0, hx.1⟩, i))
    simpa [pad] using this
  · right
    rw [Submodule.eq_top_iff']
    intro w
    have h1 : (wide S).mulVecLin (pad ⟨0, hx.1⟩ w) ∈ K.map (wide S).mulVecLin := h ▸ Submodule.mem_top
    obtain ⟨v, hv, hvw⟩ := h1
    rw [hinj hvw] at hv
    have := hv ⟨0, hx.1⟩
    simpa [pad] using this

/-! ## Invariant complements -/

theorem invariant_sup {X : Fin p → Matrix (Fin d) (Fin d) ℂ} {W W' : Submodule ℂ (Fin d → ℂ)} (h : Invariant X W) (h' : Invariant X W') :
    Invariant X (W ⊔ W') := by
  intro a w hw
  obtain ⟨u, hu, v, hv, rfl⟩ := Submodule.mem_sup.1 hw
  rw [mulVec_add]
  exact Submodule.add_mem_sup (h a u hu) (h' a v hv)

theorem foldr_le {l : List (Submodule ℂ (Fin d → ℂ))} {W : Submodule ℂ (Fin d → ℂ)} (h : ∀ U ∈ l, U ≤ W) : l.foldr (· ⊔ ·) ⊥ ≤ W := by
  induction l with
  | nil => exact bot_le
  | cons U l ih => exact sup_le (h U (by simp)) (ih fun U' hU' => h U' (by simp [hU']))

/-- If the smallest invariant subspaces fill everything, there are invariant complements. -/
theorem semisimple_of_minimal {X : Fin p → Matrix (Fin d) (Fin d) ℂ}
    (h : ∀ W, (∀ U, Minimal X U → U ≤ W) → W = ⊤) : Semisimple X := by
  intro W hW
  by_contra hcon
  push Not at hcon
  have step : ∀ k : ℕ, ∃ W', Invariant X W' ∧ W ⊓ W' = ⊥ ∧ k ≤ finrank ℂ W' := by
    intro k
    induction k with
    | zero => exact ⟨⊥, fun a w hw => by rw [(Submodule.mem_bot ℂ).1 hw, mulVec_zero]; exact Submodule.zero_mem _, inf_bot_eq W, Nat.zero_le _⟩
    | succ k ih =>
      obtain ⟨W', h1, h2, h3⟩ := ih
      have h4 := hcon W' h1 h2
      obtain ⟨U, hU, hU'⟩ : ∃ U, Minimal X U ∧ ¬ U ≤ W ⊔ W' := by
        by_contra hall
        push Not at hall
        exact h4 (h _ hall)
      have hinv : Invariant X (W ⊔ W') := invariant_sup hW h1
      have h5 : U ⊓ (W ⊔ W') = ⊥ := by
        rcases hU.min (U ⊓ (W ⊔ W')) (fun a w hw => ⟨hU.inv a w hw.1, hinv a w hw.2⟩) inf_le_left with h6 | h6
        · exact h6
        · exact absurd (inf_eq_left.1 h6) hU'
      have h7 : Disjoint W (W' ⊔ U) :=
        (disjoint_iff.2 h2).disjoint_sup_right_of_disjoint_sup_left (disjoint_iff.2 h5).symm
      refine ⟨W' ⊔ U, invariant_sup h1 hU.inv, disjoint_iff.1 h7, ?_⟩
      have h8 : W' < W' ⊔ U := by
        refine lt_of_le_of_ne le_sup_left fun h9 => hU' ?_
        exact (le_sup_right.trans h9.ge).trans le_sup_right
      exact Nat.succ_le_of_lt (lt_of_le_of_lt h3 (Submodule.finrank_lt_finrank_of_lt h8))
  obtain ⟨W', -, -, h1⟩ := step (d + 1)
  have h2 := Submodule.finrank_le W'
  rw [finrank_fin_fun] at h2
  omega

/-- Invariant complements in a space exist in the subspaces. -/
theorem semisimple_sub {Y : Fin q → Matrix (Fin d) (Fin d) ℂ} (hY : Semisimple Y) {y : Fin q → Matrix (Fin m) (Fin m) ℂ}
    {E : Matrix (Fin d) (Fin m) ℂ} (hE : ∀ b, Y b * E = E * y b) (hinj : Function.Injective E.mulVecLin) : Semisimple y := by
  intro W hW
  obtain ⟨C, h1, h2, h3⟩ := hY (W.map E.mulVecLin) (by
    rintro b _ ⟨w, hw, rfl⟩
    exact ⟨y b *ᵥ w, hW b w hw, by rw [mulVecLin_apply, mulVecLin_apply, mulVec_mulVec, mulVec_mulVec, hE]⟩)
  refine ⟨C.comap E.mulVecLin, fun b w hw => ?_, ?_, ?_⟩
  · rw [Submodule.mem_comap, mulVecLin_apply] at hw ⊢
    rw [mulVec_mulVec, ← hE, ← mulVec_mulVec]
    exact h1 b _ hw
  · rw [Submodule.eq_bot_iff]
    rintro w ⟨hw1, hw2⟩
    apply hinj
    rw [map_zero, ← Submodule.mem_bot ℂ, ← h2]
    exact ⟨⟨w, hw1, rfl⟩, hw2⟩
  · rw [Submodule.eq_top_iff']
    intro v
    have h4 : E.mulVecLin v ∈ W.map E.mulVecLin ⊔ C := h3 ▸ Submodule.mem_top
    obtain ⟨_, ⟨w, hw, rfl⟩, c, hc, h5⟩ := Submodule.mem_sup.1 h4
    have h6 : v = w + (v - w) := by abel
    rw [h6]
    refine Submodule.add_mem_sup hw ?_
    rw [Submodule.mem_comap, map_sub, ← h5, add_sub_cancel_left]
    exact hc

theorem invariant_append {X : Fin p → Matrix (Fin d) (Fin d) ℂ} {Y : Fin q → Matrix (Fin d) (Fin d) ℂ} {W : Submodule ℂ (Fin d → ℂ)} :
    Invariant (Fin.append X Y) W ↔ Invariant X W ∧ Invariant Y W := by
  refine ⟨fun h => ⟨fun a w hw => ?_, fun b w hw => ?_⟩, fun h c w hw => ?_⟩
  · simpa using h (Fin.castAdd q a) w hw
  · simpa using h (Fin.natAdd p b) w hw
  · refine Fin.addCases (fun a => ?_) (fun b => ?_) c
    · simpa using h.1 a w hw
    · simpa using h.2 b w hw

set_option maxHeartbeats 1000000 in
/-- Two commuting families with invariant complements have common invariant complements. -/
theorem semisimple_append {X : Fin p → Matrix (Fin d) (Fin d) ℂ} {Y : Fin q → Matrix (Fin d) (Fin d) ℂ}
    (hc : ∀ a b, X a * Y b = Y b * X a) (hX : Semisimple X) (hY : Semisimple Y) : Semisimple (Fin.append X Y) := by
  refine semisimple_of_minimal fun W hW => ?_
  obtain ⟨l, hl, -, hsup⟩ := exists_summands hX ⊤ fun _ _ _ => trivial
  have hle : ∀ U, Minimal X U → U ≤ W := by
    intro U hmin
    obtain ⟨V, P₀, x, hPV, hV, hVr, hx⟩ := hmin.block
    set M := intertwiners X x with hM
    let B := Module.finBasis ℂ M
    let S : Fin (finrank ℂ M) → Matrix (Fin d) (Fin (finrank ℂ U)) ℂ := fun i => (B i).1
    have hS : ∀ i a, X a * S i = S i * x a := fun i => (B i).2
    have hli : LinearIndependent ℂ S := B.linearIndependent.map' M.subtype (Submodule.ker_subtype M)
    have hYS : ∀ b i, Y b * S i ∈ M := by
      intro b i a
      rw [← Matrix.mul_assoc, hc, Matrix.mul_assoc, hS, Matrix.mul_assoc]
    let y : Fin q → Matrix (Fin (finrank ℂ M)) (Fin (finrank ℂ M)) ℂ := fun b => Matrix.of fun j i => B.repr ⟨Y b * S i, hYS b i⟩ j
    have hy : ∀ b i, Y b * S i = ∑ j, y b j i • S j := by
      intro b i
      have := congrArg Subtype.val (B.sum_repr ⟨Y b * S i, hYS b i⟩)
      refine this.symm.trans ?_
      rw [Submodule.coe_sum]
      exact Finset.sum_congr rfl fun j _ => rfl
    have hX' : ∀ a, X a * wide S = wide S * kron (x a) 1 := by
      intro a
      rw [mul_wide, wide_mul_left]
      simp only [hS]
    have hY' : ∀ b, Y b * wide S = wide S * kron 1 (y b) := by
      intro b
      rw [mul_wide, wide_mul_right]
      simp only [hy]
    have hinj := LinearMap.ker_eq_bot.1 (wide_injective hx hS hli)
    -- the multiplicity space is a subspace for the second family
    have hyss : Semisimple y := by
      refine semisimple_sub hY (E := Matrix.of fun r i => S i r ⟨0, hx.1⟩) (fun b => ?_) ?_
      · ext r i
        have := congrFun (congrFun (hy b i) r) ⟨0, hx.1⟩
        rw [Matrix.mul_apply, Matrix.sum_apply] at this
        rw [Matrix.mul_apply, Matrix.mul_apply]
        refine this.trans (Finset.sum_congr rfl fun j _ => ?_)
        rw [Matrix.smul_apply, Matrix.of_apply, smul_eq_mul, mul_comm]
      · intro v w hvw
        have h1 : ∀ v, (Matrix.of fun r i => S i r ⟨0, hx.1⟩).mulVecLin v = (wide S).mulVecLin (pad ⟨0, hx.1⟩ v) := by
          intro v
          funext r
          rw [mulVecLin_apply, mulVecLin_apply, mulVec, dotProduct, mulVec, dotProduct, sum_prod, Finset.sum_comm]
          refine Finset.sum_congr rfl fun i _ => ?_
          simp [wide_apply, pad_apply]
        rw [h1, h1] at hvw
        funext i
        have := congrFun (hinj hvw) (finProdFinEquiv (⟨0, hx.1⟩, i))
        simpa [pad_apply] using this
    obtain ⟨l', hl', -, hsup'⟩ := exists_summands hyss ⊤ fun _ _ _ => trivial
    -- products with smallest subspaces are smallest
    have hjoint : ∀ L, Minimal y L → (rows L).map (wide S).mulVecLin ≤ W := by
      intro L hL
      refine hW _ ⟨invariant_append.2 ⟨?_, ?_⟩, fun h0 => hL.ne ?_, fun W' hW' hle => ?_⟩
      · rintro a _ ⟨v, hv, rfl⟩
        exact ⟨kron (x a) 1 *ᵥ v, rows_left L hv (x a), by rw [mulVecLin_apply, mulVecLin_apply, mulVec_mulVec, mulVec_mulVec, hX']⟩
      · rintro b _ ⟨v, hv, rfl⟩
        exact ⟨kron 1 (y b) *ᵥ v, rows_right L hv (hL.inv b), by rw [mulVecLin_apply, mulVecLin_apply, mulVec_mulVec, mulVec_mulVec, hY']⟩
      · rw [Submodule.eq_bot_iff]
        intro w hw
        have h2 : (wide S).mulVecLin (pad ⟨0, hx.1⟩ w) = (wide S).mulVecLin 0 := by
          rw [map_zero, ← Submodule.mem_bot ℂ, ← h0]
          exact ⟨_, pad_mem L hw, rfl⟩
        funext i
        have := congrFun (hinj h2) (finProdFinEquiv (⟨0, hx.1⟩, i))
        simpa [pad_apply] using this
      · obtain ⟨i1, i2⟩ := invariant_append.1 hW'
        set K := W'.comap (wide S).mulVecLin with hK
        have hKr : K ≤ rows L := by
          intro v hv
          obtain ⟨v', hv', h3⟩ := hle hv
          rwa [← hinj h3]
        have hKW : K.map (wide S).mulVecLin = W' := by
          rw [hK, Submodule.map_comap_eq, inf_eq_right]
          exact hle.trans (LinearMap.map_le_range)
        by_cases hb : K = ⊥
        · left
          rw [← hKW, hb, Submodule.map_bot]
        · right
          have h4 : heads K ≠ ⊥ := heads_ne_bot hx (fun a v hv => by
            rw [hK, Submodule.mem_comap, mulVecLin_apply] at hv ⊢
            rw [mulVec_mulVec, ← hX', ← mulVec_mulVec]
            exact i1 a _ hv) hb
          have h5 : heads K ≤ L := by
            intro w hw
            have := hKr (hw ⟨0, hx.1⟩) ⟨0, hx.1⟩
            simpa [pad_apply] using this
          have h6 : heads K = L := by
            refine (hL.min (heads K) (fun b w hw u => ?_) h5).resolve_left h4
            rw [← kron_pad, hK, Submodule.mem_comap, mulVecLin_apply, mulVec_mulVec, ← hY', ← mulVec_mulVec]
            exact i2 b _ (hw u)
          rw [← hKW]
          exact congrArg _ (le_antisymm hKr (rows_le h6.ge))
    have hall : LinearMap.range (wide S).mulVecLin ≤ W := by
      rw [← Submodule.map_top]
      have h7 : (⊤ : Submodule ℂ (Fin (finrank ℂ M) → ℂ)) ≤ heads (W.comap (wide S).mulVecLin) := by
        rw [← hsup']
        exact foldr_le fun L hL w hw u => hjoint L (hl' L hL) ⟨_, pad_mem L hw, rfl⟩
      refine Submodule.map_le_iff_le_comap.2 (le_trans (show (⊤ : Submodule ℂ _) ≤ rows ⊤ from fun v _ u => Submodule.mem_top) (rows_le h7))
    rw [← hVr]
    rintro _ ⟨v, rfl⟩
    apply hall
    have hVM : V ∈ M := hV
    have h8 := congrArg Subtype.val (B.sum_repr ⟨V, hVM⟩)
    refine ⟨fun c => v (finProdFinEquiv.symm c).1 * B.repr ⟨V, hVM⟩ (finProdFinEquiv.symm c).2, ?_⟩
    funext r
    rw [mulVecLin_apply, mulVecLin_apply, mulVec, dotProduct, sum_prod, mulVec, dotProduct]
    refine Finset.sum_congr rfl fun u _ => ?_
    have h9 : V r u = ∑ i, B.repr ⟨V, hVM⟩ i * S i r u := by
      have := congrFun (congrFun h8 r) u
      rw [Submodule.coe_sum, Matrix.sum_apply] at this
      exact this.symm
    rw [h9, Finset.sum_mul]
    refine Finset.sum_congr rfl fun i _ => ?_
    rw [wide_apply]
    simp only [Equiv.symm_apply_apply]
    ring
  rw [eq_top_iff, ← hsup]
  exact foldr_le fun U hU => hle U (hl U hU)

end LieNN.Semi

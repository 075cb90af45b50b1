import Verif.Proofs.RepOps
/-!
# Guards, `tensor_power`
-/
namespace LieNN

open Matrix NormedSpace Spec

variable {n h d n₁ n₂ h₁ h₂ d₁ d₂ d' : ℕ}

theorem allCloseA_refl {n : ℕ} (A : Fin n → Fin n → Fin n → ℂ) : AllCloseA A A := by
  intro i j k
  simp only [IsClose, sub_self, norm_zero]
  positivity

namespace GRep

theorem guarded_ok {r₁ : Rep n h d₁} {r₂ : Rep n h d₂} (hA : AllCloseA r₁.A r₂.A)
    (f : ∀ {n h d₁ d₂ : ℕ}, Rep n h d₁ → Rep n h d₂ → GRep) :
    guarded ⟨n, h, d₁, r₁⟩ ⟨n, h, d₂, r₂⟩ f = .ok (f r₁ r₂) := by
  unfold guarded
  rw [dif_pos rfl, if_pos hA, dif_pos rfl]

theorem guarded_not_close {r₁ : Rep n h₁ d₁} {r₂ : Rep n h₂ d₂} (hA : ¬ AllCloseA r₁.A r₂.A)
    (f : ∀ {n h d₁ d₂ : ℕ}, Rep n h d₁ → Rep n h d₂ → GRep) :
    guarded ⟨n, h₁, d₁, r₁⟩ ⟨n, h₂, d₂, r₂⟩ f = .error .assertionError := by
  unfold guarded
  rw [dif_pos rfl, if_neg hA]

theorem guarded_h_ne {r₁ : Rep n h₁ d₁} {r₂ : Rep n h₂ d₂} (hh : h₁ ≠ h₂)
    (f : ∀ {n h d₁ d₂ : ℕ}, Rep n h d₁ → Rep n h d₂ → GRep) :
    guarded ⟨n, h₁, d₁, r₁⟩ ⟨n, h₂, d₂, r₂⟩ f = .error .assertionError := by
  unfold guarded
  rw [dif_pos rfl]
  by_cases hA : AllCloseA r₁.A r₂.A
  · rw [if_pos hA, dif_neg (fun h => hh h.symm)]
  · rw [if_neg hA]

theorem tensorPowerLoop_neg (fuel : ℕ) (rep result : GRep) {N : ℤ} (hN : N < 0)
    {r : Rep n h d} (hrep : ∃ e, ∃ s : Rep n h e, rep = ⟨n, h, e, s⟩ ∧ s.A = r.A)
    (hres : ∃ e, ∃ s : Rep n h e, result = ⟨n, h, e, s⟩ ∧ s.A = r.A) :
    tensorPowerLoop fuel rep result N = none := by
  induction fuel generalizing rep result N with
  | zero => rfl
  | succ fuel ih =>
    obtain ⟨e₁, s₁, rfl, hs₁⟩ := hrep
    obtain ⟨e₂, s₂, rfl, hs₂⟩ := hres
    have t1 : tensorProduct ⟨n, h, e₁, s₁⟩ ⟨n, h, e₂, s₂⟩ = .ok ⟨n, h, _, s₁.tensorProduct s₂⟩ :=
      guarded_ok (by rw [hs₁, hs₂]; exact allCloseA_refl _) _
    have t2 : tensorProduct ⟨n, h, e₁, s₁⟩ ⟨n, h, e₁, s₁⟩ = .ok ⟨n, h, _, s₁.tensorProduct s₁⟩ :=
      guarded_ok (allCloseA_refl _) _
    rw [tensorPowerLoop, t1, t2]
    have hN2 : ¬ N / 2 = 0 := by omega
    by_cases hp : N % 2 = 1
    · simp only [if_pos hp, if_neg hN2]
      exact ih _ _ (by omega) ⟨_, _, rfl, hs₁⟩ ⟨_, _, rfl, hs₁⟩
    · simp only [if_neg hp, if_neg hN2]
      exact ih _ _ (by omega) ⟨_, _, rfl, hs₁⟩ ⟨_, _, rfl, hs₂⟩

end GRep

/-- The `N`-fold Kronecker power of a matrix, `N = 0` giving the `1 × 1` identity. -/
def kronPow (M : SMat) : ℕ → SMat
  | 0 => SMat.unit
  | N + 1 => SMat.kron M (kronPow M N)

theorem kronPow_add (M : SMat) (a b : ℕ) :
    kronPow M (a + b) = SMat.kron (kronPow M a) (kronPow M b) := by
  induction a with
  | zero => rw [Nat.zero_add]; exact (SMat.unit_kron _).symm
  | succ a ih =>
    rw [Nat.succ_add]
    show SMat.kron M (kronPow M (a + b)) = SMat.kron (SMat.kron M (kronPow M a)) _
    rw [ih, SMat.kron_assoc]

/-- `t` is an `N`-th tensor power of `r`. -/
def IsTensorPower (r : Rep n h d) (N : ℕ) (t : GRep) : Prop :=
  ∃ e, ∃ s : Rep n h e, t = ⟨n, h, e, s⟩ ∧ e = d ^ N ∧ s.A = r.A ∧ (IsRep r → IsRep s) ∧
    (IsUnitaryRep r → IsUnitaryRep s) ∧
    ∀ c k g, r.expMap c k = .ok g →
      ∃ g', s.expMap c k = .ok g' ∧ (⟨e, e, g'⟩ : SMat) = kronPow ⟨d, d, g⟩ N

theorem isTensorPower_mul {r : Rep n h d} {a b : ℕ} {s t : GRep} (hs : IsTensorPower r a s)
    (ht : IsTensorPower r b t) :
    ∃ u, GRep.tensorProduct s t = .ok u ∧ IsTensorPower r (a + b) u := by
  obtain ⟨e₁, s, rfl, he₁, hA₁, hr₁, hu₁, hg₁⟩ := hs
  obtain ⟨e₂, t, rfl, he₂, hA₂, hr₂, hu₂, hg₂⟩ := ht
  refine ⟨_, GRep.guarded_ok (by rw [hA₁, hA₂]; exact allCloseA_refl _) _, ?_⟩
  refine ⟨_, s.tensorProduct t, rfl, by rw [he₁, he₂, pow_add], hA₁, ?_, ?_, ?_⟩
  · exact fun hr => isRep_tensorProduct (hA₁.trans hA₂.symm) (hr₁ hr) (hr₂ hr)
  · exact fun hr => unitary_tensorProduct (hu₁ hr) (hu₂ hr)
  · intro c k g hg
    obtain ⟨g₁, hg₁, e1⟩ := hg₁ c k g hg
    obtain ⟨g₂, hg₂, e2⟩ := hg₂ c k g hg
    refine ⟨_, expMap_tensorProduct hg₁ hg₂, ?_⟩
    rw [kronPow_add, ← e1, ← e2]
    rfl

theorem isTensorPower_one (r : Rep n h d) : IsTensorPower r 1 ⟨n, h, d, r⟩ := by
  refine ⟨d, r, rfl, by simp, rfl, id, id, ?_⟩
  intro c k g hg
  exact ⟨g, hg, (SMat.kron_unit _).symm⟩

theorem createTrivial_X (r : Rep n h d) (a : Fin n) : r.createTrivial.X a = 0 := rfl

theorem createTrivial_H (r : Rep n h d) (a : Fin h) : r.createTrivial.H a = 1 := by
  ext i j
  rw [Subsingleton.elim i j]; simp [Rep.createTrivial]

theorem isTensorPower_zero (r : Rep n h d) : IsTensorPower r 0 (GRep.createTrivial ⟨n, h, d, r⟩) := by
  refine ⟨1, r.createTrivial, rfl, by simp, rfl, ?_, ?_, ?_⟩
  · intro _ i j
    simp [createTrivial_X]
  · intro _
    exact ⟨fun a => by simp [createTrivial_H], fun a => by simp [createTrivial_X]⟩
  · intro c k g _
    exact ⟨1, createTrivial_expMap r c k, rfl⟩

theorem tensorPowerLoop_spec (r : Rep n h d) :
    ∀ (fuel : ℕ) (rep result : GRep) (p m N : ℕ), IsTensorPower r p rep → IsTensorPower r m result →
      N < 2 ^ fuel →
      ∃ t, GRep.tensorPowerLoop (fuel + 1) rep result N = some (.ok t) ∧
        IsTensorPower r (p * N + m) t := by
  intro fuel
  induction fuel with
  | zero =>
    intro rep result p m N hrep hres hN
    have : N = 0 := by simpa using hN
    subst this
    refine ⟨result, ?_, by simpa using hres⟩
    simp [GRep.tensorPowerLoop]
  | succ fuel ih =>
    intro rep result p m N hrep hres hN
    rw [GRep.tensorPowerLoop]
    have hcast : ((N : ℤ) / 2) = ((N / 2 : ℕ) : ℤ) := by omega
    obtain ⟨u, hu, hup⟩ := isTensorPower_mul hrep hres
    obtain ⟨v, hv, hvp⟩ := isTensorPower_mul hrep hrep
    rw [hu, hv, hcast]
    by_cases hp : N % 2 = 1
    · rw [if_pos (by omega)]
      by_cases h0 : N / 2 = 0
      · have : N = 1 := by omega
        subst this
        exact ⟨u, by simp, by simpa using hup⟩
      · simp only [Nat.cast_eq_zero, if_neg h0]
        obtain ⟨t, ht, htp⟩ := ih v u (p + p) (p + m) (N / 2) hvp hup (by rw [pow_succ] at hN; omega)
        refine ⟨t, ht, ?_⟩
        have e : (p + p) * (N / 2) + (p + m) = p * N + m := by
          have : N = 2 * (N / 2) + 1 := by omega
          conv_rhs => rw [this]
          ring
        rwa [e] at htp
    · rw [if_neg (by omega)]
      by_cases h0 : N / 2 = 0
      · have : N = 0 := by omega
        subst this
        exact ⟨result, by simp, by simpa using hres⟩
      · simp only [Nat.cast_eq_zero, if_neg h0]
        obtain ⟨t, ht, htp⟩ := ih v result (p + p) m (N / 2) hvp hres (by rw [pow_succ] at hN; omega)
        refine ⟨t, ht, ?_⟩
        have e : (p + p) * (N / 2) + m = p * N + m := by
          have : N = 2 * (N / 2) := by omega
          conv_rhs => rw [this]
          ring
        rwa [e] at htp

end LieNN

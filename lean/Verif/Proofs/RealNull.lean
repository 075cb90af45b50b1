import Verif.Proofs.IntertwinerRep
import Verif.Proofs.IrProduct
/-!
# `nullspace` of a real matrix is real
-/
namespace LieNN

open LieNN.Spec Matrix

variable {m n : ℕ} {eigh : EighFn} {eps : ℝ}

/-- All components are real. -/
def RealVec (v : Vec n) : Prop := ∀ i, star (v i) = v i

/-- The conjugate vector. -/
noncomputable def starVec (v : Vec n) : Vec n := WithLp.toLp 2 fun i => star (v i)

theorem inner_conjVec (u v : Vec n) : inner ℂ u (starVec v) = star (inner ℂ (starVec u) v) := by
  rw [PiLp.inner_apply, PiLp.inner_apply, star_sum]
  refine Finset.sum_congr rfl fun i _ => ?_
  simp [starVec, mul_comm]

theorem RealVec.conj {v : Vec n} (h : RealVec v) : starVec v = v := by
  ext i
  exact h i

theorem inner_real {u v : Vec n} (hu : RealVec u) (hv : RealVec v) : star (inner ℂ u v) = inner ℂ u v := by
  have := inner_conjVec u v
  rw [hu.conj, hv.conj] at this
  exact this.symm

theorem nullProj_real (he : EighSpec eigh) (heps : 0 < eps) (A : Matrix (Fin m) (Fin n) ℂ) (hgap : Gap eps A)
    (hA : ∀ i j, star (A i j) = A i j) (i : Fin n) :
    RealVec (nullProj eps (eigh n (Aᴴ * A)).1 (eigh n (Aᴴ * A)).2 i) := by
  obtain ⟨ho, hev⟩ := eigh_spec_mul he A
  have hsel := selSpan_eq_kernel eps heps ho hev hgap
  set P := nullProj eps (eigh n (Aᴴ * A)).1 (eigh n (Aᴴ * A)).2 i with hP
  have hconj : ∀ v : Vec n, v ∈ kernel A → starVec v ∈ kernel A := by
    intro v hv
    have hv' : A *ᵥ v.ofLp = 0 := hv
    show A *ᵥ (starVec v).ofLp = 0
    funext k
    have := congrArg star (congrFun hv' k)
    rw [Pi.zero_apply, star_zero] at this
    rw [Pi.zero_apply, ← this]
    simp only [Matrix.mulVec, dotProduct, star_sum, star_mul', hA]
    rfl
  have h1 : P ∈ kernel A := by rw [← hsel]; exact nullProj_mem eps i
  have h2 : ∀ u ∈ kernel A, inner ℂ u P = inner ℂ u (EuclideanSpace.single i (1 : ℂ)) := by
    intro u hu
    exact (nullProj_inner eps ho i u (by rw [hsel]; exact hu)).symm
  have h3 : ∀ u ∈ kernel A, inner ℂ u (starVec P - P) = 0 := by
    intro u hu
    rw [inner_sub_right, inner_conjVec, h2 _ (hconj u hu), h2 u hu]
    simp [starVec, EuclideanSpace.inner_single_right]
  have h4 := h3 _ (Submodule.sub_mem _ (hconj P h1) h1)
  have h5 := sub_eq_zero.1 (inner_self_eq_zero.1 h4)
  intro k
  exact congrFun (congrArg WithLp.ofLp h5) k

theorem RealVec.sub {u v : Vec n} (hu : RealVec u) (hv : RealVec v) : RealVec (u - v) := fun i => by
  rw [PiLp.sub_apply, star_sub, hu, hv]

theorem RealVec.smul {c : ℂ} {v : Vec n} (hc : star c = c) (hv : RealVec v) : RealVec (c • v) := fun i => by
  rw [PiLp.smul_apply, smul_eq_mul, star_mul', hc, hv]

theorem gsReduce_real (Q : List (Vec n)) (hQ : ∀ q ∈ Q, RealVec q) (v : Vec n) (hv : RealVec v) :
    RealVec (gsReduce Q v) := by
  induction Q generalizing v with
  | nil => exact hv
  | cons w Q ih =>
    have hw := hQ w (by simp)
    exact ih (fun q hq => hQ q (by simp [hq])) _ (hv.sub (hw.smul (inner_real hw hv)))

theorem gsLoop_realVec (A Q : List (Vec n)) (hA : ∀ a ∈ A, RealVec a) (hQ : ∀ q ∈ Q, RealVec q) :
    ∀ q ∈ gsLoop eps A Q, RealVec q := by
  induction A generalizing Q with
  | nil => exact hQ
  | cons a A ih =>
    have hr := gsReduce_real Q hQ a (hA a (by simp))
    have hA' : ∀ b ∈ A, RealVec b := fun b hb => hA b (by simp [hb])
    unfold gsLoop
    simp only
    split_ifs
    · refine ih _ hA' fun q hq => ?_
      rcases List.mem_append.1 hq with hq | hq
      · exact hQ q hq
      · rw [List.mem_singleton.1 hq]
        exact hr.smul (Complex.conj_ofReal _)
    · exact ih _ hA' hQ

theorem nullspace_real (he : EighSpec eigh) (heps : 0 < eps) (A : Matrix (Fin m) (Fin n) ℂ) (hgap : Gap eps A)
    (hA : ∀ i j, star (A i j) = A i j) : ∀ v ∈ nullspace eigh eps A, RealVec v := by
  refine gsLoop_realVec _ _ ?_ (by simp)
  intro a ha
  obtain ⟨i, rfl⟩ := (List.mem_ofFn' _ _).1 ha
  exact nullProj_real he heps A hgap hA i

theorem kron_real {d₁ d₂ : ℕ} {A : Matrix (Fin d₁) (Fin d₁) ℂ} {B : Matrix (Fin d₂) (Fin d₂) ℂ}
    (hA : ∀ i j, star (A i j) = A i j) (hB : ∀ i j, star (B i j) = B i j) (i j) :
    star (kron A B i j) = kron A B i j := by
  obtain ⟨⟨i, k⟩, rfl⟩ := finProdFinEquiv.surjective i
  obtain ⟨⟨j, l⟩, rfl⟩ := finProdFinEquiv.surjective j
  rw [kron_prod, star_mul', hA, hB]

theorem one_real {d : ℕ} (i j : Fin d) : star ((1 : Matrix (Fin d) (Fin d) ℂ) i j) = (1 : Matrix (Fin d) (Fin d) ℂ) i j := by
  rw [Matrix.one_apply]
  split_ifs <;> simp

theorem icobMatrix_real {d₁ d₂ : ℕ} {X₁ : Fin n → Matrix (Fin d₁) (Fin d₁) ℂ} {X₂ : Fin n → Matrix (Fin d₂) (Fin d₂) ℂ}
    (h₁ : ∀ a i j, star (X₁ a i j) = X₁ a i j) (h₂ : ∀ a i j, star (X₂ a i j) = X₂ a i j) (i j) :
    star (icobMatrix X₁ X₂ i j) = icobMatrix X₁ X₂ i j := by
  unfold icobMatrix icobBlock
  rw [Matrix.sub_apply, star_sub, kron_real (h₁ _) one_real, kron_real one_real fun i j => by
    rw [Matrix.transpose_apply, h₂]]

section
variable {h d₁ d₂ d₃ : ℕ} {r₁ : Rep n h d₁} {r₂ : Rep n h d₂} {r₃ : Rep n h d₃}

theorem tensor_real (h₁ : ∀ a i j, star (r₁.allGens a i j) = r₁.allGens a i j)
    (h₂ : ∀ a i j, star (r₂.allGens a i j) = r₂.allGens a i j) :
    ∀ a i j, star ((r₁.tensorProduct r₂).allGens a i j) = (r₁.tensorProduct r₂).allGens a i j := by
  have e : ∀ {d : ℕ} (r : Rep n h d) a, r.allGens (Fin.castAdd h a) = r.X a := fun r a => Fin.append_left r.X r.H a
  have e' : ∀ {d : ℕ} (r : Rep n h d) a, r.allGens (Fin.natAdd n a) = r.H a := fun r a => Fin.append_right r.X r.H a
  intro a
  induction a using Fin.addCases with
  | left a =>
    intro i j
    rw [e]
    have e2 : (r₁.tensorProduct r₂).X a = kron (r₁.X a) 1 + kron 1 (r₂.X a) := rfl
    rw [e2]
    rw [Matrix.add_apply, star_add, kron_real (by rw [← e]; exact h₁ _) one_real,
      kron_real one_real (by rw [← e]; exact h₂ _)]
  | right a =>
    intro i j
    rw [e']
    change star (kron (r₁.H a) (r₂.H a) i j) = kron (r₁.H a) (r₂.H a) i j
    rw [kron_real (by rw [← e']; exact h₁ _) (by rw [← e']; exact h₂ _)]

/-- The generic `clebsch_gordan` of real representations is real. -/
theorem clebschGordan_real (he : EighSpec eigh)
    (hgap : Gap (1 / 10 ^ 4) (icobMatrix r₃.allGens (r₁.tensorProduct r₂).allGens))
    (h₁ : ∀ a i j, star (r₁.allGens a i j) = r₁.allGens a i j)
    (h₂ : ∀ a i j, star (r₂.allGens a i j) = r₂.allGens a i j)
    (h₃ : ∀ a i j, star (r₃.allGens a i j) = r₃.allGens a i j) {G} (hG : Rep.clebschGordan eigh r₁ r₂ r₃ = .ok G) :
    ∀ C ∈ G, ∀ i j k, (C i j k).im = 0 := by
  classical
  have hnull := nullspace_real he (by positivity) _ hgap (icobMatrix_real h₃ (tensor_real h₁ h₂))
  unfold Rep.clebschGordan Rep.inferChangeOfBasis LieNN.inferChangeOfBasis at hG
  unfold pyAssert at hG
  by_cases c1 : AllCloseA r₁.A r₂.A
  swap
  · rw [if_neg c1] at hG
    exact absurd hG (by simp [bind, Except.bind])
  by_cases c2 : AllCloseA (r₁.tensorProduct r₂).A r₃.A
  swap
  · rw [if_pos c1, if_neg c2] at hG
    exact absurd hG (by simp [bind, Except.bind])
  by_cases c3 : n + h = 0
  · rw [if_pos c1, if_pos c2, if_pos c3] at hG
    exact absurd hG (by simp [bind, Except.bind])
  rw [if_pos c1, if_pos c2, if_neg c3] at hG
  simp only [bind, Except.bind, pure, Except.pure] at hG
  split_ifs at hG with c4
  · obtain rfl := Except.ok.inj hG
    intro C hC i j k
    obtain ⟨Q, hQ, rfl⟩ := List.mem_map.1 hC
    obtain ⟨S, hS, rfl⟩ := List.mem_map.1 hQ
    obtain ⟨v, hv, rfl⟩ := List.mem_map.1 hS
    have := hnull v hv (finProdFinEquiv (k, finProdFinEquiv (i, j)))
    show ((((Real.sqrt d₃ : ℝ) : ℂ) • unvec v) k (finProdFinEquiv (i, j))).im = 0
    rw [Matrix.smul_apply, smul_eq_mul, Complex.im_ofReal_mul]
    rw [show (unvec v k (finProdFinEquiv (i, j))).im = 0 from Complex.conj_eq_iff_im.1 this, mul_zero]

theorem nullspace_mem (he : EighSpec eigh) (heps : 0 < eps) {N : ℕ} (A : Matrix (Fin m) (Fin N) ℂ) (hgap : Gap eps A) :
    ∀ v ∈ nullspace eigh eps A, v ∈ kernel A := by
  obtain ⟨ho, hev⟩ := eigh_spec_mul he A
  rw [← selSpan_eq_kernel eps heps ho hev hgap]
  refine gsLoop_mem _ _ ?_ (by simp)
  intro a ha
  obtain ⟨i, rfl⟩ := (List.mem_ofFn' _ _).1 ha
  exact nullProj_mem eps i

/-- Without any bound on the dimensions: no exception, and all arrays are equivariant. -/
theorem clebschGordan_run (he : EighSpec eigh) (hn : n + h ≠ 0) (h₁₂ : AllCloseA r₁.A r₂.A) (h₁₃ : AllCloseA r₁.A r₃.A)
    (hgap : Gap (1 / 10 ^ 4) (icobMatrix r₃.allGens (r₁.tensorProduct r₂).allGens)) :
    ∃ G, Rep.clebschGordan eigh r₁ r₂ r₃ = .ok G ∧ ∀ C ∈ G, IsCG r₁ r₂ r₃ C := by
  have hmem : ∀ Q ∈ (nullspace eigh (1 / 10 ^ 4) (icobMatrix r₃.allGens (r₁.tensorProduct r₂).allGens)).map unvec,
      Q ∈ intertwiners r₃.allGens (r₁.tensorProduct r₂).allGens := by
    intro Q hQ
    obtain ⟨v, hv, rfl⟩ := List.mem_map.1 hQ
    rw [intertwiners_eq]
    exact ⟨v, nullspace_mem he (by positivity) _ hgap v hv, rfl⟩
  refine ⟨((((nullspace eigh (1 / 10 ^ 4) (icobMatrix r₃.allGens (r₁.tensorProduct r₂).allGens)).map unvec).map fun Q =>
    ((Real.sqrt d₃ : ℝ) : ℂ) • Q).map fun Q i j k => Q k (finProdFinEquiv (i, j))), ?_, ?_⟩
  · unfold Rep.clebschGordan Rep.inferChangeOfBasis LieNN.inferChangeOfBasis
    rw [pyAssert_of h₁₂, pyAssert_of (show AllCloseA (r₁.tensorProduct r₂).A r₃.A from h₁₃), if_neg hn]
    simp only [bind, Except.bind]
    rw [pyAssert_of]
    · rfl
    · intro Q hQ a i k
      rw [hmem Q hQ a]
      exact isClose_refl (by positivity) (by positivity) _
  · intro C hC
    obtain ⟨Q, hQ, rfl⟩ := List.mem_map.1 hC
    obtain ⟨S, hS, rfl⟩ := List.mem_map.1 hQ
    exact (isCG_iff r₁ r₂ r₃ _).2 (Submodule.smul_mem _ _ (hmem S hS))
end

end LieNN

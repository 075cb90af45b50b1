import Verif.Proofs.RoundSU2
import Verif.Props.SU2
/-!
# C89: `check_representation_triplet` in floating point

Every run with rounding errors passes when the tolerance is large against the labels, and a run may fail
when it is not.  The label enters with its square in both directions.
-/
namespace LieNN.Props

open Matrix Spec

variable {n h d d₁ d₂ d₃ : ℕ} {u rtol atol G : ℝ}

/-- C89: a sum computed in any order, with any parentheses and any rounding of the additions, is within the
textbook bound; only the nonzero terms count. -/
theorem C89_sum (hu : 0 ≤ u) {s : Multiset ℝ} {z : ℝ} (hz : SumRun u s z) {N : ℕ}
    (hN : ∃ t : Multiset ℝ, ∃ m : ℕ, s = t + Multiset.replicate m 0 ∧ t.card ≤ N + 1) :
    |z - s.sum| ≤ ((1 + u) ^ N - 1) * (s.map fun t => |t|).sum := by
  classical
  obtain ⟨t, m, rfl, ht⟩ := hN
  refine (sumRun_err hu hz).2.trans (mul_le_mul_of_nonneg_right (sub_le_sub_right
    (pow_le_pow_right₀ (by linarith) ?_) 1) (sum_abs_nonneg _))
  have h0 : nz (Multiset.replicate m (0 : ℝ)) = 0 := by
    unfold nz
    rw [Multiset.countP_eq_zero]
    intro a ha
    rw [Multiset.eq_of_mem_replicate ha]
    simp
  have h1 : nz t ≤ t.card := by
    unfold nz
    exact Multiset.countP_le_card _ _
  rw [nz_add, h0]
  omega

/-- C89: `check_algebra_vs_generators` passes in every run. -/
theorem C89_algebra (hu : 0 ≤ u) (hu' : u ≤ 1 / 1000) (hr : 0 ≤ rtol) (hG : 1 / 2 ≤ G) (hb : 80 * G ^ 2 * u ≤ atol)
    {r : Rep n h d} (hA : OnePerBracket r.A) (hX : TwoPerLine G r.X) (hrep : IsRep r)
    {Y : Fin n → Matrix (Fin d) (Fin d) ℂ} (hY : GensRun u r.X Y) {b : Bool}
    (h : CheckAlgebraRun u rtol atol r.A Y b) : b = true := by
  obtain ⟨L, R, c, hL, hR, hc, hb'⟩ := h
  refine hb'.2 fun i j p q => closeRun_true hu' hr (hc i j p q) ?_
  refine (checkAlgebra_close hu hu' hA (by linarith) hX hrep hY (hL i j) (hR i j p q)).trans ?_
  have h1 : G ≤ 2 * G ^ 2 := by nlinarith
  have h2 : 16 * u * G ≤ 16 * u * (2 * G ^ 2) := mul_le_mul_of_nonneg_left h1 (by linarith)
  have h3 : 0 ≤ G ^ 2 * u := by positivity
  nlinarith

/-- C89: `check_representation_triplet` passes in every run, for representations with at most two entries
per row and column and exact equivariant coefficients of modulus at most one. -/
theorem C89_general (hu : 0 ≤ u) (hu' : u ≤ 1 / 1000) (hr : 0 ≤ rtol) (hG : 1 / 2 ≤ G) (hb : 160 * G ^ 2 * u ≤ atol)
    {r₁ : Rep n h d₁} {r₂ : Rep n h d₂} {r₃ : Rep n h d₃} (h₁₂ : r₁.A = r₂.A) (h₁₃ : r₁.A = r₃.A)
    (hA : OnePerBracket r₁.A) (x₁ : TwoPerLine G r₁.X) (x₂ : TwoPerLine G r₂.X) (x₃ : TwoPerLine G r₃.X)
    (i₁ : IsRep r₁) (i₂ : IsRep r₂) (i₃ : IsRep r₃) {L : List (Fin d₁ → Fin d₂ → Fin d₃ → ℝ)}
    (hL : ∀ C ∈ L, (IsCG r₁ r₂ r₃ fun i j k => ((C i j k : ℝ) : ℂ)) ∧ ∀ i j k, |C i j k| ≤ 1)
    {res : Py Unit} (h : TripletRun u rtol atol r₁ r₂ r₃ (.ok L) res) : res = .ok () := by
  obtain ⟨Y₁, Y₂, Y₃, g₁, g₂, g₃, a₂, a₃, b₁, b₂, b₃, ha₂, ha₃, hb₁, hb₂, hb₃, cg', bs, hcg, hbs, rfl⟩ := h
  have hat : 0 ≤ atol := le_trans (by positivity) hb
  have h80 : 80 * G ^ 2 * u ≤ atol := by
    have : 0 ≤ G ^ 2 * u := by positivity
    nlinarith
  have hcl : ∀ {A B : Fin n → Fin n → Fin n → ℂ} {b : Bool}, A = B → CloseAlgebraRun u rtol atol A B b → b = true := by
    rintro A B b rfl ⟨c, hc, hb'⟩
    refine hb'.2 fun i j k => closeRun_true hu' hr (hc i j k) ?_
    rw [sub_self, norm_zero]
    linarith
  have e1 := C89_algebra hu hu' hr hG h80 hA x₁ i₁ g₁ hb₁
  have e2 := C89_algebra hu hu' hr hG h80 (h₁₂ ▸ hA) x₂ i₂ g₂ hb₂
  have e3 := C89_algebra hu hu' hr hG h80 (h₁₃ ▸ hA) x₃ i₃ g₃ hb₃
  obtain ⟨L', rfl, hLL⟩ := hcg
  have hall := hbs L' rfl
  have hbt : ∀ b ∈ bs, b = true := by
    have hS : ∀ {C C' b}, C ∈ L → (∀ i j k, PowRun u (C i j k) (C' i j k)) → SolutionRun u rtol atol Y₁ Y₂ Y₃ C' b → b = true := by
      intro C C' b hC hC' hrun
      obtain ⟨l, P, Q, R, c, hl, hP, hQ, hR, hc, hb'⟩ := hrun
      refine hb'.2 fun a i j k => closeRun_true hu' hr (hc a i j k) ?_
      refine (solution_close hu hu' (show 0 ≤ G by linarith) x₁ x₂ x₃ g₁ g₂ g₃ (hL C hC).1 (hL C hC).2 hC' (hl a i j k) (hP a i j k)
        (hQ a i j k) (hR a i j k)).trans ?_
      have h1 : G ≤ 2 * G ^ 2 := by nlinarith
      have h2 : 78 * u * G ≤ 78 * u * (2 * G ^ 2) := mul_le_mul_of_nonneg_left h1 (by linarith)
      nlinarith [mul_nonneg (sq_nonneg G) hu]
    clear hbs hb₁ hb₂ hb₃
    clear e1 e2 e3
    have : ∀ L₀ L' bs, (∀ C ∈ L₀, C ∈ L) → List.Forall₂ (fun C C' => ∀ i j k, PowRun u (C i j k) (C' i j k)) L₀ L' →
        List.Forall₂ (SolutionRun u rtol atol Y₁ Y₂ Y₃) L' bs → ∀ b ∈ bs, b = true := by
      intro L₀ L' bs hin hf hg
      induction hf generalizing bs with
      | nil => cases hg; simp
      | cons hC _ ih =>
        cases hg with
        | cons hr' hg' =>
          intro b hb'
          rcases List.mem_cons.1 hb' with rfl | hb'
          · exact hS (hin _ List.mem_cons_self) hC hr'
          · exact ih _ (fun C hC => hin C (List.mem_cons_of_mem _ hC)) hg' b hb'
    exact this L L' bs (fun _ h => h) hLL hall
  have e4 := hcl h₁₂ ha₂
  have e5 := hcl h₁₃ ha₃
  simp only [pyAssert_bind, if_pos e4, if_pos e5, if_pos e1, if_pos e2, if_pos e3]
  exact pyAssert_ok_iff.2 hbt

/-- C89: `check_representation_triplet` on `SU2` passes in every run, for all labels up to `J`, when the
absolute tolerance is at least `40 (J + 1)² u`. -/
theorem C89_su2 (hu : 0 ≤ u) (hu' : u ≤ 1 / 1000) (hr : 0 ≤ rtol) {J : ℕ} (hb : 40 * ((J : ℝ) + 1) ^ 2 * u ≤ atol)
    {j₁ j₂ j₃ : ℕ} (h₁ : j₁ ≤ J) (h₂ : j₂ ≤ J) (h₃ : j₃ ≤ J) {res : Py Unit}
    (h : TripletRun u rtol atol (SU2.rep j₁) (SU2.rep j₂) (SU2.rep j₃) (SU2.cg j₁ j₂ j₃) res) : res = .ok () := by
  have hG : ∀ j : ℕ, j ≤ J → TwoPerLine (((J : ℝ) + 1) / 2) (SU2.rep j).X := fun j hj => SU2.twoPerLine (by
    have : (j : ℝ) ≤ J := by exact_mod_cast hj
    linarith)
  have h0 := Nat.cast_nonneg (α := ℝ) J
  have hb' : 160 * (((J : ℝ) + 1) / 2) ^ 2 * u ≤ atol := by linarith
  by_cases ht : j₃ ∈ SU2.mulL j₁ j₂
  · rw [SU2.cg_eq_ct ht] at h
    refine C89_general hu hu' hr (r₁ := SU2.rep j₁) (r₂ := SU2.rep j₂) (r₃ := SU2.rep j₃) (G := ((J : ℝ) + 1) / 2) (by linarith) hb' rfl rfl SU2.onePerBracket (hG _ h₁) (hG _ h₂) (hG _ h₃)
      (SU2.isRep _) (SU2.isRep _) (SU2.isRep _) (fun C hC => ?_) h
    rw [List.mem_singleton.1 hC]
    exact ⟨SU2.isCG_ct ht, fun i j k => SU2.abs_ct_le ht i j k⟩
  · rw [SU2.cg_eq_nil ht] at h
    exact C89_general hu hu' hr (r₁ := SU2.rep j₁) (r₂ := SU2.rep j₂) (r₃ := SU2.rep j₃) (G := ((J : ℝ) + 1) / 2) (by linarith) hb' rfl rfl SU2.onePerBracket (hG _ h₁) (hG _ h₂) (hG _ h₃)
      (SU2.isRep _) (SU2.isRep _) (SU2.isRep _) (fun C hC => absurd hC (List.not_mem_nil)) h

/-- C89: with `float64` and the default tolerances the check passes for all labels up to `149`, in every
order of the operations and every rounding mode. -/
theorem C89_su2_float64 {j₁ j₂ j₃ : ℕ} (h₁ : j₁ ≤ 149) (h₂ : j₂ ≤ 149) (h₃ : j₃ ≤ 149) {res : Py Unit}
    (h : TripletRun (1 / 2 ^ 53) (1 / 10 ^ 10) (1 / 10 ^ 10) (SU2.rep j₁) (SU2.rep j₂) (SU2.rep j₃) (SU2.cg j₁ j₂ j₃) res) :
    res = .ok () :=
  C89_su2 (J := 149) (by positivity) (by norm_num) (by positivity) (by norm_num) h₁ h₂ h₃ h

/-- C89: there is always a run, whatever the coefficients are. -/
theorem C89_run_exists (hu : 0 ≤ u) (r₁ : Rep n h d₁) (r₂ : Rep n h d₂) (r₃ : Rep n h d₃)
    (cg : Py (List (Fin d₁ → Fin d₂ → Fin d₃ → ℝ))) : ∃ res, TripletRun u rtol atol r₁ r₂ r₃ cg res := by
  obtain ⟨a₂, ha₂, -⟩ := closeAlgebraRun_exact (rtol := rtol) (atol := atol) hu r₁.A r₂.A
  obtain ⟨a₃, ha₃, -⟩ := closeAlgebraRun_exact (rtol := rtol) (atol := atol) hu r₁.A r₃.A
  obtain ⟨b₁, hb₁⟩ := checkAlgebraRun_exists (rtol := rtol) (atol := atol) hu r₁.A r₁.X
  obtain ⟨b₂, hb₂⟩ := checkAlgebraRun_exists (rtol := rtol) (atol := atol) hu r₂.A r₂.X
  obtain ⟨b₃, hb₃⟩ := checkAlgebraRun_exists (rtol := rtol) (atol := atol) hu r₃.A r₃.X
  obtain ⟨bs, hbs⟩ : ∃ bs, ∀ L, cg = .ok L → List.Forall₂ (SolutionRun u rtol atol r₁.X r₂.X r₃.X) L bs := by
    rcases cg with e | L
    · exact ⟨[], fun L hL => by cases hL⟩
    · obtain ⟨bs, hbs⟩ := forall₂_exists (fun C => solutionRun_exists (rtol := rtol) (atol := atol) hu r₁.X r₂.X r₃.X C) L
      refine ⟨bs, fun L' hL' => ?_⟩
      rw [← Except.ok.inj hL']
      exact hbs
  exact ⟨_, r₁.X, r₂.X, r₃.X, fun a i j => rnd_self hu _, fun a i j => rnd_self hu _, fun a i j => rnd_self hu _,
    a₂, a₃, b₁, b₂, b₃, ha₂, ha₃, hb₁, hb₂, hb₃, cg, bs, coeffRun_exact hu cg, hbs, rfl⟩

/-- C89: without rounding errors the runs are the exact function of C83, with all its branches. -/
theorem C89_exact (r₁ : Rep n h d₁) (r₂ : Rep n h d₂) (r₃ : Rep n h d₃) (cg : Py (List (Fin d₁ → Fin d₂ → Fin d₃ → ℝ)))
    (res : Py Unit) : TripletRun 0 rtol atol r₁ r₂ r₃ cg res ↔
      res = checkTriplet rtol atol r₁ r₂ r₃ (cg.map fun L => L.map fun C i j k => ((C i j k : ℝ) : ℂ)) := by
  have hA : ∀ {A B : Fin n → Fin n → Fin n → ℂ} {b}, CloseAlgebraRun 0 rtol atol A B b →
      (b = true ↔ ∀ i j k, IsClose atol rtol (A i j k) (B i j k)) := by
    rintro A B b ⟨c, hc, hb⟩
    exact hb.trans (forall_congr' fun i => forall_congr' fun j => forall_congr' fun k => closeRun_zero (hc i j k))
  have hX : ∀ {d : ℕ} {A : Fin n → Fin n → Fin n → ℂ} {X : Fin n → Matrix (Fin d) (Fin d) ℂ} {b},
      CheckAlgebraRun 0 rtol atol A X b → (b = true ↔ CheckAlgebra rtol atol A X) := by
    rintro d A X b ⟨L, R, c, hL, hR, hc, hb⟩
    refine hb.trans (forall_congr' fun i => forall_congr' fun j => forall_congr' fun p => forall_congr' fun q => ?_)
    rw [closeRun_zero (hc i j p q), ← dot_zero (hR i j p q)]
    obtain ⟨P, Q, hP, hQ, hL⟩ := hL i j
    have e : commutator (X i) (X j) p q = P p q - Q p q := by
      rw [← dot_zero (hP p q), ← dot_zero (hQ p q)]
      rfl
    rw [e, rnd_zero (hL p q)]
  have hS : ∀ {X₁ X₂ X₃ C b}, SolutionRun 0 rtol atol (n := n) (d₁ := d₁) (d₂ := d₂) (d₃ := d₃) X₁ X₂ X₃ C b →
      (b = true ↔ ∀ a i j l, IsClose atol rtol (∑ k, ((C i j k : ℝ) : ℂ) * X₃ a l k)
        (∑ i', X₁ a i' i * ((C i' j l : ℝ) : ℂ) + ∑ j', X₂ a j' j * ((C i j' l : ℝ) : ℂ))) := by
    rintro X₁ X₂ X₃ C b ⟨L, P, Q, R, c, hL, hP, hQ, hR, hc, hb⟩
    refine hb.trans (forall_congr' fun a => forall_congr' fun i => forall_congr' fun j => forall_congr' fun l => ?_)
    rw [closeRun_zero (hc a i j l), ← rnd_zero (hR a i j l), ← dot_zero (hL a i j l), ← dot_zero (hP a i j l), ← dot_zero (hQ a i j l)]
  have fwd : ∀ {res}, TripletRun 0 rtol atol r₁ r₂ r₃ cg res →
      res = checkTriplet rtol atol r₁ r₂ r₃ (cg.map fun L => L.map fun C i j k => ((C i j k : ℝ) : ℂ)) := by
    rintro res ⟨Y₁, Y₂, Y₃, g₁, g₂, g₃, a₂, a₃, b₁, b₂, b₃, ha₂, ha₃, hb₁, hb₂, hb₃, cg', bs, hcg, hbs, rfl⟩
    obtain rfl : r₁.X = Y₁ := by funext a i j; exact rnd_zero (g₁ a i j)
    obtain rfl : r₂.X = Y₂ := by funext a i j; exact rnd_zero (g₂ a i j)
    obtain rfl : r₃.X = Y₃ := by funext a i j; exact rnd_zero (g₃ a i j)
    unfold checkTriplet Rep.checkAlgebra
    rw [pyAssert_congr (hA ha₂), pyAssert_congr (hA ha₃), pyAssert_congr (hX hb₁), pyAssert_congr (hX hb₂),
      pyAssert_congr (hX hb₃)]
    refine congrArg _ (funext fun _ => congrArg _ (funext fun _ => congrArg _ (funext fun _ => congrArg _ (funext fun _ =>
      congrArg _ (funext fun _ => ?_)))))
    rcases cg with e | L
    · obtain rfl : cg' = .error e := hcg
      rfl
    · obtain ⟨L', rfl, hLL⟩ := hcg
      obtain rfl : L = L' := by
        clear hbs
        induction hLL with
        | nil => rfl
        | cons hC _ ih =>
          rw [ih]
          congr 1
          funext i j k
          exact powRun_zero (hC i j k)
      have hf := hbs L rfl
      have hiff : (∀ b ∈ bs, b = true) ↔ ∀ C ∈ L.map (fun C i j k => ((C i j k : ℝ) : ℂ)), ∀ a i j l,
          IsClose atol rtol (tripletLeft r₃ C a i j l) (tripletRight r₁ r₂ C a i j l) := by
        clear hbs hLL
        induction hf with
        | nil => simp
        | cons hC _ ih =>
          rw [List.forall_mem_cons, List.map_cons, List.forall_mem_cons, ih, hS hC]
          rfl
      exact pyAssert_congr hiff
  constructor
  · exact fwd
  · rintro rfl
    obtain ⟨res, hres⟩ := C89_run_exists (rtol := rtol) (atol := atol) le_rfl r₁ r₂ r₃ cg
    rw [← fwd hres]
    exact hres

/-- C89: `check_algebra_vs_generators` may fail on `SU2(2m)` with exact generators: it is enough that one
product has the relative error `u`, when `m (m + 1) u / 4` exceeds the absolute tolerance. -/
theorem C89_algebra_bad_run (hu : 0 ≤ u) {m : ℕ} (hm : 1 ≤ m) (hbad : atol < m * (m + 1) / 4 * u) :
    CheckAlgebraRun u rtol atol (SU2.rep (2 * m)).A (SU2.rep (2 * m)).X false := by
  have hr : m < 2 * m + 1 := by omega
  have hk : m + 1 < 2 * m + 1 := by omega
  set r : Fin (2 * m + 1) := ⟨m, hr⟩ with hrd
  set k : Fin (2 * m + 1) := ⟨m + 1, hk⟩ with hkd
  classical
  set X := SU2.gens (2 * m) with hX
  set P : Fin 3 → Fin 3 → Matrix (Fin (2 * m + 1)) (Fin (2 * m + 1)) ℂ := fun i j a b =>
    (X i * X j) a b + if i = 2 ∧ j = 0 ∧ a = r ∧ b = r then Complex.I * ((u * ((X 2 r k).im * (X 0 k r).re) : ℝ) : ℂ) else 0 with hP
  have hrun : ∀ i j a b, DotRun u (fun k => X i a k) (fun k => X j k b) (P i j a b) := by
    intro i j a b
    rw [hP]
    simp only
    split_ifs with hc
    · obtain ⟨rfl, rfl, rfl, rfl⟩ := hc
      rw [Matrix.mul_apply]
      exact dotRun_perturb hu (fun k => X 2 r k) (fun k => X 0 k r) k
    · rw [add_zero, Matrix.mul_apply]
      exact dotRun_exact hu _ _
  obtain ⟨b, hb, hiff⟩ := checkAlgebraRun_of (rtol := rtol) (atol := atol) hu SU2.algebra X P hrun
  rcases b with _ | _
  · exact hb
  exfalso
  have h20 := hiff.1 rfl 2 0 r r
  have hz : ∑ k', SU2.algebra 2 0 k' * X k' r r = X 1 r r := by
    rw [Fin.sum_univ_three]
    change (0 : ℂ) * _ + 1 * _ + 0 * _ = _
    ring
  have hz0 : X 1 r r = 0 := by
    rw [hX, SU2.gens_one_apply, if_pos rfl]
    have : SU2.wt (2 * m) r = 0 := by
      unfold SU2.wt
      rw [hrd]
      push_cast
      ring
    rw [this]; simp
  have hcomm : (X 2 * X 0) r r - (X 0 * X 2) r r = 0 := by
    rw [← Matrix.sub_apply, hX, SU2.comm20, ← hX, hz0]
  have e : P 2 0 r r - P 0 2 r r = Complex.I * ((u * ((X 2 r k).im * (X 0 k r).re) : ℝ) : ℂ) := by
    rw [hP]
    simp only [and_self, if_true]
    rw [if_neg (by decide), add_zero, add_sub_right_comm, hcomm, zero_add]
  have hlad : SU2.lad (2 * m) m = m * (m + 1) := by
    unfold SU2.lad; push_cast; ring
  have e2 : (X 2 r k).im = √(m * (m + 1) : ℝ) / 2 := by
    rw [hX, SU2.gens_two_apply, if_neg (by rw [hrd, hkd]; show ¬ m = m + 1 + 1; omega), if_pos (by rw [hrd, hkd]), Complex.im_mul_ofReal,
      Complex.I_im, one_mul, hrd, hlad]
  have e3 : (X 0 k r).re = -(√(m * (m + 1) : ℝ) / 2) := by
    rw [hX, SU2.gens_zero_apply, if_pos (by rw [hrd, hkd]), Complex.ofReal_re, hrd, hlad]
  rw [hz, hz0, e, sub_zero, norm_zero, mul_zero, add_zero, norm_mul, Complex.norm_I, one_mul, Complex.norm_real, e2, e3,
    Real.norm_eq_abs] at h20
  have e4 : u * (√(m * (m + 1) : ℝ) / 2 * -(√(m * (m + 1) : ℝ) / 2)) = -(m * (m + 1) / 4 * u) := by
    have := Real.mul_self_sqrt (show (0 : ℝ) ≤ m * (m + 1) by positivity)
    linear_combination -(u / 4) * this
  rw [e4, abs_neg, abs_of_nonneg (by positivity)] at h20
  linarith

/-- C89: then `check_representation_triplet` may raise, whatever the other two labels are. -/
theorem C89_su2_bad_run (hu : 0 ≤ u) (ha : 0 ≤ atol) (hr : 0 ≤ rtol) {m : ℕ} (hm : 1 ≤ m) (hbad : atol < m * (m + 1) / 4 * u)
    (j₂ j₃ : ℕ) : TripletRun u rtol atol (SU2.rep (2 * m)) (SU2.rep j₂) (SU2.rep j₃) (SU2.cg (2 * m) j₂ j₃)
      (.error .assertionError) := by
  have hbr := C89_algebra_bad_run (rtol := rtol) hu hm hbad
  obtain ⟨a, ha', hat⟩ := closeAlgebraRun_exact (rtol := rtol) (atol := atol) hu SU2.algebra SU2.algebra
  have hat' : a = true := hat.2 fun i j k => by rw [sub_self, norm_zero]; positivity
  obtain ⟨b₂, hb₂⟩ := checkAlgebraRun_exists (rtol := rtol) (atol := atol) hu (SU2.rep j₂).A (SU2.rep j₂).X
  obtain ⟨b₃, hb₃⟩ := checkAlgebraRun_exists (rtol := rtol) (atol := atol) hu (SU2.rep j₃).A (SU2.rep j₃).X
  obtain ⟨bs, hbs⟩ : ∃ bs, ∀ L, SU2.cg (2 * m) j₂ j₃ = .ok L →
      List.Forall₂ (SolutionRun u rtol atol (SU2.rep (2 * m)).X (SU2.rep j₂).X (SU2.rep j₃).X) L bs := by
    obtain ⟨L, hL, -⟩ := C42_shape (2 * m) j₂ j₃
    obtain ⟨bs, hbs⟩ := forall₂_exists (fun C => solutionRun_exists (rtol := rtol) (atol := atol) hu (SU2.rep (2 * m)).X
      (SU2.rep j₂).X (SU2.rep j₃).X C) L
    refine ⟨bs, fun L' hL' => ?_⟩
    rw [hL] at hL'
    rw [← Except.ok.inj hL']
    exact hbs
  refine ⟨_, _, _, fun a i j => rnd_self hu _, fun a i j => rnd_self hu _, fun a i j => rnd_self hu _,
    a, a, false, b₂, b₃, ha', ha', hbr, hb₂, hb₃, _, bs, coeffRun_exact hu _, hbs, ?_⟩
  subst hat'
  rfl

/-- C89: with `float64` and the default tolerances this is so from the label `3796` on. -/
theorem C89_su2_float64_bad {m : ℕ} (hm : 1898 ≤ m) (j₂ j₃ : ℕ) :
    TripletRun (1 / 2 ^ 53) (1 / 10 ^ 10) (1 / 10 ^ 10) (SU2.rep (2 * m)) (SU2.rep j₂) (SU2.rep j₃) (SU2.cg (2 * m) j₂ j₃)
      (.error .assertionError) := by
  refine C89_su2_bad_run (by positivity) (by positivity) (by positivity) (by omega) ?_ j₂ j₃
  have h : (1898 : ℝ) ≤ m := by exact_mod_cast hm
  have h2 : (1898 : ℝ) * 1899 ≤ m * (m + 1) := by nlinarith
  norm_num
  linarith

/-- A sum with rounding errors: `(1 + 1) + 0` may be `2 + 2 u`. -/
example (hu : 0 ≤ u) : SumRun u {1, 1, 0} (2 + 2 * u) := by
  have h : SumRun u ({1} + {1}) (2 + 2 * u) := by
    refine SumRun.add (SumRun.one 1) (SumRun.one 1) ?_ (by norm_num) (by norm_num)
    unfold Rnd
    rw [show (1 : ℝ) + 1 = 2 by norm_num, add_sub_cancel_left, norm_mul, Real.norm_of_nonneg hu]
    linarith
  have h3 : SumRun u (({1} + {1}) + {0}) (2 + 2 * u) := by
    refine SumRun.add h (SumRun.one 0) ?_ (fun h => by linarith) (fun _ => rfl)
    rw [add_zero]
    exact rnd_self hu _
  exact h3

example {res : Py Unit} (h : TripletRun (1 / 2 ^ 53) (1 / 10 ^ 10) (1 / 10 ^ 10) (SU2.rep 100) (SU2.rep 80) (SU2.rep 60)
    (SU2.cg 100 80 60) res) : res = .ok () :=
  C89_su2_float64 (by norm_num) (by norm_num) (by norm_num) h

end LieNN.Props

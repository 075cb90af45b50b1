import Verif.Proofs.LorentzSL2C
/-!
# C91: `exp_map` of `SO13` is a representation of the Lorentz group, `exp_map` of `SL2C` one of `SU(2) × SU(2)`
-/
namespace LieNN.Props

open Matrix NormedSpace LieNN LieNN.Spec

/-! ## `SO13` -/

/-- C91: with real parameters `exp_map` of `SO13.four_vector()` is in the restricted Lorentz group, and every element of
the group is a product of two such matrices. -/
theorem C91_group (L : Matrix (Fin 4) (Fin 4) ℝ) :
    (∀ c : Fin 6 → ℝ, SO13.fourVector.expMap (fun a => (c a : ℂ)) Fin.elim0 = .ok (L.map Complex.ofReal) → L ∈ lorentz) ∧
    (L ∈ lorentz ↔ ∃ (c c' : Fin 6 → ℝ) (g g' : Matrix (Fin 4) (Fin 4) ℂ),
      SO13.fourVector.expMap (fun a => (c a : ℂ)) Fin.elim0 = .ok g ∧
      SO13.fourVector.expMap (fun a => (c' a : ℂ)) Fin.elim0 = .ok g' ∧ L.map Complex.ofReal = g * g') := by
  refine ⟨fun c hc => ?_, fun hL => ?_, ?_⟩
  · obtain ⟨M, hM, e⟩ := SO13.fourVector_mem hc
    rwa [← ofRealMat_injective 4 e]
  · obtain ⟨c, c', g, g', h1, h2, rfl⟩ := SO13.lorentz_exp hL
    exact ⟨c, c', _, _, h1, h2, map_mul (ofRealMat 4) _ _⟩
  · rintro ⟨c, c', g, g', h1, h2, e⟩
    obtain ⟨M, hM, rfl⟩ := SO13.fourVector_mem h1
    obtain ⟨M', hM', rfl⟩ := SO13.fourVector_mem h2
    rw [ofRealMat_injective 4 (e.trans (map_mul _ _ _).symm)]
    exact lorentz.mul_mem hM hM'

section
variable {eigh : EighFn} {sqrtm : {d : ℕ} → Matrix (Fin d) (Fin d) ℂ → Matrix (Fin d) (Fin d) ℂ}

theorem so13_even {l k : ℕ} (h : SO13.make l k = .ok (l, k)) : Even (l + k) := by
  unfold SO13.make pyAssert at h
  by_cases hp : ((l : ℤ) + k) % 2 = 0
  · exact Nat.even_iff.2 (by omega)
  · simp [hp, bind, Except.bind] at h

/-- `ρ` is what `exp_map` computes with the generators `X`. -/
def Computes13 {d : ℕ} (X : Fin 6 → Matrix (Fin d) (Fin d) ℂ) (ρ : lorentz →* Matrix (Fin d) (Fin d) ℂ) : Prop :=
  ∀ (c : Fin 6 → ℝ) (L : lorentz), SO13.fourVector.expMap (fun a => (c a : ℂ)) Fin.elim0 = .ok (L.1.map Complex.ofReal) →
    (⟨SO13.algebra, X, Fin.elim0⟩ : Rep 6 0 d).expMap (fun a => (c a : ℂ)) Fin.elim0 = .ok (ρ L)

theorem word_of_lorentz (L : lorentz) : ∃ w, WordVal SO13.fourVector w (ofRealMat 4 L.1) := by
  obtain ⟨c, c', g, g', h1, h2, e⟩ := SO13.lorentz_exp L.2
  refine ⟨[(c, Fin.elim0), (c', Fin.elim0)], ?_⟩
  rw [e, map_mul, ← Matrix.mul_one (ofRealMat 4 g')]
  exact .cons h1 (.cons h2 .nil)

theorem lorentz_hom {d e : ℕ} {X : Fin 6 → Matrix (Fin d) (Fin d) ℂ}
    (hp : PolyOf SO13.fourVector (⟨SO13.algebra, X, Fin.elim0⟩ : Rep 6 0 d) e) :
    ∃ ρ : lorentz →* Matrix (Fin d) (Fin d) ℂ, Computes13 X ρ ∧ (∀ ρ', Computes13 X ρ' → ρ' = ρ) ∧
      ∀ w L, WordVal SO13.fourVector w (ofRealMat 4 L.1) → WordVal (⟨SO13.algebra, X, Fin.elim0⟩ : Rep 6 0 d) w (ρ L) := by
  obtain ⟨P, -, hP⟩ := hp
  have h1 := (hP [] 1 .nil).nil_inv
  let ρ : lorentz →* Matrix (Fin d) (Fin d) ℂ :=
    { toFun := fun L => evalMat P (ofRealMat 4 L.1)
      map_one' := by
        change evalMat P (ofRealMat 4 1) = 1
        rw [map_one, h1]
      map_mul' := by
        intro L M
        obtain ⟨w, hw⟩ := word_of_lorentz L
        obtain ⟨w', hw'⟩ := word_of_lorentz M
        have := hP _ _ (wordVal_append hw hw')
        rw [← map_mul] at this
        exact this.unique (wordVal_append (hP _ _ hw) (hP _ _ hw')) }
  have hw : ∀ w L, WordVal SO13.fourVector w (ofRealMat 4 L.1) →
      WordVal (⟨SO13.algebra, X, Fin.elim0⟩ : Rep 6 0 d) w (ρ L) := fun w L hw => hP _ _ hw
  have hc : Computes13 X ρ := by
    intro c L hL
    obtain ⟨g, G, hg, hG, e⟩ := WordVal.cons_inv (hP [(c, Fin.elim0)] _ (.cons hL .nil))
    rw [hG.nil_inv, Matrix.mul_one, Matrix.mul_one] at e
    rw [hg, ← e]
    rfl
  refine ⟨ρ, hc, fun ρ' h' => ?_, hw⟩
  have single : ∀ (c : Fin 6 → ℝ) (L : lorentz), SO13.fourVector.expMap (fun a => (c a : ℂ)) Fin.elim0 = .ok (ofRealMat 4 L.1) →
      ρ' L = ρ L := fun c L hL => Except.ok.inj ((h' c L hL).symm.trans (hc c L hL))
  ext1 L
  obtain ⟨c, c', g, g', h1, h2, e⟩ := SO13.lorentz_exp L.2
  obtain ⟨M, hM, eM⟩ := SO13.fourVector_mem h1
  obtain ⟨M', hM', eM'⟩ := SO13.fourVector_mem h2
  obtain rfl := ofRealMat_injective 4 eM
  obtain rfl := ofRealMat_injective 4 eM'
  have : L = ⟨M, hM⟩ * ⟨M', hM'⟩ := Subtype.ext e
  rw [this, map_mul, map_mul, single c _ h1, single c' _ h2]

/-- C91: for every label that `SO13` accepts there is exactly one homomorphism from the restricted Lorentz group that
`exp_map` computes. -/
theorem C91_so13 (he : EighSpec eigh) (hs : SqrtmInvSpec sqrtm) {r : SL2C} (hm : SO13.make r.l r.k = .ok (r.l, r.k))
    (hd : r.dim < 10 ^ 4) : ∃ X, SO13.gens eigh (1 / 10 ^ 4) sqrtm r = .ok X ∧
      ∃! ρ : lorentz →* Matrix (Fin r.dim) (Fin r.dim) ℂ, Computes13 X ρ := by
  obtain ⟨X, hX, -, W, hW⟩ := SO13.gens_twist he hs r hd
  obtain ⟨ρ, h1, h2, -⟩ := lorentz_hom (SO13.polyOf_twist (so13_even hm) hW)
  exact ⟨X, hX, ρ, h1, h2⟩

/-- C91: its entries are homogeneous polynomials of degree `max l k` in the entries of the Lorentz transformation. -/
theorem C91_polynomial (he : EighSpec eigh) (hs : SqrtmInvSpec sqrtm) {r : SL2C} (hm : SO13.make r.l r.k = .ok (r.l, r.k))
    (hd : r.dim < 10 ^ 4) {X} (hX : SO13.gens eigh (1 / 10 ^ 4) sqrtm r = .ok X) :
    ∃ P : Fin r.dim → Fin r.dim → MvPolynomial (Fin 4 × Fin 4) ℂ, (∀ a b, (P a b).IsHomogeneous (max r.l r.k)) ∧
      ∀ (c : Fin 6 → ℝ) g, SO13.fourVector.expMap (fun a => (c a : ℂ)) Fin.elim0 = .ok g →
        (⟨SO13.algebra, X, Fin.elim0⟩ : Rep 6 0 r.dim).expMap (fun a => (c a : ℂ)) Fin.elim0 = .ok (evalMat P g) := by
  obtain ⟨X', hX', -, W, hW⟩ := SO13.gens_twist he hs r hd
  rw [hX] at hX'
  cases hX'
  obtain ⟨P, hP, h⟩ := SO13.polyOf_twist (so13_even hm) hW
  refine ⟨P, hP, fun c g hg => ?_⟩
  obtain ⟨g', G, hg', hG, e⟩ := WordVal.cons_inv (h [(c, Fin.elim0)] _ (.cons hg .nil))
  rw [hG.nil_inv, Matrix.mul_one, Matrix.mul_one] at e
  rw [hg', ← e]

/-- C91: the homomorphism is injective for every label other than `(0, 0)`. -/
theorem C91_faithful (he : EighSpec eigh) (hs : SqrtmInvSpec sqrtm) {r : SL2C} (hm : SO13.make r.l r.k = .ok (r.l, r.k))
    (hd : r.dim < 10 ^ 4) (h0 : r.l ≠ 0 ∨ r.k ≠ 0) {X} (hX : SO13.gens eigh (1 / 10 ^ 4) sqrtm r = .ok X)
    {ρ : lorentz →* Matrix (Fin r.dim) (Fin r.dim) ℂ} (hρ : Computes13 X ρ) : Function.Injective ρ := by
  obtain ⟨X', hX', -, W, hW⟩ := SO13.gens_twist he hs r hd
  rw [hX] at hX'
  cases hX'
  obtain ⟨ρ', -, h2, h3⟩ := lorentz_hom (SO13.polyOf_twist (so13_even hm) hW)
  obtain rfl := h2 _ hρ
  have one : ∀ L : lorentz, ρ L = 1 → L = 1 := by
    intro L hL
    obtain ⟨w, hw⟩ := word_of_lorentz L
    have hw1 := h3 w L hw
    rw [hL] at hw1
    obtain ⟨z, hz⟩ := SO13.fourVector_schur (commute_of_word C39_four_vector.1 (SO13.twist_isRep hW) rfl SO13.algebra_real
      (fun c hc => SO13.twist_indep h0 hW hc) hw1 hw)
    exact Subtype.ext (SO13.lorentz_scalar L.2 hz)
  intro L M hLM
  obtain ⟨N, hN, h4, h5⟩ := SO13.lorentz_inv M.2
  have e : (⟨N, hN⟩ * M : lorentz) = 1 := Subtype.ext h4
  have e' : (M * ⟨N, hN⟩ : lorentz) = 1 := Subtype.ext h5
  have := one (⟨N, hN⟩ * L) (by rw [map_mul, hLM, ← map_mul, e, map_one])
  calc L = M * ⟨N, hN⟩ * L := by rw [e', one_mul]
    _ = M := by rw [mul_assoc, this, mul_one]

end

/-- C91: why labels need `(l + k) % 2 == 0`: there is a turn that is the identity of the Lorentz group, and the generators of
every `SL2C` label with the boosts made real send it to `(-1) ^ (l + k)`. -/
theorem C91_parity : ∃ c : Fin 6 → ℝ, SO13.fourVector.expMap (fun a => (c a : ℂ)) Fin.elim0 = .ok 1 ∧
    ∀ r : SL2C, (⟨SO13.algebra, SO13.boost (SL2C.rep r).X, Fin.elim0⟩ : Rep 6 0 r.dim).expMap (fun a => (c a : ℂ)) Fin.elim0 =
      .ok ((-1 : ℂ) ^ (r.l + r.k) • 1) :=
  ⟨SO13.turn, SO13.turn_vector, SO13.turn_exp⟩

/-- C91: so a label with `l + k` odd has no homomorphism from the Lorentz group that `exp_map` computes. -/
theorem C91_odd {r : SL2C} (hr : Odd (r.l + r.k)) :
    ¬ ∃ ρ : lorentz →* Matrix (Fin r.dim) (Fin r.dim) ℂ, Computes13 (SO13.boost (SL2C.rep r).X) ρ := by
  rintro ⟨ρ, h⟩
  have h1 : SO13.fourVector.expMap (fun a => (SO13.turn a : ℂ)) Fin.elim0 = .ok ((1 : lorentz).1.map Complex.ofReal) := by
    rw [SO13.turn_vector]
    exact congrArg _ (map_one (ofRealMat 4)).symm
  have h2 := (SO13.turn_exp r).symm.trans (h _ _ h1)
  rw [map_one, hr.neg_one_pow] at h2
  have h3 := congrFun (congrFun (Except.ok.inj h2) ⟨0, Nat.mul_pos r.l.succ_pos r.k.succ_pos⟩) ⟨0, Nat.mul_pos r.l.succ_pos r.k.succ_pos⟩
  norm_num at h3

/-! ## `SL2C` -/

/-- C91: with real parameters the two spinors of `SL2C` have special unitary matrices, and every pair of special unitary
matrices is reached: the group is `SU(2) × SU(2)`, not `SL(2, ℂ)`. -/
theorem C91_sl2c_group :
    (∀ (r : SL2C) (c : Fin 6 → ℝ), ∃ g ∈ specialUnitaryGroup (Fin r.dim) ℂ,
      (SL2C.rep r).expMap (fun a => (c a : ℂ)) Fin.elim0 = .ok g) ∧
    ∀ U ∈ specialUnitaryGroup (Fin 2) ℂ, ∀ V ∈ specialUnitaryGroup (Fin 2) ℂ, ∃ c : Fin 6 → ℝ,
      (SL2C.rep ⟨1, 0⟩).expMap (fun a => (c a : ℂ)) Fin.elim0 = .ok U ∧
      (SL2C.rep ⟨0, 1⟩).expMap (fun a => (c a : ℂ)) Fin.elim0 = .ok V :=
  ⟨fun r c => ⟨_, mem_special (SL2C.rep_unitary r) (SL2C.rep_trace r) (expMap_zero _ (fun a => (c a : ℂ)) Fin.elim0), rfl⟩,
    fun _ hU _ hV => SL2C.spinors_onto hU hV⟩

/-- The block diagonal of two special unitary matrices. -/
noncomputable def spinorHom : specialUnitaryGroup (Fin 2) ℂ × specialUnitaryGroup (Fin 2) ℂ →* Matrix (Fin (2 + 2)) (Fin (2 + 2)) ℂ where
  toFun p := dsum p.1.1 p.2.1
  map_one' := dsum_one
  map_mul' _ _ := (dsum_mul _ _ _ _).symm

/-- C91: for every `SL2C` label there is exactly one homomorphism from `SU(2) × SU(2)` that `exp_map` computes. -/
theorem C91_sl2c (r : SL2C) :
    ∃! ρ : specialUnitaryGroup (Fin 2) ℂ × specialUnitaryGroup (Fin 2) ℂ →* specialUnitaryGroup (Fin r.dim) ℂ,
      ∀ (c : Fin 6 → ℝ) (U V : specialUnitaryGroup (Fin 2) ℂ),
        (SL2C.rep ⟨1, 0⟩).expMap (fun a => (c a : ℂ)) Fin.elim0 = .ok U.1 →
        (SL2C.rep ⟨0, 1⟩).expMap (fun a => (c a : ℂ)) Fin.elim0 = .ok V.1 →
        (SL2C.rep r).expMap (fun a => (c a : ℂ)) Fin.elim0 = .ok (ρ (U, V)).1 := by
  have split : ∀ (c : Fin 6 → ℝ) (U V : Matrix (Fin 2) (Fin 2) ℂ),
      SL2C.spinors.expMap (fun a => (c a : ℂ)) Fin.elim0 = .ok (dsum U V) ↔
        (SL2C.rep ⟨1, 0⟩).expMap (fun a => (c a : ℂ)) Fin.elim0 = .ok U ∧
        (SL2C.rep ⟨0, 1⟩).expMap (fun a => (c a : ℂ)) Fin.elim0 = .ok V := by
    intro c U V
    constructor
    · intro h
      have h1 := expMap_zero (SL2C.rep ⟨1, 0⟩) (fun a => (c a : ℂ)) Fin.elim0
      have h2 := expMap_zero (SL2C.rep ⟨0, 1⟩) (fun a => (c a : ℂ)) Fin.elim0
      have e := Except.ok.inj ((expMap_directSum h1 h2).symm.trans h)
      rw [h1, h2]
      constructor
      · congr 1
        ext i j
        have := congrFun (congrFun e (Fin.castAdd 2 i)) (Fin.castAdd 2 j)
        exact (dsum_ll _ _ _ _).symm.trans (this.trans (dsum_ll _ _ _ _))
      · congr 1
        ext i j
        have := congrFun (congrFun e (Fin.natAdd 2 i)) (Fin.natAdd 2 j)
        exact (dsum_rr _ _ _ _).symm.trans (this.trans (dsum_rr _ _ _ _))
    · rintro ⟨h1, h2⟩
      exact expMap_directSum h1 h2
  obtain ⟨ρ, h1, h2⟩ := (SL2C.polyOf r.l r.k).homInto spinorHom
    (fun U => by
      obtain ⟨c, hc⟩ := SL2C.spinors_onto U.1.2 U.2.2
      exact ⟨c, Fin.elim0, (split c _ _).2 hc⟩)
    (specialUnitaryGroup (Fin r.dim) ℂ).subtype
    Subtype.val_injective fun c k g hg => ⟨⟨g, mem_special (SL2C.rep_unitary r) (SL2C.rep_trace r) hg⟩, rfl⟩
  refine ⟨ρ, fun c U V hU hV => h1 c Fin.elim0 (U, V) ((split c _ _).2 ⟨hU, hV⟩), fun ρ' h => h2 ρ' fun c k U hc => ?_⟩
  rw [Subsingleton.elim k Fin.elim0] at hc ⊢
  obtain ⟨hU, hV⟩ := (split c _ _).1 hc
  exact h c U.1 U.2 hU hV

/-- Case: the group is not trivial. -/
example : ∃ L ∈ lorentz, L ≠ 1 := by
  refine ⟨diagonal ![1, -1, -1, 1], ⟨?_, ?_, ?_⟩, fun h => ?_⟩
  · rw [eta, diagonal_transpose, diagonal_mul_diagonal, diagonal_mul_diagonal]
    congr 1
    funext i
    fin_cases i <;> simp
  · rw [det_diagonal, Fin.prod_univ_four]
    simp
  · simp
  · have := congrFun (congrFun h 1) 1
    norm_num [diagonal_apply] at this

/-- Case: the labels `(1, 1)`, `(2, 0)` and `(2, 4)` are accepted and meet the hypotheses. -/
example : EighSpec exactEigh ∧ (∃ sqrtm : {d : ℕ} → Matrix (Fin d) (Fin d) ℂ → Matrix (Fin d) (Fin d) ℂ, SqrtmInvSpec sqrtm) ∧
    SO13.make 1 1 = .ok (1, 1) ∧ SO13.make 2 0 = .ok (2, 0) ∧ SO13.make 2 4 = .ok (2, 4) ∧ (⟨2, 4⟩ : SL2C).dim < 10 ^ 4 :=
  ⟨exactEigh_spec, SO13.exists_sqrtm, rfl, rfl, rfl, by norm_num [SL2C.dim]⟩

/-- Case: the homomorphism of `(2, 0)` into complex matrices of size three. -/
example : ∃ ρ : lorentz →* Matrix (Fin 3) (Fin 3) ℂ, Function.Injective ρ := by
  obtain ⟨sqrtm, hs⟩ := SO13.exists_sqrtm
  have hd : (⟨2, 0⟩ : SL2C).dim < 10 ^ 4 := by norm_num [SL2C.dim]
  obtain ⟨X, hX, ρ, h, -⟩ := C91_so13 exactEigh_spec hs (r := ⟨2, 0⟩) rfl hd
  exact ⟨ρ, C91_faithful exactEigh_spec hs (r := ⟨2, 0⟩) rfl hd (.inl (by norm_num)) hX h⟩

/-- Case: the spinor has an odd label. -/
example : ¬ ∃ ρ : lorentz →* Matrix (Fin 2) (Fin 2) ℂ, Computes13 (SO13.boost (SL2C.rep ⟨1, 0⟩).X) ρ :=
  C91_odd (r := ⟨1, 0⟩) ⟨0, rfl⟩

end LieNN.Props

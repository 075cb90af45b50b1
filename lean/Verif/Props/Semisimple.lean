import Verif.Props.Complete
import Verif.Props.TensorBasis
import Verif.Proofs.SemisimpleTable
import Verif.Proofs.WeylTables
/-!
# C93: every representation is a `ReducedRep` of labels

Weyl's theorem for the structure constants of the tables, the blocks, and their multiplicities.
-/
namespace LieNN.Props

open Matrix NormedSpace Module LieNN LieNN.Spec LieNN.Highest LieNN.Semi

variable {n h d e : ℕ}

/-! ## Sub-blocks -/

/-- A sub-block of a representation. -/
structure Block (r : Rep n h d) (s : Rep n h e) (V : Matrix (Fin d) (Fin e) ℂ) (P : Matrix (Fin e) (Fin d) ℂ) : Prop where
  inv : P * V = 1
  X : ∀ a, r.X a * V = V * s.X a
  H : ∀ a, r.H a * V = V * s.H a
  A : s.A = r.A

theorem Block.cancel {r : Rep n h d} {s : Rep n h e} {V P} (b : Block r s V P) {M N : Matrix (Fin e) (Fin e) ℂ} (h : V * M = V * N) :
    M = N := by
  have := congrArg (P * ·) h
  simpa only [← Matrix.mul_assoc, b.inv, Matrix.one_mul] using this

theorem Block.isRep {r : Rep n h d} {s : Rep n h e} {V P} (b : Block r s V P) (hr : IsRep r) : IsRep s := by
  intro i j
  apply b.cancel
  rw [Matrix.mul_sub, ← Matrix.mul_assoc, ← Matrix.mul_assoc, ← b.X, ← b.X, Matrix.mul_assoc, Matrix.mul_assoc, ← b.X, ← b.X,
    ← Matrix.mul_assoc, ← Matrix.mul_assoc, ← Matrix.sub_mul, hr i j, Matrix.sum_mul, Matrix.mul_sum]
  refine Finset.sum_congr rfl fun k _ => ?_
  rw [Matrix.smul_mul, Matrix.mul_smul, b.X, b.A]

theorem Block.exp_one {r : Rep n 0 d} {s : Rep n 0 e} {V P} (b : Block r s V P) {c : Fin n → ℂ} {k : Fin 0 → ℤ}
    (hr : r.expMap c k = .ok 1) : s.expMap c k = .ok 1 := by
  have := expMap_intertwine (r := s) (s := r) (Q := V) b.X (fun a => a.elim0) (c := c) (k := k) (expMap_zero s c k) hr
  rw [expMap_zero]
  congr 1
  apply b.cancel
  rw [← this, Matrix.one_mul, Matrix.mul_one]

/-- The sub-block that a family on a subspace is. -/
theorem exists_block (r : Rep n h d) {V : Matrix (Fin d) (Fin e) ℂ} {P : Matrix (Fin e) (Fin d) ℂ}
    {Y : Fin (n + h) → Matrix (Fin e) (Fin e) ℂ} (h1 : P * V = 1) (h2 : ∀ a, r.allGens a * V = V * Y a) :
    ∃ s : Rep n h e, Block r s V P ∧ s.allGens = Y := by
  refine ⟨⟨r.A, fun a => Y (Fin.castAdd h a), fun a => Y (Fin.natAdd n a)⟩, ⟨h1, fun a => ?_, fun a => ?_, rfl⟩, ?_⟩
  · rw [← h2, allGens_left]
  · rw [← h2, allGens_right]
  · funext a
    refine Fin.addCases (fun a => ?_) (fun a => ?_) a
    · rw [allGens_left]
    · rw [allGens_right]

theorem invariant_allGens {r : Rep n 0 d} {W : Submodule ℂ (Fin d → ℂ)} : Invariant r.allGens W ↔ Invariant r.X W := by
  refine ⟨fun H a w hw => ?_, fun H a w hw => ?_⟩
  · have := H (Fin.castAdd 0 a) w hw
    rwa [allGens_left] at this
  · refine Fin.addCases (fun a => ?_) (fun a => a.elim0) a
    rw [allGens_left]
    exact H a w hw

theorem semisimple_allGens {r : Rep n 0 d} : Semisimple r.allGens ↔ Semisimple r.X := by
  unfold Semisimple
  simp only [invariant_allGens]

theorem irreducible_allGens {r : Rep n 0 d} : IrreducibleFamily r.allGens ↔ IrreducibleFamily r.X := by
  have : ∀ W : Submodule ℂ (Fin d → ℂ), (∀ a, ∀ w ∈ W, r.allGens a *ᵥ w ∈ W) ↔ ∀ a, ∀ w ∈ W, r.X a *ᵥ w ∈ W :=
    fun W => invariant_allGens
  unfold IrreducibleFamily
  simp only [this]

theorem equivalent_allGens {r : Rep n 0 d} {s : Rep n 0 e} (H : Equivalent r.X s.X) : Equivalent r.allGens s.allGens := by
  obtain ⟨Q, P, h1, h2, h3⟩ := H
  refine ⟨Q, P, h1, h2, fun a => ?_⟩
  refine Fin.addCases (fun a => ?_) (fun a => a.elim0) a
  rw [allGens_left, allGens_left, h3]

/-! ## The general statements -/

/-- C93: a representation in which every invariant subspace has an invariant complement, and whose irreducible sub-blocks are
equivalent to (allowed) labels of the table, is a `ReducedRep` of (allowed) labels, each with multiplicity one. -/
theorem C93_general {T : Table n h} (hn : n ≠ 0) (hd : 0 < d) {r : Rep n h d} (ok : T.Ir → Prop) (hss : Semisimple r.allGens)
    (hc : ∀ {e : ℕ} (s : Rep n h e) (V P), Block r s V P → IrreducibleFamily s.allGens →
      ∃ i : T.Ir, ok i ∧ Equivalent s.allGens (T.rep i).allGens) :
    ∃ R : ReducedRep T, Acts R r ∧ ∀ m ∈ R.irreps, m.mul = 1 ∧ ok m.ir := by
  obtain ⟨l, hl, hok⟩ := exists_fills ok hss fun V P Y h1 h2 h3 => by
    obtain ⟨s, hb, rfl⟩ := exists_block r h1 h2
    exact hc s V P hb h3
  refine ⟨_, hl.acts hn hd, fun m hm => ?_⟩
  obtain ⟨p, hp, rfl⟩ := List.mem_map.1 hm
  exact ⟨rfl, hok p hp⟩

/-- C93: in whatever way a representation is written as a `ReducedRep`, the multiplicity of a label is the dimension of the space
of equivariant maps from it to the representation of the label. -/
theorem C93_multiplicity {T : Table n h} (hT : Schur T) (hpos : ∀ i, 0 < T.dim i) {R : ReducedRep T} {r : Rep n h d} (hR : Acts R r)
    (i : T.Ir) : mult R.irreps i = finrank ℂ (intertwiners r.allGens (T.rep i).allGens) :=
  mult_eq hT hpos hR i

/-- C93: two `ReducedRep`s act on equivalent representations exactly if they have the same multiplicities. -/
theorem C93_determined {T : Table n h} (hT : Schur T) (hpos : ∀ i, 0 < T.dim i) {R R' : ReducedRep T} {r : Rep n h d} {r' : Rep n h e}
    (hR : Acts R r) (hR' : Acts R' r') :
    Equivalent r.allGens r'.allGens ↔ ∀ i, mult R.irreps i = mult R'.irreps i := by
  refine ⟨fun H i => ?_, equivalent_of_mult hR hR'⟩
  rw [mult_eq hT hpos hR, mult_eq hT hpos hR', finrank_equivalent H]

/-! ## `SU2` -/

/-- C93: every invariant subspace of a representation with the structure constants of `SU2` has an invariant complement. -/
theorem C93_su2_semisimple {r : Rep 3 h d} (hA : r.A = SU2.algebra) (hr : IsRep r) : Semisimple r.X :=
  weyl reductive_su2 (hA ▸ hr)

/-- C93: every representation with the structure constants of `SU2` is a `ReducedRep` of `SU2(j)`s. -/
theorem C93_su2 (hd : 0 < d) {r : Rep 3 0 d} (hA : r.A = SU2.algebra) (hr : IsRep r) :
    ∃ R : ReducedRep SU2.table, Acts R r := by
  obtain ⟨R, hR, -⟩ := C93_general (T := SU2.table) (by norm_num) hd (fun _ => True) (semisimple_allGens.2 (C93_su2_semisimple hA hr))
    fun s V P hb hirr => by
      obtain ⟨j, hj, -⟩ := C92_su2 (hb.A.trans hA) (hb.isRep hr) (irreducible_allGens.1 hirr)
      exact ⟨j, trivial, equivalent_allGens (s := SU2.rep j) hj⟩
  exact ⟨R, hR⟩

/-! ## `SL2C` -/

/-- C93: the same for the structure constants of `SL2C`. -/
theorem C93_sl2c_semisimple {r : Rep 6 h d} (hA : r.A = SL2C.algebra) (hr : IsRep r) : Semisimple r.X :=
  weyl reductive_sl2c (hA ▸ hr)

/-- C93: every representation with the structure constants of `SL2C` is a `ReducedRep` of `SL2C(l, k)`s. -/
theorem C93_sl2c (hd : 0 < d) {r : Rep 6 0 d} (hA : r.A = SL2C.algebra) (hr : IsRep r) :
    ∃ R : ReducedRep SL2C.table, Acts R r := by
  obtain ⟨R, hR, -⟩ := C93_general (T := SL2C.table) (by norm_num) hd (fun _ => True) (semisimple_allGens.2 (C93_sl2c_semisimple hA hr))
    fun s V P hb hirr => by
      obtain ⟨j, hj, -⟩ := C92_sl2c (hb.A.trans hA) (hb.isRep hr) (irreducible_allGens.1 hirr)
      exact ⟨j, trivial, equivalent_allGens (s := SL2C.rep j) hj⟩
  exact ⟨R, hR⟩

/-! ## `SO3` and `O3` -/

/-- C93: every representation with the structure constants of `SO3` whose `exp_map` is a homomorphism from the rotations is a
`ReducedRep` of `SO3(l)`s. -/
theorem C93_so3 (hd : 0 < d) {r : Rep 3 0 d} (hA : r.A = SU2.algebra) (hr : IsRep r)
    {ρ : specialOrthogonalGroup (Fin 3) ℝ →* Matrix (Fin d) (Fin d) ℂ} (hρ : ComputesSO3 r ρ) :
    ∃ R : ReducedRep SO3.table, Acts R r := by
  obtain ⟨R, hR, -⟩ := C93_general (T := SO3.table) (by norm_num) hd (fun _ => True) (semisimple_allGens.2 (C93_su2_semisimple hA hr))
    fun s V P hb hirr => by
      obtain ⟨l, hl⟩ := exists_so3_label (hb.A.trans hA) (hb.isRep hr) (irreducible_allGens.1 hirr)
        fun c hc => hb.exp_one (hρ.kernel c hc)
      exact ⟨l, trivial, equivalent_allGens (s := SO3.rep l) hl⟩
  exact ⟨R, hR⟩

theorem spin_zero (l : ℕ) (M : Matrix (Fin (SU2.dim 1)) (Fin (SO3.dim l)) ℂ) (h : ∀ a, (SU2.rep 1).X a * M = M * (SO3.rep l).X a) :
    M = 0 := by
  obtain ⟨Q, P, h1, h2, h3⟩ := so3_equivalent l
  have hne : 1 ≠ 2 * l := by omega
  have h4 : M * Q = 0 := C70_tables.1.schur.differ (1 : ℕ) (2 * l : ℕ) hne (M * Q) (fun a => by
    change (SU2.rep 1).X a * (M * Q) = M * Q * (SU2.rep (2 * l)).X a
    rw [← Matrix.mul_assoc, h, Matrix.mul_assoc, Matrix.mul_assoc, ← h3]) (fun a => a.elim0)
  calc M = M * Q * P := by rw [Matrix.mul_assoc, h1, Matrix.mul_one]
    _ = 0 := by rw [h4, Matrix.zero_mul]

/-- C93: without the homomorphism it fails: no `ReducedRep` of `SO3(l)`s acts as `SU2(1)`. -/
theorem C93_so3_spin : (SU2.rep 1).A = SU2.algebra ∧ IsRep (SU2.rep 1) ∧ ¬ ∃ R : ReducedRep SO3.table, Acts R (SU2.rep 1) := by
  refine ⟨rfl, SU2.isRep 1, ?_⟩
  rintro ⟨R, hR⟩
  obtain ⟨l, hl, -⟩ := acts_fills hR
  have hz : ∀ p ∈ l, p.2 = 0 := by
    intro p hp
    refine spin_zero p.1 p.2 fun a => ?_
    have := hl.inter p hp (Fin.castAdd 0 a)
    rwa [allGens_left, allGens_left] at this
  have h5 : (Pi.single 0 1 : Fin 2 → ℂ) ∈ (⊤ : Submodule ℂ (Fin 2 → ℂ)) := Submodule.mem_top
  rw [← hl.span] at h5
  have h6 : Submodule.span ℂ {x | ∃ p ∈ l, ∃ j, x = fun i => p.2 i j} ≤ (⊥ : Submodule ℂ (Fin 2 → ℂ)) := by
    rw [Submodule.span_le]
    rintro _ ⟨p, hp, j, rfl⟩
    rw [hz p hp]
    rfl
  have := congrFun ((Submodule.mem_bot ℂ).1 (h6 h5)) 0
  simp at this

/-- C93: every representation with the structure constants of `O3` whose `exp_map` is a homomorphism from the orthogonal
matrices is a `ReducedRep` of `O3(l, p)`s with `p = 1` or `p = -1`. -/
theorem C93_o3 (hd : 0 < d) {r : Rep 3 1 d} (hA : r.A = SU2.algebra) (hr : IsRep r)
    {ρ : orthogonalGroup (Fin 3) ℝ →* Matrix (Fin d) (Fin d) ℂ} (hρ : ComputesO3 r ρ) :
    ∃ R : ReducedRep O3.table, Acts R r ∧ ∀ m ∈ R.irreps, O3.p m.ir = 1 ∨ O3.p m.ir = -1 := by
  obtain ⟨R, hR, h1⟩ := C93_general (T := O3.table) (by norm_num) hd (fun s : O3 => s.p = 1 ∨ s.p = -1)
    (weyl_involution (A := SU2.algebra) reductive_su2 (hA ▸ hr) hρ.sq hρ.comm) fun s V P hb hirr => by
      have hsq : s.H 0 * s.H 0 = 1 := by
        apply hb.cancel
        rw [← Matrix.mul_assoc, ← hb.H, Matrix.mul_assoc, ← hb.H, ← Matrix.mul_assoc, hρ.sq, Matrix.one_mul, Matrix.mul_one]
      have hcomm : ∀ a, s.H 0 * s.X a = s.X a * s.H 0 := by
        intro a
        apply hb.cancel
        rw [← Matrix.mul_assoc, ← Matrix.mul_assoc, ← hb.H, ← hb.X, Matrix.mul_assoc, Matrix.mul_assoc, ← hb.H, ← hb.X,
          ← Matrix.mul_assoc, ← Matrix.mul_assoc, hρ.comm]
      obtain ⟨p, hp, hH⟩ := scalar_of_square hsq hcomm hirr
      obtain ⟨σ, hσ⟩ := hρ.rotations
      have hb' : Block (⟨r.A, r.X, Fin.elim0⟩ : Rep 3 0 d) (⟨s.A, s.X, Fin.elim0⟩ : Rep 3 0 _) V P :=
        ⟨hb.inv, hb.X, fun a => a.elim0, hb.A⟩
      obtain ⟨l, hl⟩ := exists_so3_label (r := (⟨s.A, s.X, Fin.elim0⟩ : Rep 3 0 _)) (hb.A.trans hA) (hb.isRep hr)
        (irreducible_of_scalar hH hirr) fun c hc => hb'.exp_one (hσ.kernel c hc)
      exact ⟨⟨l, p⟩, hp, equivalent_withScalar (s := O3.rep ⟨l, p⟩) hH rfl hl⟩
  exact ⟨R, hR, fun m hm => (h1 m hm).2⟩

/-! ## `SO13` -/

/-- C93: every invariant subspace of a representation with the structure constants of `SO13` has an invariant complement. -/
theorem C93_so13_semisimple {r : Rep 6 h d} (hA : r.A = SO13.algebra) (hr : IsRep r) : Semisimple r.X := by
  have hB : Brackets SL2C.algebra fun a => star (SO13.phase a) • r.X a := unboost_bracket fun i j => by rw [hr i j, hA]
  have hi : ∀ W, Invariant (fun a => star (SO13.phase a) • r.X a) W ↔ Invariant r.X W := by
    intro W
    refine ⟨fun H a w hw => ?_, fun H a w hw => ?_⟩
    · have := W.smul_mem (SO13.phase a) (H a w hw)
      rwa [smul_mulVec, smul_smul, phase_cancel, one_smul] at this
    · rw [smul_mulVec]
      exact W.smul_mem _ (H a w hw)
  intro W hW
  obtain ⟨W', h1, h2⟩ := weyl reductive_sl2c hB W ((hi W).2 hW)
  exact ⟨W', (hi W').1 h1, h2⟩

/-- C93: every representation of dimension below `10 ^ 4` with the structure constants of `SO13` whose `exp_map` is a
homomorphism from the restricted Lorentz group is a `ReducedRep` over any table in which the accepted labels occur. -/
theorem C93_so13 {eigh : EighFn} {sqrtm : {d : ℕ} → Matrix (Fin d) (Fin d) ℂ → Matrix (Fin d) (Fin d) ℂ}
    (he : EighSpec eigh) (hs : SqrtmInvSpec sqrtm) {T : Table 6 0}
    (hT : ∀ s : SL2C, SO13.make s.l s.k = .ok (s.l, s.k) → s.dim < 10 ^ 4 → ∀ X, SO13.gens eigh (1 / 10 ^ 4) sqrtm s = .ok X →
      ∃ i, Equivalent X (T.rep i).X)
    (hd : 0 < d) (hd' : d < 10 ^ 4) {r : Rep 6 0 d} (hA : r.A = SO13.algebra) (hr : IsRep r)
    {ρ : lorentz →* Matrix (Fin d) (Fin d) ℂ} (hρ : Computes13 r.X ρ) : ∃ R : ReducedRep T, Acts R r := by
  obtain ⟨R, hR, -⟩ := C93_general (T := T) (by norm_num) hd (fun _ => True) (semisimple_allGens.2 (C93_so13_semisimple hA hr))
    fun {e} s V P hb hirr => by
      have hirr := irreducible_allGens.1 hirr
      obtain ⟨t, h1⟩ := so13_complete (hb.A.trans hA) (hb.isRep hr) hirr
      have hle : e ≤ d := by
        have := rank_mul_le_left P V
        rw [hb.inv, rank_one, Fintype.card_fin] at this
        exact this.trans ((rank_le_width P).trans (by simp))
      have hdim : e = t.dim := h1.dim_eq
      have hev := so13_label_even hirr (hb.exp_one (turn_one hρ)) h1
      obtain ⟨X, hX, -, W, hW⟩ := SO13.gens_twist he hs t (by omega)
      obtain ⟨i, hi⟩ := hT t (so13_make hev) (by omega) X hX
      exact ⟨i, trivial, equivalent_allGens (h1.trans ((twist_equivalent hW).trans hi))⟩
  exact ⟨R, hR⟩

/-! ## `SUN` -/

section
variable {N d₀ : ℕ}

/-- The structure constants that `SUN.algebra` computes are those of the basis. -/
theorem sunAlgebra_eq (h2 : 2 ≤ N) {S₀ : List ℤ} (hm : SUN.make S₀ = .ok S₀) (hl : S₀.length = N)
    (hd : SUN.dim (SUN.defining N) = .ok (d₀ : ℤ))
    {pinv : Matrix (Fin (N ^ 2 - 1)) (Fin (d₀ * d₀)) ℂ → Matrix (Fin (d₀ * d₀)) (Fin (N ^ 2 - 1)) ℂ}
    (hpinv : PinvOK pinv (SUN.defining N)) {A : Fin (N ^ 2 - 1) → Fin (N ^ 2 - 1) → Fin (N ^ 2 - 1) → ℂ}
    (hA : ∃ F, ∀ fuel ≥ F, SUN.sunAlgebra fuel d₀ (N ^ 2 - 1) pinv S₀ = some (.ok A)) (i j : Fin (N ^ 2 - 1)) :
    (suBasis N).getD i 0 * (suBasis N).getD j 0 - (suBasis N).getD j 0 * (suBasis N).getD i 0 =
      ∑ k : Fin (N ^ 2 - 1), A i j k • (suBasis N).getD k 0 := by
  subst hl
  obtain ⟨A', ⟨F, hF⟩, -, hAe⟩ := C69_algebra hm h2 hd pinv hpinv
  obtain ⟨F', hF'⟩ := hA
  have : A = A' := by
    have h1 := hF (max F F') (le_max_left _ _)
    rw [hF' _ (le_max_right _ _)] at h1
    exact Except.ok.inj (Option.some.inj h1)
  subst this
  exact hAe i j

theorem label_unique {S : List ℤ} {s : Rep (N ^ 2 - 1) 0 d} {t : Rep (N ^ 2 - 1) 0 e} (hs : SUN.IsLabel N S s) (ht : SUN.IsLabel N S t) :
    Equivalent s.X t.X := by
  have hde : d = e := by
    have := hs.d.symm.trans ht.d
    exact_mod_cast Except.ok.inj this
  subst hde
  obtain ⟨L, hL, h1⟩ := hs.g
  obtain ⟨L', hL', h2⟩ := ht.g
  rw [hL] at hL'
  cases hL'
  rw [h1, h2]
  exact Equivalent.refl _

/-- C93: every invariant subspace of a representation with the structure constants that `SUN.algebra` computes has an invariant
complement. -/
theorem C93_sun_semisimple (h2 : 2 ≤ N) {S₀ : List ℤ} (hm : SUN.make S₀ = .ok S₀) (hl : S₀.length = N)
    (hd : SUN.dim (SUN.defining N) = .ok (d₀ : ℤ))
    {pinv : Matrix (Fin (N ^ 2 - 1)) (Fin (d₀ * d₀)) ℂ → Matrix (Fin (d₀ * d₀)) (Fin (N ^ 2 - 1)) ℂ}
    (hpinv : PinvOK pinv (SUN.defining N)) {r : Rep (N ^ 2 - 1) h d}
    (hA : ∃ F, ∀ fuel ≥ F, SUN.sunAlgebra fuel d₀ (N ^ 2 - 1) pinv S₀ = some (.ok r.A)) (hr : IsRep r) : Semisimple r.X := by
  obtain ⟨g, hg⟩ := reductive_sun h2 (sunAlgebra_eq h2 hm hl hd hpinv hA)
  exact weyl hg hr

/-- C93: every such representation is a `ReducedRep` over any table in which the accepted labels occur. -/
theorem C93_sun (h2 : 2 ≤ N) {S₀ : List ℤ} (hm : SUN.make S₀ = .ok S₀) (hl : S₀.length = N)
    (hd : SUN.dim (SUN.defining N) = .ok (d₀ : ℤ))
    {pinv : Matrix (Fin (N ^ 2 - 1)) (Fin (d₀ * d₀)) ℂ → Matrix (Fin (d₀ * d₀)) (Fin (N ^ 2 - 1)) ℂ}
    (hpinv : PinvOK pinv (SUN.defining N)) {T : Table (N ^ 2 - 1) 0}
    (hT : ∀ S, SUN.make S = .ok S → S.length = N → ∃ i, SUN.IsLabel N S (T.rep i))
    (hd0 : 0 < d) {r : Rep (N ^ 2 - 1) 0 d}
    (hA : ∃ F, ∀ fuel ≥ F, SUN.sunAlgebra fuel d₀ (N ^ 2 - 1) pinv S₀ = some (.ok r.A)) (hr : IsRep r) :
    ∃ R : ReducedRep T, Acts R r := by
  have hN : N ^ 2 - 1 ≠ 0 := by
    have : 2 ^ 2 ≤ N ^ 2 := Nat.pow_le_pow_left h2 2
    omega
  obtain ⟨R, hR, -⟩ := C93_general (T := T) hN hd0 (fun _ => True)
    (semisimple_allGens.2 (C93_sun_semisimple h2 hm hl hd hpinv hA hr)) fun s V P hb hirr => by
      obtain ⟨S, ⟨e', t, hS, hE⟩, -⟩ := C92_sun h2 (r := s) hm hl hd pinv hpinv (hb.A ▸ hA) (hb.isRep hr) (irreducible_allGens.1 hirr)
      obtain ⟨i, hi⟩ := hT S hS.m hS.l
      refine ⟨i, trivial, equivalent_allGens (hE.trans ?_)⟩
      exact label_unique hS hi
  exact ⟨R, hR⟩
end

/-! ## Cases -/

/-- Case: a tensor product, in any basis. -/
example (j k : ℕ) (Q : Matrix (Fin ((j + 1) * (k + 1))) (Fin ((j + 1) * (k + 1))) ℂ) (hQ : IsUnit Q) : ∃ R : ReducedRep SU2.table,
    Acts R (⟨SU2.algebra, fun a => Q * ((SU2.rep j).tensorProduct (SU2.rep k)).X a * Q⁻¹, Fin.elim0⟩ : Rep 3 0 ((j + 1) * (k + 1))) := by
  have hdet := (isUnit_iff_isUnit_det Q).1 hQ
  refine C93_su2 (Nat.mul_pos (by omega) (by omega)) rfl fun a b => ?_
  have := isRep_tensorProduct (r₁ := SU2.rep j) (r₂ := SU2.rep k) rfl (SU2.isRep j) (SU2.isRep k) a b
  calc _ = Q * (((SU2.rep j).tensorProduct (SU2.rep k)).X a * ((SU2.rep j).tensorProduct (SU2.rep k)).X b -
        ((SU2.rep j).tensorProduct (SU2.rep k)).X b * ((SU2.rep j).tensorProduct (SU2.rep k)).X a) * Q⁻¹ := by
        simp only [Matrix.mul_sub, Matrix.sub_mul, Matrix.mul_assoc, nonsing_inv_mul_cancel_left _ _ hdet]
    _ = _ := by
      rw [this, Matrix.mul_sum, Matrix.sum_mul]
      refine Finset.sum_congr rfl fun c _ => ?_
      rw [Matrix.mul_smul, Matrix.smul_mul]
      rfl

/-- Case: the structure constants are used: a nilpotent matrix alone has no invariant complement. -/
example : ¬ Semisimple (fun _ : Fin 1 => !![0, 1; 0, 0] : Fin 1 → Matrix (Fin 2) (Fin 2) ℂ) := by
  intro H
  obtain ⟨W', h1, h2, h3⟩ := H (Submodule.span ℂ {![1, 0]}) (fun a w hw => by
    obtain ⟨c, rfl⟩ := Submodule.mem_span_singleton.1 hw
    convert Submodule.zero_mem _ using 1
    ext i
    fin_cases i <;> simp [mulVec, dotProduct, Fin.sum_univ_two])
  have hz : ∀ w ∈ W', w 1 = 0 := by
    intro w hw
    have h4 : (!![0, 1; 0, 0] : Matrix (Fin 2) (Fin 2) ℂ) *ᵥ w = w 1 • ![1, 0] := by
      ext i
      fin_cases i <;> simp [mulVec, dotProduct, Fin.sum_univ_two]
    have h5 : w 1 • (![1, 0] : Fin 2 → ℂ) ∈ Submodule.span ℂ {(![1, 0] : Fin 2 → ℂ)} ⊓ W' :=
      ⟨Submodule.smul_mem _ _ (Submodule.mem_span_singleton_self _), h4 ▸ h1 0 w hw⟩
    rw [h2, Submodule.mem_bot] at h5
    simpa using congrFun h5 0
  have h6 : (![0, 1] : Fin 2 → ℂ) ∈ Submodule.span ℂ {(![1, 0] : Fin 2 → ℂ)} ⊔ W' := by rw [h3]; trivial
  obtain ⟨x, hx, y, hy, hxy⟩ := Submodule.mem_sup.1 h6
  obtain ⟨c, rfl⟩ := Submodule.mem_span_singleton.1 hx
  have := congrFun hxy 1
  simp [hz y hy] at this

/-- Case: multiplicity two. -/
example : ∃ r : Rep 3 0 5, Acts (⟨SU2.algebra, [⟨2, (1 : ℕ)⟩, ⟨1, (0 : ℕ)⟩], none⟩ : ReducedRep SU2.table) r ∧
    finrank ℂ (intertwiners r.allGens (SU2.rep 1).allGens) = 2 := by
  have h := acts_of (T := SU2.table) (r := ⟨SU2.algebra, [⟨2, (1 : ℕ)⟩, ⟨1, (0 : ℕ)⟩], none⟩) (by norm_num) (by simp) (by simp)
    (q := 1) rfl isUnit_one
  refine ⟨_, h, ?_⟩
  refine (C93_multiplicity C70_tables.1.schur C70_tables.1.pos h (1 : ℕ)).symm.trans ?_
  classical
  unfold mult
  have h0 : ¬ ((⟨1, (0 : ℕ)⟩ : MulIr SU2.table).ir = (1 : ℕ)) := zero_ne_one (α := ℕ)
  have h1 : (⟨2, (1 : ℕ)⟩ : MulIr SU2.table).ir = (1 : ℕ) := rfl
  rw [List.map_cons, List.map_cons, List.map_nil, if_pos h1, if_neg h0]
  rfl

/-- Case: `SO3(2)` with its homomorphism. -/
example : ∃ R : ReducedRep SO3.table, Acts R (SO3.rep 2) := by
  obtain ⟨ρ, hρ, -⟩ := C90_so3 2
  exact C93_so3 (by norm_num) rfl (SO3.isRep 2)
    (ρ := (ofRealMat _).comp ((specialOrthogonalGroup (Fin (SO3.dim 2)) ℝ).subtype.comp ρ)) hρ

/-- Case: `O3(2, -1)` with its homomorphism. -/
example : ∃ R : ReducedRep O3.table, Acts R (O3.rep ⟨2, -1⟩) := by
  obtain ⟨ρ, hρ, -⟩ := C90_o3 ⟨2, -1⟩ (.inr rfl)
  obtain ⟨R, hR, -⟩ := C93_o3 (r := O3.rep ⟨2, -1⟩) (by norm_num) rfl (SO3.isRep 2)
    (ρ := (ofRealMat _).comp ((orthogonalGroup (Fin (O3.dim ⟨2, -1⟩)) ℝ).subtype.comp ρ)) hρ
  exact ⟨R, hR⟩

/-- Case: products of labels of `SL2C`. -/
example (s t : SL2C) (h : 0 < s.dim * t.dim) : ∃ R : ReducedRep SL2C.table, Acts R ((SL2C.rep s).tensorProduct (SL2C.rep t)) :=
  C93_sl2c h rfl (isRep_tensorProduct rfl (SL2C.isRep s) (SL2C.isRep t))

/-- The accepted labels of `SO13` with their generators. -/
noncomputable def so13Labels (sqrtm : {d : ℕ} → Matrix (Fin d) (Fin d) ℂ → Matrix (Fin d) (Fin d) ℂ) : Table 6 0 where
  Ir := {s : SL2C // SO13.make s.l s.k = .ok (s.l, s.k)}
  dim := fun s => s.1.dim
  rep := fun s => ⟨SO13.algebra, match SO13.gens exactEigh (1 / 10 ^ 4) sqrtm s.1 with
    | .ok X => X
    | .error _ => 0, Fin.elim0⟩
  prod := fun _ _ => []
  cg := fun _ _ _ => []

/-- Case: the four vector over the table of the accepted labels. -/
example : ∃ sqrtm : {d : ℕ} → Matrix (Fin d) (Fin d) ℂ → Matrix (Fin d) (Fin d) ℂ, SqrtmInvSpec sqrtm ∧
    ∃ R : ReducedRep (so13Labels sqrtm), Acts R SO13.fourVector := by
  obtain ⟨sqrtm, hs⟩ := SO13.exists_sqrtm
  refine ⟨sqrtm, hs, C93_so13 exactEigh_spec hs (r := SO13.fourVector) (T := so13Labels sqrtm) (fun s h _ X hX => ⟨⟨s, h⟩, ?_⟩) (by norm_num) (by norm_num)
    rfl C39_four_vector.1 (ρ := (ofRealMat 4).comp lorentz.subtype) fun c L h => h⟩
  have : ((so13Labels sqrtm).rep ⟨s, h⟩).X = X := by
    simp only [so13Labels, hX]
  rw [this]
  exact Equivalent.refl _

/-- Case: the square of the octet of `SU(3)`. -/
example : ∃ (r : Rep (3 ^ 2 - 1) 0 (8 * 8)) (T : Table (3 ^ 2 - 1) 0),
    T.Ir = {S : List ℤ // SUN.make S = .ok S ∧ S.length = 3} ∧ ∃ R : ReducedRep T, Acts R r := by
  have hd : SUN.dim (SUN.defining 3) = .ok ((3 : ℕ) : ℤ) := by decide +kernel
  obtain ⟨r₀, h0⟩ := sun_exists (n := 3) (by norm_num) (S := SUN.defining 3) (defining_make 3 (by norm_num)) rfl hd
  obtain ⟨r, h⟩ := sun_exists (n := 3) (by norm_num) (S := [2, 1, 0]) rfl rfl (d := 8) (by decide +kernel)
  obtain ⟨L, hL, -⟩ := h0.g
  have hi := C69_faithful h0.m ⟨1, by simp [SUN.defining], one_ne_zero⟩ hd hL
  obtain ⟨P, hP⟩ := exists_pinv hi
  have hp : PinvOK (fun _ => P) (SUN.defining 3) := fun L' hL' => by rw [hL] at hL'; cases hL'; exact hP
  obtain ⟨A, hA, -, hAe⟩ := C69_algebra (S := [2, 1, 0]) rfl (by norm_num) hd (fun _ => P) hp
  have hrep := h.isRep (by norm_num) hAe
  let T : Table (3 ^ 2 - 1) 0 :=
    { Ir := {S : List ℤ // SUN.make S = .ok S ∧ S.length = 3}
      dim := fun S => (SUN.pats S.1).length
      rep := fun S => labelRep 3 S.1
      prod := fun _ _ => []
      cg := fun _ _ _ => [] }
  exact ⟨(⟨A, r.X, r.H⟩ : Rep (3 ^ 2 - 1) 0 8).tensorProduct ⟨A, r.X, r.H⟩, T, rfl, C93_sun (N := 3) (S₀ := [2, 1, 0]) (by norm_num) rfl rfl hd hp
    (T := T) (fun S hS hl => ⟨⟨S, hS, hl⟩, SUN.exists_label (by norm_num) hS hl⟩) (by norm_num) hA (isRep_tensorProduct rfl hrep hrep)⟩

end LieNN.Props

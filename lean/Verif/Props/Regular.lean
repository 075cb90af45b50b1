import Verif.Proofs.DecomposeSum
import Verif.Props.DecomposeIrr
import Verif.Props.Algebra
import Verif.Props.Finite
/-!
# `decompose_rep_into_irreps` splits; the regular representation contains all irreducible ones
-/
namespace LieNN.Props

open Matrix Spec Semi Module MeasureTheory

variable {n d : ℕ}

open Classical in
/-- C94: for real generators that are anti-symmetric or orthogonal, almost all weights, every `eig` that finds eigenbases and every
small enough tolerance, the generators are equivalent to the blocks of `decompose_rep_into_irreps` put on the diagonal, and an
irreducible family is equivalent to as many blocks as there are independent equivariant maps to it. -/
theorem C94_sum {eigh : EighFn} (he : EighSpec eigh) (hn : n ≠ 0) (hd0 : d ≠ 0)
    (X : Fin n → Matrix (Fin d) (Fin d) ℂ) (hX : ∀ a, (X a)ᴴ = -X a ∨ (X a)ᴴ * X a = 1)
    (hreal : ∀ a p q, (X a p q).im = 0) :
    ∀ᵐ w : Fin (finrank ℂ (intertwiners X X)) → ℝ,
      ∀ w' : ℕ → ℝ, (∀ l : Fin _, w' l = w l) → ∀ eig, EigSpec eig →
      ∃ ε : ℝ, 0 < ε ∧ ∀ eps, 0 < eps → eps < ε → ∀ fuel, d < fuel →
        ∃ Ys, decomposeRep eigh eig w' eps X fuel = some (.ok Ys) ∧ (∀ Y ∈ Ys, IrreducibleFamily Y.2) ∧
          Equivalent X (blockSum Ys) ∧
          ∀ {k : ℕ} (Z : Fin n → Matrix (Fin k) (Fin k) ℂ), IrreducibleFamily Z →
            Ys.countP (fun Y => decide (Equivalent Y.2 Z)) = finrank ℂ (intertwiners X Z) := by
  filter_upwards [C85_decompose he hn hd0 X hX hreal] with w hw w' hw' eig heig
  obtain ⟨ε, hε, hrun⟩ := hw w' hw' eig heig
  refine ⟨ε, hε, fun eps hp hl fuel hf => ?_⟩
  obtain ⟨Ys, hdec, hirr, hsum, hgood, hgap, hdd⟩ := hrun eps hp hl fuel hf
  obtain ⟨Q, q1, q2, -, -⟩ := inferChangeOfBasis_spec he hp hn X X hdd hgap
  have hM : (∑ l : Fin Q.length, ((w' l : ℝ) : ℂ) • Q.get l) ∈ intertwiners X X := by
    refine Submodule.sum_mem _ fun l _ => Submodule.smul_mem _ _ ?_
    rw [← q2]
    exact Submodule.subset_span (List.get_mem Q l)
  have hd' : (d : ℝ) * eps ^ 2 < 1 := by
    refine lt_of_le_of_lt ?_ hdd
    gcongr
    exact_mod_cast Nat.le_mul_of_pos_left d (Nat.pos_of_ne_zero hd0)
  have hE : Equivalent X (blockSum Ys) := by
    have hrun' := hdec
    unfold decomposeRep at hrun'
    rw [q1] at hrun'
    obtain ⟨e1, e2, e3, e4⟩ := hgood _ q1
    exact decomposeFrom_sum hp hd0 hd' X _ eig hM e1 e2 e3 e4 fuel hf Ys hsum hrun'
  exact ⟨Ys, hdec, fun Y hY => (hirr Y hY).1, hE, fun Z hZ => countP_blocks hE (fun Y hY => (hirr Y hY).1) hZ⟩

open Classical in
/-- C94: for every finite group, `decompose_rep_into_irreps` of `regular_representation` returns representations of the group, and
every irreducible representation of the group is equivalent to as many of them as its dimension is. -/
theorem C94_regular {eigh : EighFn} (he : EighSpec eigh) {G : Type*} [Group G] (e : Fin n ≃ G) (table : Fin n → Fin n → Fin n)
    (ht : ∀ g h, e (table g h) = e g * e h) :
    ∀ᵐ w : Fin (finrank ℂ (intertwiners (regularRepresentation table) (regularRepresentation table))) → ℝ,
      ∀ w' : ℕ → ℝ, (∀ l : Fin _, w' l = w l) → ∀ eig, EigSpec eig →
      ∃ ε : ℝ, 0 < ε ∧ ∀ eps, 0 < eps → eps < ε → ∀ fuel, n < fuel →
        ∃ Ys, decomposeRep eigh eig w' eps (regularRepresentation table) fuel = some (.ok Ys) ∧
          (∀ Y ∈ Ys, ∃ σ : G →* Matrix (Fin Y.1) (Fin Y.1) ℂ, (∀ g, σ (e g) = Y.2 g) ∧ IrreducibleFamily Y.2) ∧
          ∀ {k : ℕ} (ρ : G →* Matrix (Fin k) (Fin k) ℂ), IrreducibleFamily (fun g => ρ (e g)) →
            Ys.countP (fun Y => decide (Equivalent Y.2 fun g => ρ (e g))) = k := by
  have hn : n ≠ 0 := by
    rintro rfl
    exact (e.symm 1).elim0
  obtain ⟨-, hmul, hone, hperm, -⟩ := C21_regular_representation e table ht
  have hX : ∀ a, (regularRepresentation table a)ᴴ = -regularRepresentation table a ∨
      (regularRepresentation table a)ᴴ * regularRepresentation table a = 1 := by
    intro a
    right
    obtain ⟨σ, hσ⟩ := hperm a
    rw [hσ]
    ext i j
    rw [Matrix.mul_apply, Finset.sum_eq_single (σ.symm i)]
    · simp [Equiv.Perm.permMatrix, PEquiv.toMatrix_apply, Matrix.one_apply]
    · intro b _ hb
      have : σ b ≠ i := fun h => hb (by rw [← h, Equiv.symm_apply_apply])
      simp [Equiv.Perm.permMatrix, PEquiv.toMatrix_apply, this]
    · simp
  have hreal : ∀ a p q, (regularRepresentation table a p q).im = 0 := by
    intro a p q
    unfold regularRepresentation
    split_ifs <;> simp
  filter_upwards [C85_decompose he hn hn _ hX hreal, C94_sum he hn hn _ hX hreal] with w hw0 hw w' hw' eig heig
  obtain ⟨ε₀, hε₀, hrun₀⟩ := hw0 w' hw' eig heig
  obtain ⟨ε, hε, hrun⟩ := hw w' hw' eig heig
  refine ⟨min ε ε₀, lt_min hε hε₀, fun eps hp hl fuel hf => ?_⟩
  obtain ⟨Ys, h1, h2, -, h4⟩ := hrun eps hp (hl.trans_le (min_le_left _ _)) fuel hf
  obtain ⟨Ys', g1, g2, -⟩ := hrun₀ eps hp (hl.trans_le (min_le_right _ _)) fuel hf
  obtain rfl : Ys = Ys' := by
    rw [h1] at g1
    exact Except.ok.inj (Option.some.inj g1)
  refine ⟨Ys, h1, fun Y hY => ?_, fun ρ hρ => ?_⟩
  · obtain ⟨-, V, hV, hXV⟩ := g2 Y hY
    have hc : ∀ P : Matrix (Fin Y.1) (Fin Y.1) ℂ, Vᴴ * (V * P) = P := fun P => by rw [← Matrix.mul_assoc, hV, Matrix.one_mul]
    refine ⟨⟨⟨fun g => Y.2 (e.symm g), ?_⟩, fun g g' => ?_⟩, fun g => ?_, h2 Y hY⟩
    · rw [← hc (Y.2 (e.symm 1)), ← hXV, hone, Matrix.one_mul, hV]
    · have e1 : table (e.symm g) (e.symm g') = e.symm (g * g') := by
        apply e.injective
        rw [ht, e.apply_symm_apply, e.apply_symm_apply, e.apply_symm_apply]
      change Y.2 (e.symm (g * g')) = Y.2 (e.symm g) * Y.2 (e.symm g')
      rw [← hc (Y.2 (e.symm (g * g'))), ← hXV, ← e1, ← hmul, Matrix.mul_assoc, hXV, ← Matrix.mul_assoc (regularRepresentation table _), hXV,
        Matrix.mul_assoc, hc]
    · exact congrArg Y.2 (e.symm_apply_apply g)
  · rw [h4 _ hρ, finrank_regular e table ht]

/-! ### Cases -/

open Classical in
/-- A run for every group: exactly one block is trivial. -/
theorem regular_trivial {eigh : EighFn} (he : EighSpec eigh) {G : Type*} [Group G] (e : Fin n ≃ G) (table : Fin n → Fin n → Fin n)
    (ht : ∀ g h, e (table g h) = e g * e h) :
    ∃ (w' : ℕ → ℝ) (eig : EigFn) (eps : ℝ) (Ys : _), 0 < eps ∧ decomposeRep eigh eig w' eps (regularRepresentation table) (n + 1) = some (.ok Ys) ∧
      Ys.countP (fun Y => decide (Equivalent Y.2 fun _ => (1 : Matrix (Fin 1) (Fin 1) ℂ))) = 1 := by
  obtain ⟨w, hw⟩ := (C94_regular he e table ht).exists
  obtain ⟨eig, heig⟩ := exists_eigSpec
  obtain ⟨ε, hε, hrun⟩ := hw (fun l => if hl : l < _ then w ⟨l, hl⟩ else 0) (fun l => by simp) eig heig
  obtain ⟨Ys, h1, -, h3⟩ := hrun (ε / 2) (by positivity) (by linarith) (n + 1) (by omega)
  refine ⟨_, eig, ε / 2, Ys, by positivity, h1, ?_⟩
  refine h3 (1 : G →* Matrix (Fin 1) (Fin 1) ℂ) ⟨by norm_num, fun W _ => ?_⟩
  by_cases h4 : W = ⊥
  · exact Or.inl h4
  · right
    obtain ⟨x, hx, h0⟩ := W.ne_bot_iff.1 h4
    have h5 : x 0 ≠ 0 := fun h => h0 (funext fun i => by rw [Subsingleton.elim i 0]; exact h)
    rw [eq_top_iff]
    intro y _
    have := W.smul_mem (y 0 / x 0) hx
    have h6 : (y 0 / x 0) • x = y := funext fun i => by
      rw [Subsingleton.elim i 0, Pi.smul_apply, smul_eq_mul, div_mul_cancel₀ _ h5]
    rwa [h6] at this

/-- The table of the permutations of three elements. -/
noncomputable def s3 : Fin 6 ≃ Equiv.Perm (Fin 3) := (Fintype.equivFinOfCardEq (by decide)).symm

open Classical in
/-- The two-dimensional representation of S(3), `Sn_standard(3)`, is found twice. -/
example {eigh : EighFn} (he : EighSpec eigh) :
    ∃ (w' : ℕ → ℝ) (eig : EigFn) (eps : ℝ) (Ys : _) (φ : Equiv.Perm (Fin 3) →* Matrix (Fin 2) (Fin 2) ℂ), 0 < eps ∧
      decomposeRep eigh eig w' eps (regularRepresentation fun g h => s3.symm (s3 g * s3 h)) 7 = some (.ok Ys) ∧
      Function.Injective φ ∧ Ys.countP (fun Y => decide (Equivalent Y.2 fun g => φ (s3 g))) = 2 := by
  obtain ⟨φ, hφ, L, L', -, hL', hf⟩ := C57_standard_hom 3 (by norm_num)
  obtain ⟨L'', hL'', hirr⟩ := C57_standard_irreducible 3 (by norm_num)
  obtain rfl : L' = L'' := by
    rw [hL'] at hL''
    exact Except.ok.inj hL''
  obtain ⟨w, hw⟩ := (C94_regular he s3 (fun g h => s3.symm (s3 g * s3 h)) (fun g h => s3.apply_symm_apply _)).exists
  obtain ⟨eig, heig⟩ := exists_eigSpec
  obtain ⟨ε, hε, hrun⟩ := hw (fun l => if hl : l < _ then w ⟨l, hl⟩ else 0) (fun l => by simp) eig heig
  obtain ⟨Ys, h1, -, h3⟩ := hrun (ε / 2) (by positivity) (by linarith) 7 (by omega)
  refine ⟨_, eig, ε / 2, Ys, φ, by positivity, h1, hφ, h3 φ ⟨by norm_num, fun W hW => hirr.2 W fun a => ?_⟩⟩
  have : ∃ σ, L'.get a = φ σ := by
    obtain ⟨h5, h6⟩ := List.forall₂_iff_get.1 hf
    obtain ⟨σ, -, h7⟩ := h6 a.1 (by rw [h5]; exact a.2) a.2
    exact ⟨σ, h7⟩
  obtain ⟨σ, hσ⟩ := this
  change ∀ w ∈ W, L'.get a *ᵥ w ∈ W
  rw [hσ]
  have : ∀ w ∈ W, φ (s3 (s3.symm σ)) *ᵥ w ∈ W := hW (s3.symm σ)
  rwa [s3.apply_symm_apply] at this

end LieNN.Props

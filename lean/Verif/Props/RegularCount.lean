import Verif.Proofs.RegularCount
import Verif.Props.Regular
import Mathlib.Algebra.Group.ConjFinite
/-!
# C105: how many blocks `decompose_rep_into_irreps` finds in the regular representation
-/
namespace LieNN.Props

open Matrix Spec Semi Module MeasureTheory

variable {n : ℕ}

/-- `Zs` contains one block of every class of equivalent blocks of `Ys`. -/
structure Representatives (Ys Zs : List (Block n)) : Prop where
  /-- They are blocks of the list. -/
  sub : Zs ⊆ Ys
  /-- No two are equivalent. -/
  inequivalent : Zs.Pairwise fun Y Z => ¬ Equivalent Y.2 Z.2
  /-- Every block is equivalent to one. -/
  cover : ∀ Y ∈ Ys, ∃ Z ∈ Zs, Equivalent Y.2 Z.2

/-- Every list of blocks has representatives. -/
theorem C105_representatives (Ys : List (Block n)) : ∃ Zs, Representatives Ys Zs := by
  classical
  refine ⟨Ys.pwFilter fun Y Z => ¬ Equivalent Y.2 Z.2, List.pwFilter_subset _, List.pairwise_pwFilter _, fun Y hY => ?_⟩
  by_contra h
  push Not at h
  refine (List.forall_mem_pwFilter (R := fun Y Z : Block n => ¬ Equivalent Y.2 Z.2) (fun {x y z} hxz => ?_) Y Ys).1 h Y hY (Equivalent.refl _)
  by_contra hc
  push Not at hc
  exact hxz (hc.1.trans hc.2)

open Classical in
/-- C105: for every finite group, almost all weights and small enough tolerances, the blocks that `decompose_rep_into_irreps` finds in
`regular_representation` have these counts: there are as many inequivalent ones as conjugacy classes, the squares of their sizes add up to
the order of the group, the sizes themselves add up to the number of blocks, and all blocks are `1 × 1` exactly for commutative groups. -/
theorem C105_regular {eigh : EighFn} (he : EighSpec eigh) {G : Type*} [Group G] (e : Fin n ≃ G) (table : Fin n → Fin n → Fin n)
    (ht : ∀ g h, e (table g h) = e g * e h) :
    ∀ᵐ w : Fin (finrank ℂ (intertwiners (regularRepresentation table) (regularRepresentation table))) → ℝ,
      ∀ w' : ℕ → ℝ, (∀ l : Fin _, w' l = w l) → ∀ eig, EigSpec eig →
      ∃ ε : ℝ, 0 < ε ∧ ∀ eps, 0 < eps → eps < ε → ∀ fuel, n < fuel →
        ∃ Ys, decomposeRep eigh eig w' eps (regularRepresentation table) fuel = some (.ok Ys) ∧
          (∀ Zs, Representatives Ys Zs → Zs.length = Nat.card (ConjClasses G) ∧ (Zs.map fun Z => Z.1 ^ 2).sum = n ∧
            (Zs.map fun Z => Z.1).sum = Ys.length) ∧
          ((∀ Y ∈ Ys, Y.1 = 1) ↔ ∀ g h : G, g * h = h * g) := by
  have hn : n ≠ 0 := by
    rintro rfl
    exact (e.symm 1).elim0
  obtain ⟨-, -, -, hperm, -⟩ := C21_regular_representation e table ht
  have hX : ∀ a, (regularRepresentation table a)ᴴ = -regularRepresentation table a ∨
      (regularRepresentation table a)ᴴ * regularRepresentation table a = 1 := by
    intro a
    right
    obtain ⟨σ, hσ⟩ := hperm a
    rw [hσ]
    ext i j
    rw [Matrix.mul_apply, Finset.sum_eq_single (σ.symm i)]
    · simp [Equiv.Perm.permMatrix, PEquiv.toMatrix_apply, Matrix.one_apply]
    · intro b _ hb
      have : σ b ≠ i := fun h => hb (by rw [← h, Equiv.symm_apply_apply])
      simp [Equiv.Perm.permMatrix, PEquiv.toMatrix_apply, this]
    · simp
  have hreal : ∀ a p q, (regularRepresentation table a p q).im = 0 := by
    intro a p q
    unfold regularRepresentation
    split_ifs <;> simp
  filter_upwards [C94_sum he hn hn _ hX hreal, C94_regular he e table ht] with w hw hw2 w' hw' eig heig
  obtain ⟨ε, hε, hrun⟩ := hw w' hw' eig heig
  obtain ⟨ε₂, hε₂, hrun₂⟩ := hw2 w' hw' eig heig
  refine ⟨min ε ε₂, lt_min hε hε₂, fun eps hp hl fuel hf => ?_⟩
  obtain ⟨Ys, h1, h2, h3, -⟩ := hrun eps hp (hl.trans_le (min_le_left _ _)) fuel hf
  obtain ⟨Ys', g1, g2, g3⟩ := hrun₂ eps hp (hl.trans_le (min_le_right _ _)) fuel hf
  obtain rfl : Ys = Ys' := by
    rw [h1] at g1
    exact Except.ok.inj (Option.some.inj g1)
  refine ⟨Ys, h1, fun Zs hZ => ?_, regular_comm e table ht Ys h3 g2⟩
  obtain ⟨c1, c2⟩ := regular_counts e table ht Ys h3 g2 Zs hZ.sub hZ.inequivalent hZ.cover
  refine ⟨c2, c1, ?_⟩
  have hcount : ∀ Z ∈ Zs, Ys.countP (fun Y => decide (Equivalent Y.2 Z.2)) = Z.1 := by
    intro Z hZm
    obtain ⟨σ, hσ, hirr⟩ := g2 Z (hZ.sub hZm)
    have hf : (fun g => σ (e g)) = Z.2 := funext hσ
    have := g3 σ (by rw [hf]; exact hirr)
    rwa [hf] at this
  rw [List.map_congr_left fun Z hZm => (hcount Z hZm).symm]
  exact sum_counts Zs hZ.inequivalent Ys hZ.cover

/-! ### Cases -/

theorem card_conjClasses_s3 : Nat.card (ConjClasses (Equiv.Perm (Fin 3))) = 3 := by
  rw [Nat.card_eq_fintype_card]
  decide

/-- S(3): four blocks, three of them inequivalent. -/
example {eigh : EighFn} (he : EighSpec eigh) : ∃ (w' : ℕ → ℝ) (eig : EigFn) (eps : ℝ) (Ys Zs : List (Block 6)), 0 < eps ∧
    decomposeRep eigh eig w' eps (regularRepresentation fun g h => s3.symm (s3 g * s3 h)) 7 = some (.ok Ys) ∧ Representatives Ys Zs ∧
      Zs.length = 3 ∧ (Zs.map fun Z => Z.1 ^ 2).sum = 6 ∧ Ys.length = 4 ∧ ¬ ∀ Y ∈ Ys, Y.1 = 1 := by
  obtain ⟨w, hw⟩ := (C105_regular he s3 (fun g h => s3.symm (s3 g * s3 h)) (fun g h => s3.apply_symm_apply _)).exists
  obtain ⟨eig, heig⟩ := exists_eigSpec
  obtain ⟨ε, hε, hrun⟩ := hw (fun l => if hl : l < _ then w ⟨l, hl⟩ else 0) (fun l => by simp) eig heig
  obtain ⟨Ys, h1, h2, h3⟩ := hrun (ε / 2) (by positivity) (by linarith) 7 (by omega)
  obtain ⟨Zs, hZ⟩ := C105_representatives Ys
  obtain ⟨c1, c2, c3⟩ := h2 Zs hZ
  rw [card_conjClasses_s3] at c1
  refine ⟨_, eig, ε / 2, Ys, Zs, by positivity, h1, hZ, c1, c2, ?_, fun h => absurd (h3.1 h) (by decide)⟩
  obtain ⟨a, b, c, rfl⟩ := List.length_eq_three.1 c1
  simp only [List.map_cons, List.map_nil, List.sum_cons, List.sum_nil, add_zero] at c2 c3
  rw [← c3]
  have ha : a.1 ≤ 2 := by nlinarith
  have hb : b.1 ≤ 2 := by nlinarith
  have hc : c.1 ≤ 2 := by nlinarith
  interval_cases a.1 <;> interval_cases b.1 <;> interval_cases c.1 <;> omega

end LieNN.Props

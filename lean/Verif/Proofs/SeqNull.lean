import Verif.Proofs.Nullspace
/-!
# `sequential_nullspace`
-/
namespace LieNN

open Matrix Spec

variable {m n : ℕ} {eigh : EighFn} {eps : ℝ}

theorem lsp_comb (S : List (Vec n)) : ∀ x, x ∈ lspan S ↔ ∃ N : Vec S.length, combRow S N = x := by
  intro x
  rw [lspan_eq_range, Submodule.mem_span_range_iff_exists_fun]
  constructor
  · rintro ⟨c, hc⟩
    exact ⟨WithLp.toLp 2 c, hc⟩
  · rintro ⟨N, hN⟩
    exact ⟨N.ofLp, hN⟩

/-- `combRow S` as a linear map. -/
noncomputable def combLin (S : List (Vec n)) : Vec S.length →ₗ[ℂ] Vec n where
  toFun := combRow S
  map_add' := by
    intro x y
    simp [combRow, add_smul, Finset.sum_add_distrib]
  map_smul' := by
    intro c x
    simp [combRow, mul_smul, Finset.smul_sum]

theorem combRow_inner {S : List (Vec n)} (hS : OList S) (M N : Vec S.length) :
    inner ℂ (combRow S M) (combRow S N) = inner ℂ M N := by
  have ho := hS.orthonormal
  unfold combRow
  unfold OrthonormalList at ho
  rw [ho.inner_sum, EuclideanSpace.inner_eq_star_dotProduct, dotProduct]
  exact Finset.sum_congr rfl fun i _ => by rw [mul_comm]; rfl

theorem combRow_norm {S : List (Vec n)} (hS : OList S) (N : Vec S.length) :
    ‖combRow S N‖ = ‖N‖ := by
  have h := combRow_inner hS N N
  rw [inner_self_eq_norm_sq_to_K, inner_self_eq_norm_sq_to_K] at h
  have h' : ‖combRow S N‖ ^ 2 = ‖N‖ ^ 2 := by exact_mod_cast h
  exact (pow_left_inj₀ (norm_nonneg _) (norm_nonneg _) two_ne_zero).1 h'

theorem mulRows_mulVec (A : Matrix (Fin m) (Fin n) ℂ) (S : List (Vec n)) (N : Vec S.length) :
    mulRows A S *ᵥ N.ofLp = A *ᵥ (combRow S N).ofLp := by
  funext i
  simp only [mulVec, dotProduct, mulRows, combRow, WithLp.ofLp_sum, Finset.sum_apply,
    WithLp.ofLp_smul, Pi.smul_apply, smul_eq_mul, Finset.sum_mul, Finset.mul_sum]
  rw [Finset.sum_comm]
  refine Finset.sum_congr rfl fun j _ => Finset.sum_congr rfl fun l _ => ?_
  ring

theorem oList_map_comb {S : List (Vec n)} (hS : OList S) {N : List (Vec S.length)} (hN : OList N) :
    OList (N.map (combRow S)) := by
  refine ⟨?_, ?_⟩
  · intro x hx
    obtain ⟨y, hy, rfl⟩ := List.mem_map.1 hx
    rw [combRow_norm hS, hN.norm y hy]
  · rw [List.pairwise_map]
    refine hN.pw.imp ?_
    intro a b hab
    rw [combRow_inner hS, hab]

theorem lspan_map_comb (S : List (Vec n)) (N : List (Vec S.length)) :
    lspan (N.map (combRow S)) = (lspan N).map (combLin S) := by
  unfold lspan
  rw [Submodule.map_span]
  congr 1
  ext x
  simp [combLin]

theorem gap_mulRows {S : List (Vec n)} (hS : OList S) (A : Matrix (Fin m) (Fin n) ℂ)
    (h : GapOn eps (lspan S) A) : Gap eps (mulRows A S) := by
  intro μ N hN hev hμ
  have hinner : ∀ {k : ℕ} (u v : Vec k), inner ℂ u v = star u.ofLp ⬝ᵥ v.ofLp := by
    intro k u v
    rw [EuclideanSpace.inner_eq_star_dotProduct, dotProduct_comm]
  refine h μ (combRow S (WithLp.toLp 2 N)) ((lsp_comb S _).2 ⟨_, rfl⟩) ?_ ?_ hμ
  · intro h0
    have := combRow_norm hS (WithLp.toLp 2 N)
    rw [h0, norm_zero] at this
    have h1 := norm_eq_zero.1 this.symm
    exact hN (congrArg WithLp.ofLp h1)
  · intro y hy
    obtain ⟨M, rfl⟩ := (lsp_comb S y).1 hy
    have e := combRow_inner hS M (WithLp.toLp 2 N)
    rw [hinner, hinner] at e
    rw [e, ← mulRows_mulVec, ← mulRows_mulVec, star_mulVec,
      ← dotProduct_mulVec, mulVec_mulVec]
    simp only
    rw [hev, dotProduct_smul, smul_eq_mul]

theorem step_kernel (he : EighSpec eigh) (heps : 0 < eps) (hn : n * eps ^ 2 < 1)
    {S : List (Vec n)} (hS : OList S) (A : Matrix (Fin m) (Fin n) ℂ)
    (hgap : GapOn eps (lspan S) A) :
    OList ((nullspace eigh eps (mulRows A S)).map (combRow S)) ∧
    lspan ((nullspace eigh eps (mulRows A S)).map (combRow S)) = lspan S ⊓ kernel A := by
  refine ⟨oList_map_comb hS (nullspace_oList heps _), ?_⟩
  have hlen : S.length ≤ n := by
    rw [oList_length hS]
    exact (Submodule.finrank_le _).trans (by simp)
  have hn' : (S.length : ℝ) * eps ^ 2 < 1 := by
    have : (S.length : ℝ) ≤ n := by exact_mod_cast hlen
    nlinarith [sq_nonneg eps]
  rw [lspan_map_comb, nullspace_kernel he heps _ hn' (gap_mulRows hS A hgap)]
  ext x
  rw [Submodule.mem_map, Submodule.mem_inf, lsp_comb]
  constructor
  · rintro ⟨N, hN, rfl⟩
    refine ⟨⟨N, rfl⟩, ?_⟩
    have : mulRows A S *ᵥ N.ofLp = 0 := hN
    rw [mulRows_mulVec] at this
    exact this
  · rintro ⟨⟨N, rfl⟩, hx⟩
    refine ⟨N, ?_, rfl⟩
    show mulRows A S *ᵥ N.ofLp = 0
    rw [mulRows_mulVec]
    exact hx

theorem commonKernel_append (P : List (Constraint n)) (A : Constraint n) :
    commonKernel (P ++ [A]) = commonKernel P ⊓ kernel A.2 := by
  ext x
  constructor
  · intro h
    exact ⟨fun B hB => h B (by simp [hB]), h A (by simp)⟩
  · rintro ⟨h1, h2⟩ B hB
    rcases List.mem_append.1 hB with h | h
    · exact h1 B h
    · rw [List.mem_singleton.1 h]; exact h2

/-- Invariant of the loop: `S` is `None` and nothing was consumed, or `S` is an orthonormal basis of
the common kernel of the matrices `P` consumed so far. -/
def SeqInv (P : List (Constraint n)) : Option (List (Vec n)) → Prop
  | none => P = []
  | some S => OList S ∧ lspan S = commonKernel P

theorem seqNull_step (he : EighSpec eigh) (heps : 0 < eps) (hn : n * eps ^ 2 < 1)
    (P : List (Constraint n)) (A : Constraint n) (hgap : GapOn eps (commonKernel P) A.2)
    (S : Option (List (Vec n))) (hS : SeqInv P S) :
    SeqInv (P ++ [A]) (some (seqStep eigh eps A S)) := by
  cases S with
  | none =>
    have hP : P = [] := hS
    subst hP
    have hck : commonKernel ([] : List (Constraint n)) = ⊤ := by
      ext x; simp [commonKernel]
    have hgap' : Gap eps A.2 := by
      intro μ x hx hev hμ
      refine hgap μ (WithLp.toLp 2 x) (by rw [hck]; trivial) ?_ ?_ hμ
      · intro h; exact hx (congrArg WithLp.ofLp h)
      · intro y _
        simp only
        rw [star_mulVec, ← dotProduct_mulVec, mulVec_mulVec, hev, dotProduct_smul, smul_eq_mul]
    refine ⟨nullspace_oList heps _, ?_⟩
    rw [commonKernel_append, hck, top_inf_eq]
    exact nullspace_kernel he heps _ hn hgap'
  | some S =>
    obtain ⟨h1, h2⟩ := hS
    obtain ⟨h3, h4⟩ := step_kernel he heps hn h1 A.2 (by rw [h2]; exact hgap)
    refine ⟨h3, ?_⟩
    rw [commonKernel_append, ← h2]
    exact h4

/-- What a run of the loop does. -/
theorem seqNullLoop_spec (he : EighSpec eigh) (heps : 0 < eps) (hn : n * eps ^ 2 < 1) (dim : ℕ) :
    ∀ (gen P : List (Constraint n)) (S : Option (List (Vec n))), SeqInv P S →
    (∀ k (hk : k < gen.length), GapOn eps (commonKernel (P ++ gen.take k)) gen[k].2) →
    (∃ k, k < gen.length ∧ ∃ S', seqNullLoop eigh eps dim gen S = .ok S' ∧ OList S' ∧
      lspan S' = commonKernel (P ++ gen.take (k + 1)) ∧ S'.length ≤ dim ∧
      ∀ j < k, dim < Module.finrank ℂ (commonKernel (P ++ gen.take (j + 1)))) ∨
    (seqNullLoop eigh eps dim gen S = .error .valueError ∧
      ∀ j < gen.length, dim < Module.finrank ℂ (commonKernel (P ++ gen.take (j + 1)))) := by
  intro gen
  induction gen with
  | nil => intro P S _ _; right; exact ⟨rfl, by simp⟩
  | cons A gen ih =>
    intro P S hS hgap
    have hstep := seqNull_step he heps hn P A (by
      have h0 := hgap 0 (by simp)
      rw [List.take_zero, List.append_nil] at h0
      exact h0) S hS
    generalize hS' : seqStep eigh eps A S = S' at hstep
    have hrun : seqNullLoop eigh eps dim (A :: gen) S =
        if S'.length ≤ dim then .ok S' else seqNullLoop eigh eps dim gen (some S') := by
      rw [← hS']; rfl
    have hfr : Module.finrank ℂ (commonKernel (P ++ [A])) = S'.length := by
      rw [← hstep.2, oList_length hstep.1]
    have hfr0 : Module.finrank ℂ (commonKernel (P ++ (A :: gen).take (0 + 1))) = S'.length := hfr
    by_cases hd : S'.length ≤ dim
    · left
      refine ⟨0, by simp, S', by rw [hrun, if_pos hd], hstep.1, ?_, hd, by simp⟩
      rw [hstep.2]; simp
    · rw [if_neg hd] at hrun
      have hih := ih (P ++ [A]) (some S') hstep (by
        intro k hk
        have := hgap (k + 1) (by simpa using hk)
        simpa using this)
      rw [hrun]
      rcases hih with ⟨k, hk, S'', h1, h2, h3, h4, h5⟩ | ⟨h1, h2⟩
      · left
        refine ⟨k + 1, by simpa using hk, S'', h1, h2, by rw [h3]; simp, h4, ?_⟩
        intro j hj
        cases j with
        | zero => exact hfr0.symm ▸ not_le.1 hd
        | succ j =>
          have := h5 j (by omega)
          rw [List.append_assoc] at this
          exact this
      · right
        refine ⟨h1, ?_⟩
        intro j hj
        cases j with
        | zero => exact hfr0.symm ▸ not_le.1 hd
        | succ j =>
          have := h2 j (by simpa using hj)
          rw [List.append_assoc] at this
          exact this

end LieNN

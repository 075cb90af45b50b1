import Verif.Proofs.TBProduct
import Verif.Proofs.ReducedSpec
import Verif.Spec.TensorBasis

/-! # The initial bases -/
namespace LieNN.TBasis
open LieNN.Spec LieNN.IArr Module Matrix

variable {n h : ℕ} {T : Table n h} {m : ℕ}

theorem dimL_offset (l : List (MulIr T)) : dimL l = offset l := by
  induction l with
  | nil => rfl
  | cons a l ih => simp [offset, dimL, MulIr.dim, ih]

theorem mem_initBlocks {d : ℕ} {i : Fin m} {M : Matrix (Fin d) (Fin d) ℂ} {l : List (MulIr T)} :
    ∀ {cursor : ℕ} {b : Blk T m}, b ∈ initBlocks i M cursor l ↔ ∃ l₁ mi l₂, l = l₁ ++ mi :: l₂ ∧
      b = { mul := mi.mul, ir := mi.ir, shape := initShape i d,
            x := fun p u k => entry M (p i) (cursor + offset l₁ + (u * T.dim mi.ir + k)) } := by
  induction l with
  | nil => simp [initBlocks]
  | cons a l ih =>
    intro cursor b
    rw [initBlocks, List.mem_cons, ih]
    constructor
    · rintro (rfl | ⟨l₁, mi, l₂, rfl, rfl⟩)
      · exact ⟨[], a, l, rfl, by simp [offset]⟩
      · refine ⟨a :: l₁, mi, l₂, rfl, ?_⟩
        simp [offset, Nat.add_assoc]
    · rintro ⟨l₁, mi, l₂, hl, rfl⟩
      cases l₁ with
      | nil =>
        simp only [List.nil_append, List.cons.injEq] at hl
        obtain ⟨rfl, rfl⟩ := hl
        left
        simp [offset]
      | cons a' l₁ =>
        simp only [List.cons_append, List.cons.injEq] at hl
        obtain ⟨rfl, rfl⟩ := hl
        right
        refine ⟨l₁, mi, l₂, rfl, ?_⟩
        simp [offset, Nat.add_assoc]

theorem tot_initBlocks {d : ℕ} (i : Fin m) (M : Matrix (Fin d) (Fin d) ℂ) (l : List (MulIr T)) :
    ∀ cursor, tot (initBlocks i M cursor l) = dimL l := by
  induction l with
  | nil => intro _; rfl
  | cons a l ih =>
    intro cursor
    show _ + tot (initBlocks i M _ l) = _
    rw [ih]

/-- Every column belongs to a block. -/
theorem exists_col {l : List (MulIr T)} {c : ℕ} (hc : c < dimL l) : ∃ l₁ mi l₂, l = l₁ ++ mi :: l₂ ∧
    ∃ (u : Fin mi.mul) (k : Fin (T.dim mi.ir)), c = offset l₁ + (u * T.dim mi.ir + k) := by
  induction l generalizing c with
  | nil => simp [dimL] at hc
  | cons a l ih =>
    by_cases h1 : c < a.mul * T.dim a.ir
    · have hpos : 0 < T.dim a.ir := by
        rcases Nat.eq_zero_or_pos (T.dim a.ir) with h0 | h0
        · rw [h0] at h1; omega
        · exact h0
      refine ⟨[], a, l, rfl, ⟨c / T.dim a.ir, ?_⟩, ⟨c % T.dim a.ir, Nat.mod_lt _ hpos⟩, ?_⟩
      · rwa [Nat.div_lt_iff_lt_mul hpos]
      · simp only [offset, List.map_nil, List.sum_nil, zero_add]
        rw [Nat.mul_comm, Nat.div_add_mod]
    · obtain ⟨l₁, mi, l₂, rfl, u, k, hk⟩ := ih (c := c - a.mul * T.dim a.ir) (by
        simp only [dimL, MulIr.dim] at hc; omega)
      refine ⟨a :: l₁, mi, l₂, rfl, u, k, ?_⟩
      simp only [offset, List.map_cons, List.sum_cons] at hk ⊢
      omega

/-- A row of the block diagonal matrix. -/
theorem diag_row (Y : T.Mats) (l₁ : List (MulIr T)) (mi : MulIr T) (l₂ : List (MulIr T))
    (u : Fin mi.mul) (k : Fin (T.dim mi.ir)) : ∀ (f : ℕ → ℂ) (c : Fin (dimL (l₁ ++ mi :: l₂))),
    c.val = offset l₁ + (u * T.dim mi.ir + k) →
    ∑ c', diagMat Y (l₁ ++ mi :: l₂) c c' * f c' =
      ∑ k', Y mi.ir k k' * f (offset l₁ + (u * T.dim mi.ir + k')) := by
  induction l₁ with
  | nil =>
    intro f c hc
    have hc' : c = Fin.castAdd (dimL l₂) (finProdFinEquiv (u, k)) := by
      apply Fin.ext
      simp only [Fin.val_castAdd, finProdFinEquiv_apply_val, hc, offset, List.map_nil, List.sum_nil]
      rw [Nat.mul_comm]; omega
    rw [hc']
    show ∑ c' : Fin (mi.mul * T.dim mi.ir + dimL l₂), dsum (kron (1 : Matrix (Fin mi.mul) (Fin mi.mul) ℂ)
      (Y mi.ir)) (diagMat Y l₂) (Fin.castAdd (dimL l₂) (finProdFinEquiv (u, k))) c' * f c' = _
    rw [Fin.sum_univ_add]
    have h2 : ∀ j, dsum (kron (1 : Matrix (Fin mi.mul) (Fin mi.mul) ℂ) (Y mi.ir)) (diagMat Y l₂)
        (Fin.castAdd (dimL l₂) (finProdFinEquiv (u, k))) (Fin.natAdd _ j) = 0 := by
      intro j; exact dsum_lr _ _ _ _
    have h1 : ∀ j, dsum (kron (1 : Matrix (Fin mi.mul) (Fin mi.mul) ℂ) (Y mi.ir)) (diagMat Y l₂)
        (Fin.castAdd (dimL l₂) (finProdFinEquiv (u, k))) (Fin.castAdd _ j) =
        kron (1 : Matrix (Fin mi.mul) (Fin mi.mul) ℂ) (Y mi.ir) (finProdFinEquiv (u, k)) j := by
      intro j; exact dsum_ll _ _ _ _
    simp only [h1, h2, zero_mul, Finset.sum_const_zero, add_zero]
    rw [← finProdFinEquiv.sum_comp, Fintype.sum_prod_type, Finset.sum_eq_single u]
    · refine Finset.sum_congr rfl fun k' _ => ?_
      rw [kron_apply, one_apply_eq, one_mul]
      congr 2
      simp only [Fin.val_castAdd, finProdFinEquiv_apply_val, offset, List.map_nil, List.sum_nil]
      rw [Nat.mul_comm]; omega
    · intro u' _ hu
      refine Finset.sum_eq_zero fun k' _ => ?_
      rw [kron_apply, one_apply_ne hu.symm, zero_mul, zero_mul]
    · simp
  | cons a l₁ ih =>
    intro f c hc
    have hlt : offset l₁ + (u * T.dim mi.ir + k) < dimL (l₁ ++ mi :: l₂) := by
      have := c.2
      simp only [hc, List.cons_append, dimL, offset, List.map_cons, List.sum_cons, MulIr.dim] at this
      simp only [offset]
      omega
    have hc' : c = Fin.natAdd a.dim ⟨_, hlt⟩ := by
      apply Fin.ext
      simp only [Fin.val_natAdd, hc, offset, List.map_cons, List.sum_cons, MulIr.dim]
      omega
    rw [hc']
    show ∑ c' : Fin (a.dim + dimL (l₁ ++ mi :: l₂)), dsum (kron (1 : Matrix (Fin a.mul) (Fin a.mul) ℂ)
      (Y a.ir)) (diagMat Y (l₁ ++ mi :: l₂)) (Fin.natAdd a.dim ⟨_, hlt⟩) c' * f c' = _
    rw [Fin.sum_univ_add]
    have h1 : ∀ j, dsum (kron (1 : Matrix (Fin a.mul) (Fin a.mul) ℂ)
      (Y a.ir)) (diagMat Y (l₁ ++ mi :: l₂)) (Fin.natAdd a.dim ⟨_, hlt⟩) (Fin.castAdd _ j) = 0 := by
      intro j; exact dsum_rl _ _ _ _
    have h2 : ∀ j, dsum (kron (1 : Matrix (Fin a.mul) (Fin a.mul) ℂ)
      (Y a.ir)) (diagMat Y (l₁ ++ mi :: l₂)) (Fin.natAdd a.dim ⟨_, hlt⟩) (Fin.natAdd _ j) =
        diagMat Y (l₁ ++ mi :: l₂) ⟨_, hlt⟩ j := by
      intro j; exact dsum_rr _ _ _ _
    simp only [h1, h2, zero_mul, Finset.sum_const_zero, zero_add]
    have := ih (fun c => f (a.dim + c)) ⟨_, hlt⟩ rfl
    simp only [Fin.val_natAdd]
    rw [this]
    refine Finset.sum_congr rfl fun k' _ => ?_
    simp only [offset, List.map_cons, List.sum_cons, MulIr.dim, Nat.add_assoc]

/-! ### The matrix -/

theorem real_inv {d : ℕ} {q : Matrix (Fin d) (Fin d) ℂ} (hq : IsUnit q) (hr : ∀ i j, (q i j).im = 0) :
    ∀ i j, (q⁻¹ i j).im = 0 := by
  have hd := (Matrix.isUnit_iff_isUnit_det q).1 hq
  have e : q.map (starRingEnd ℂ) = q := by
    ext i j
    exact Complex.conj_eq_iff_im.2 (hr i j)
  have h1 : (q⁻¹).map (starRingEnd ℂ) * q = 1 := by
    conv_lhs => rw [← e]
    rw [← Matrix.map_mul, e, Matrix.nonsing_inv_mul _ hd]
    simp
  intro i j
  have h2 := Matrix.inv_eq_left_inv h1
  exact Complex.conj_eq_iff_im.1 (congrFun (congrFun h2 i) j).symm

theorem initMatrix_spec {r : ReducedRep T} (hg : GoodRed r) {R : Rep n h r.dim} (ha : ActsG r R) :
    ∃ M, initMatrix r = .ok M ∧ IsUnit M ∧ (∀ i j, (M i j).im = 0) ∧
      (∀ a, M * (diagMat (fun ir => (T.rep ir).X a) r.irreps)ᵀ = (R.X a)ᵀ * M) ∧
      (∀ a, M * (diagMat (fun ir => (T.rep ir).H a) r.irreps)ᵀ = (R.H a)ᵀ * M) := by
  obtain ⟨q, hq, hu, hreal, hM⟩ : ∃ q : Matrix (Fin r.dim) (Fin r.dim) ℂ, r.q = .ok q ∧ IsUnit q ∧
      (∀ i j, (q i j).im = 0) ∧ initMatrix r = .ok (q⁻¹)ᵀ := by
    cases hQ : r.Q with
    | none =>
      refine ⟨1, by rw [ReducedRep.q, hQ]; rfl, isUnit_one, ?_, ?_⟩
      · intro i j
        rw [one_apply]
        split_ifs <;> simp
      · rw [initMatrix, hQ]
        simp
    | some Q =>
      obtain ⟨q, rfl, hu, hr⟩ := hg.Q Q (by rw [hQ]; rfl)
      refine ⟨q, by rw [ReducedRep.q, hQ]; exact SMat.view_mk q, hu, hr, ?_⟩
      rw [initMatrix, hQ]
      show (SMat.invP _ >>= _) = _
      rw [SMat.invP_mk hu]
      show (SMat.view _ _ _ >>= _) = _
      rw [SMat.view_mk]
      rfl
  have hd := (Matrix.isUnit_iff_isUnit_det q).1 hu
  refine ⟨(q⁻¹)ᵀ, hM, ?_, fun i j => real_inv hu hreal j i, ?_, ?_⟩
  · rw [Matrix.isUnit_transpose]
    exact (Matrix.isUnit_nonsing_inv_iff).2 hu
  · intro a
    have h1 := ha.1 (by rintro rfl; exact a.elim0)
    rw [ReducedRep.continuousGenerators_ok (by rintro rfl; exact a.elim0) hg.ne hg.mul hq hu] at h1
    have h2 := List.ofFn_injective (Except.ok.inj h1)
    have h3 := congrFun h2 a
    simp only [SMat.mk.injEq, heq_eq_eq, true_and] at h3
    rw [← transpose_mul, ← transpose_mul, ← h3, ← Matrix.mul_assoc, ← Matrix.mul_assoc,
      Matrix.nonsing_inv_mul _ hd, Matrix.one_mul]
  · intro a
    have h1 := ha.2
    rw [ReducedRep.discreteGenerators_ok hg.ne hg.mul hq hu] at h1
    have h2 := List.ofFn_injective (Except.ok.inj h1)
    have h3 := congrFun h2 a
    simp only [SMat.mk.injEq, heq_eq_eq, true_and] at h3
    rw [← transpose_mul, ← transpose_mul, ← h3, ← Matrix.mul_assoc, ← Matrix.mul_assoc,
      Matrix.nonsing_inv_mul _ hd, Matrix.one_mul]

/-! ### The blocks -/

theorem entry_mk {d e : ℕ} (M : Matrix (Fin d) (Fin e) ℂ) (p : Fin d) (c : Fin e) :
    entry M p c = M p c := by simp [entry]

/-- The multi-indices of the initial shape. -/
def lineEquiv (i : Fin m) (d : ℕ) : Box (initShape i d) ≃ Fin d where
  toFun p := ⟨p.1 i, by have := memb.1 p.2 i; simpa [initShape] using this⟩
  invFun c := ⟨fun k => if k = i then c else 0, by
    show _ ∈ box _
    rw [memb]
    intro k
    simp only [initShape]
    split_ifs <;> simp⟩
  left_inv p := by
    apply Subtype.ext
    funext k
    have := memb.1 p.2 k
    simp only [initShape] at this
    simp only
    split_ifs with hk
    · rw [hk]
    · rw [if_neg hk] at this; omega
  right_inv c := by simp

theorem sum_line (i : Fin m) (d : ℕ) (f : (Fin m → ℕ) → ℂ) :
    ∑ p ∈ box (initShape i d), f p = ∑ c : Fin d, f ((lineEquiv i d).symm c).1 := by
  rw [← Finset.sum_coe_sort]
  exact ((lineEquiv i d).symm.sum_comp fun p => f p.1).symm

theorem init_basis (hpos : ∀ i, 0 < T.dim i) {r : ReducedRep T} (hg : GoodRed r) {R : Rep n h r.dim}
    {M : Matrix (Fin r.dim) (Fin r.dim) ℂ} (hu : IsUnit M) (hre : ∀ i j, (M i j).im = 0)
    (hX : ∀ a, M * (diagMat (fun ir => (T.rep ir).X a) r.irreps)ᵀ = (R.X a)ᵀ * M)
    (hH : ∀ a, M * (diagMat (fun ir => (T.rep ir).H a) r.irreps)ᵀ = (R.H a)ᵀ * M)
    (i : Fin m) (N : Fin m → NRep n h) (hN : N i = NRep.of R) :
    IArr.mk (initBlocks i M 0 r.irreps) = .ok (initBlocks i M 0 r.irreps) ∧
    (initBlocks i M 0 r.irreps) ≠ [] ∧
    (∀ b ∈ initBlocks i M 0 r.irreps, EquiBlk (initShape i r.dim) (tensorRep {i} N) b) ∧
    (∀ b ∈ initBlocks i M 0 r.irreps, RealBlk (initShape i r.dim) b) ∧
    (∀ b ∈ initBlocks i M 0 r.irreps, b.mul ≠ 0) ∧
    tot (initBlocks i M 0 r.irreps) = finrank ℂ (spanC (initShape i r.dim) (initBlocks i M 0 r.irreps)) ∧
    spanC (initShape i r.dim) (initBlocks i M 0 r.irreps) = ⊤ := by
  have hne : initBlocks (m := m) i M 0 r.irreps ≠ [] := by
    obtain ⟨a, l, hl⟩ := List.exists_cons_of_ne_nil hg.ne
    intro h0
    have : (⟨a.mul, a.ir, _, _⟩ : Blk T m) ∈ initBlocks i M 0 r.irreps :=
      mem_initBlocks.2 ⟨[], a, l, hl, rfl⟩
    rw [h0] at this
    simp at this
  have hlt : ∀ {l₁ mi l₂}, r.irreps = l₁ ++ mi :: l₂ → ∀ (u : Fin mi.mul) (k : Fin (T.dim mi.ir)),
      offset l₁ + (u * T.dim mi.ir + k) < r.dim := by
    intro l₁ mi l₂ hl u k
    rw [ReducedRep.dim, hl, dimL_append]
    simp only [dimL, MulIr.dim, dimL_offset]
    have h1 := u.2
    have h2 := k.2
    have : (u + 1) * T.dim mi.ir ≤ mi.mul * T.dim mi.ir := Nat.mul_le_mul_right _ h1
    rw [Nat.add_mul] at this
    omega
  have hspan : spanC (initShape i r.dim) (initBlocks i M 0 r.irreps) = ⊤ := by
    apply span_eq_top_of
    intro t ht
    have h1 : ∀ c : Fin r.dim, ∑ p : Fin r.dim, M p c * t ((lineEquiv i r.dim).symm p) = 0 := by
      intro c
      obtain ⟨l₁, mi, l₂, hl, u, k, hc⟩ := exists_col (l := r.irreps) c.2
      have := ht _ ⟨_, mem_initBlocks.2 ⟨l₁, mi, l₂, hl, rfl⟩, u, k, rfl⟩
      rw [← (lineEquiv i r.dim).symm.sum_comp] at this
      rw [← this]
      refine Finset.sum_congr rfl fun p _ => ?_
      congr 1
      have : (((lineEquiv i r.dim).symm p).1 i) = p := by simp [lineEquiv]
      show _ = entry M (((lineEquiv i r.dim).symm p).1 i) (0 + offset l₁ + (u * T.dim mi.ir + k))
      rw [zero_add, ← hc, this, entry_mk]
    have h2 : Matrix.vecMul (fun p => t ((lineEquiv i r.dim).symm p)) M = 0 := by
      funext c
      rw [Matrix.vecMul, dotProduct, Pi.zero_apply, ← h1 c]
      refine Finset.sum_congr rfl fun p _ => ?_
      ring
    have h3 : (fun p => t ((lineEquiv i r.dim).symm p)) = 0 := by
      have hd := (Matrix.isUnit_iff_isUnit_det M).1 hu
      have := congrArg (fun v => Matrix.vecMul v M⁻¹) h2
      simpa [Matrix.vecMul_vecMul, Matrix.mul_nonsing_inv _ hd] using this
    funext p
    have := congrFun h3 (lineEquiv i r.dim p)
    simpa using this
  have hequi : ∀ (Y : T.Mats) (Z : Matrix (Fin r.dim) (Fin r.dim) ℂ) (Y' : (Fin m → ℕ) → (Fin m → ℕ) → ℂ),
      M * (diagMat Y r.irreps)ᵀ = Zᵀ * M →
      (∀ c p, Y' ((lineEquiv i r.dim).symm c).1 ((lineEquiv i r.dim).symm p).1 = Z c p) →
      ∀ l₁ mi l₂, r.irreps = l₁ ++ mi :: l₂ → ∀ p ∈ box (initShape i r.dim), ∀ (u : Fin mi.mul) (l : Fin (T.dim mi.ir)),
      ∑ k : Fin (T.dim mi.ir), entry M (p i) (0 + offset l₁ + (u * T.dim mi.ir + k)) * Y mi.ir l k =
        ∑ q ∈ box (initShape i r.dim), Y' q p *
          entry M (q i) (0 + offset l₁ + (u * T.dim mi.ir + l)) := by
    intro Y Z Y' hZ hY' l₁ mi l₂ hl p hp u l
    obtain ⟨p, rfl⟩ : ∃ c : Fin r.dim, p = ((lineEquiv i r.dim).symm c).1 :=
      ⟨lineEquiv i r.dim ⟨p, hp⟩, by simp⟩
    have hi : ∀ p : Fin r.dim, (((lineEquiv i r.dim).symm p).1 i) = p := by
      intro p; simp [lineEquiv]
    rw [sum_line]
    simp only [hi, hY', zero_add]
    have h1 := congrFun (congrFun hZ p) ⟨_, hlt hl u l⟩
    rw [mul_apply, mul_apply] at h1
    simp only [transpose_apply] at h1
    have h2 : ∑ k : Fin (T.dim mi.ir), entry M p (offset l₁ + (u * T.dim mi.ir + k)) * Y mi.ir l k =
        ∑ c', M p c' * diagMat Y r.irreps ⟨_, hlt hl u l⟩ c' := by
      have h3 : ∀ (L : List (MulIr T)) (hL : L = l₁ ++ mi :: l₂) (f : ℕ → ℂ) (c : Fin (dimL L)),
          c.val = offset l₁ + (u * T.dim mi.ir + l) →
          ∑ c', diagMat Y L c c' * f c' =
            ∑ k', Y mi.ir l k' * f (offset l₁ + (u * T.dim mi.ir + k')) := by
        rintro L rfl f c hc
        exact diag_row Y l₁ mi l₂ u l f c hc
      have h4 := h3 r.irreps hl (entry M p) ⟨_, hlt hl u l⟩ rfl
      simp only [entry_mk] at h4
      calc _ = ∑ k' : Fin (T.dim mi.ir), Y mi.ir l k' * entry M p (offset l₁ + (u * T.dim mi.ir + k')) :=
            Finset.sum_congr rfl fun k _ => mul_comm _ _
        _ = _ := by
            rw [← h4]
            exact Finset.sum_congr rfl fun k _ => mul_comm _ _
    rw [h2, h1]
    refine Finset.sum_congr rfl fun c _ => ?_
    congr 1
    exact (entry_mk M c ⟨_, hlt hl u l⟩).symm
  have hoff : ∀ c p : Fin r.dim, (∀ j, j ≠ i → ((lineEquiv i r.dim).symm c).1 j =
      ((lineEquiv i r.dim).symm p).1 j) := by
    intro c p j hj
    simp [lineEquiv, hj]
  have hi : ∀ p : Fin r.dim, (((lineEquiv i r.dim).symm p).1 i) = p := by
    intro p; simp [lineEquiv]
  refine ⟨mk_ok (s := initShape i r.dim) hne ?_, hne, ?_, ?_, ?_, ?_, hspan⟩
  · intro b hb
    obtain ⟨l₁, mi, l₂, hl, rfl⟩ := mem_initBlocks.1 hb
    rfl
  · intro b hb
    obtain ⟨l₁, mi, l₂, hl, rfl⟩ := mem_initBlocks.1 hb
    refine ⟨rfl, ?_, ?_⟩
    · intro a p hp u l
      refine hequi (fun ir => (T.rep ir).X a) (R.X a) ((tensorRep {i} N).X a) (hX a) ?_ l₁ mi l₂ hl p hp u l
      intro c p
      simp only [tensorRep, Finset.sum_singleton]
      rw [if_pos (hoff c p), mul_one, hN, hi, hi]
      simp [NRep.of]
    · intro a p hp u l
      refine hequi (fun ir => (T.rep ir).H a) (R.H a) ((tensorRep {i} N).H a) (hH a) ?_ l₁ mi l₂ hl p hp u l
      intro c p
      simp only [tensorRep, Finset.prod_singleton, Finset.mem_singleton]
      rw [if_pos (fun j hj => hoff c p j hj), mul_one, hN, hi, hi]
      simp [NRep.of]
  · intro b hb
    obtain ⟨l₁, mi, l₂, hl, rfl⟩ := mem_initBlocks.1 hb
    intro p _ u k
    simp only [entry]
    split_ifs
    · exact hre _ _
    · rfl
  · intro b hb
    obtain ⟨l₁, mi, l₂, hl, rfl⟩ := mem_initBlocks.1 hb
    exact hg.mul mi (by rw [hl]; simp)
  · rw [tot_initBlocks, hspan, finrank_top, finrank_fintype_fun_eq_card,
      Fintype.card_congr (lineEquiv i r.dim), Fintype.card_fin]

end LieNN.TBasis

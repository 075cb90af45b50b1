import Verif.Proofs.TensorPower
import Verif.Proofs.TBTable
/-!
# Real changes of basis; the tolerances of `tensor_product` on powers of `SU2` irreps
-/
namespace LieNN

open Matrix Spec

variable {n h : ℕ} {T : Table n h}

/-- All entries are real. -/
def Rl {a b : ℕ} (M : Matrix (Fin a) (Fin b) ℂ) : Prop := ∀ i j, (M i j).im = 0

namespace Rl

theorem submatrix {a b a' b' : ℕ} {M : Matrix (Fin a) (Fin b) ℂ} (h : Rl M)
    (e : Fin a' → Fin a) (f : Fin b' → Fin b) : Rl (M.submatrix e f) := fun i j => h (e i) (f j)

theorem one {a : ℕ} : Rl (1 : Matrix (Fin a) (Fin a) ℂ) := by
  intro i j
  rw [Matrix.one_apply]
  split_ifs <;> simp

theorem kron {a b a' b' : ℕ} {M : Matrix (Fin a) (Fin b) ℂ} {N : Matrix (Fin a') (Fin b') ℂ}
    (hM : Rl M) (hN : Rl N) : Rl (kron M N) := by
  intro i j
  show (M _ _ * N _ _).im = 0
  rw [Complex.mul_im, hM, hN]
  ring

theorem dsum {a b a' b' : ℕ} {M : Matrix (Fin a) (Fin b) ℂ} {N : Matrix (Fin a') (Fin b') ℂ}
    (hM : Rl M) (hN : Rl N) : Rl (dsum M N) := by
  intro i j
  refine Fin.addCases (fun i => ?_) (fun i => ?_) i <;>
    refine Fin.addCases (fun j => ?_) (fun j => ?_) j
  · rw [dsum_ll]; exact hM i j
  · rw [dsum_lr]; rfl
  · rw [dsum_rl]; rfl
  · rw [dsum_rr]; exact hN i j

theorem mul {a b c : ℕ} {M : Matrix (Fin a) (Fin b) ℂ} {N : Matrix (Fin b) (Fin c) ℂ}
    (hM : Rl M) (hN : Rl N) : Rl (M * N) := by
  intro i j
  rw [Matrix.mul_apply, Complex.im_sum]
  refine Finset.sum_eq_zero fun k _ => ?_
  rw [Complex.mul_im, hM, hN]
  ring

theorem vcat {a b c : ℕ} {M : Matrix (Fin a) (Fin c) ℂ} {N : Matrix (Fin b) (Fin c) ℂ}
    (hM : Rl M) (hN : Rl N) : Rl (vcat M N) := by
  intro i j
  unfold LieNN.vcat
  refine Fin.addCases (fun i => ?_) (fun i => ?_) i
  · rw [Fin.addCases_left]; exact hM i j
  · rw [Fin.addCases_right]; exact hN i j

theorem inv {a b : ℕ} {M : Matrix (Fin a) (Fin b) ℂ} {P : Matrix (Fin b) (Fin a) ℂ} (hM : Rl M)
    (h1 : P * M = 1) (h2 : M * P = 1) : Rl P := by
  have e : M.map (starRingEnd ℂ) = M := by
    ext i j
    exact Complex.conj_eq_iff_im.2 (hM i j)
  have h3 : P.map (starRingEnd ℂ) * M = 1 := by
    conv_lhs => rw [← e]
    rw [← Matrix.map_mul, h1]
    simp
  have h4 : P.map (starRingEnd ℂ) = P := by
    calc P.map (starRingEnd ℂ) = P.map (starRingEnd ℂ) * (M * P) := by rw [h2, Matrix.mul_one]
      _ = P := by rw [← Matrix.mul_assoc, h3, Matrix.one_mul]
  intro i j
  exact Complex.conj_eq_iff_im.1 (congrFun (congrFun h4 i) j)

end Rl

/-- The arrays of the table are real. -/
def RlTable (T : Table n h) : Prop := ∀ i j k, ∀ C ∈ T.cg i j k, ∀ x y z, (C x y z).im = 0

theorem tpTab_rl (hT : RlTable T) {i j : T.Ir} {r : ReducedRep T} (hr : tpTab i j = .ok r) :
    ∀ Q ∈ r.Q, Rl Q.mat := by
  unfold tpTab at hr
  obtain ⟨_, hA, hr⟩ := bind_ok hr
  split at hr
  · exact absurd hr (by simp)
  · rename_i k ks hk
    obtain ⟨Q, hQ, hr⟩ := bind_ok hr
    change Except.ok _ = _ at hr
    simp only [Except.ok.injEq] at hr
    subst hr
    obtain ⟨P, h1, h2, rfl⟩ := SMat.invP_rect hQ
    intro Q hQ
    obtain rfl := Option.some.inj hQ
    have hrows : ∀ l, Rl (cgRows i j l) := by
      intro l
      induction l with
      | nil => intro r; exact Fin.elim0 r
      | cons k l ih =>
        refine Rl.vcat (fun r c => ?_) ih
        exact hT i j k _ (List.get_mem _ _) _ _ _
    exact (hrows _).inv h1 h2

theorem tpMul_rl (hT : RlTable T) {a b : MulIr T} {r : ReducedRep T} (hr : tpMul a b = .ok r) :
    ∀ Q ∈ r.Q, Rl Q.mat := by
  unfold tpMul at hr
  obtain ⟨_, hA, hr⟩ := bind_ok hr
  obtain ⟨tp, htp, hr⟩ := bind_ok hr
  obtain ⟨-, hirr, hne, q, hQ, hq, hF⟩ := tpTab_ok htp
  have hb := tpTab_rl hT htp _ (by rw [hQ]; rfl)
  rw [hQ] at hr
  obtain ⟨q', hq', hr⟩ := bind_ok hr
  rw [SMat.view_mk] at hq'
  simp only [Except.ok.injEq] at hq'
  subst hq'
  change Except.ok _ = _ at hr
  simp only [Except.ok.injEq] at hr
  subst hr
  intro Q hQ
  simp only [Option.mem_def, Option.some.injEq] at hQ
  subst hQ
  show Rl (liftCols _ _ _ _)
  rw [liftCols_eq]
  exact (Rl.one.kron hb).submatrix _ _

theorem tpInner_rl (hT : RlTable T) {a : MulIr T} {l : List (MulIr T)}
    {out : List (MulIr T)} {c : ℕ} {M : Matrix (Fin (a.dim * dimL l)) (Fin c) ℂ}
    (hr : tpInner a l = .ok (out, ⟨c, M⟩)) : Rl M := by
  induction l generalizing out c with
  | nil =>
    change Except.ok _ = _ at hr
    simp only [Except.ok.injEq, Prod.mk.injEq] at hr
    obtain ⟨rfl, h2⟩ := hr
    cases h2
    intro i j
    exact Fin.elim0 j
  | cons b l ih =>
    rw [tpInner] at hr
    obtain ⟨r, hrr, hr⟩ := bind_ok hr
    obtain ⟨-, hirr, hne, q, hQ, hq, hF⟩ := tpMul_ok hrr
    have hb := tpMul_rl hT hrr _ (by rw [hQ]; rfl)
    rw [hQ] at hr
    obtain ⟨q', hq', hr⟩ := bind_ok hr
    rw [SMat.view_mk] at hq'
    simp only [Except.ok.injEq] at hq'
    subst hq'
    obtain ⟨⟨out', c', M'⟩, hin, hr⟩ := bind_ok hr
    change Except.ok _ = _ at hr
    simp only [Except.ok.injEq, Prod.mk.injEq] at hr
    obtain ⟨rfl, h2⟩ := hr
    cases h2
    exact (Rl.dsum hb (ih hin)).submatrix _ _

theorem tpOuter_rl (hT : RlTable T) {l₂ l : List (MulIr T)}
    {out : List (MulIr T)} {c : ℕ} {M : Matrix (Fin (dimL l * dimL l₂)) (Fin c) ℂ}
    (hr : tpOuter l₂ l = .ok (out, ⟨c, M⟩)) : Rl M := by
  induction l generalizing out c with
  | nil =>
    change Except.ok _ = _ at hr
    simp only [Except.ok.injEq, Prod.mk.injEq] at hr
    obtain ⟨rfl, h2⟩ := hr
    cases h2
    intro i j
    exact Fin.elim0 j
  | cons a l ih =>
    rw [tpOuter] at hr
    obtain ⟨⟨out₁, c₁, M₁⟩, h₁, hr⟩ := bind_ok hr
    obtain ⟨⟨out₂, c₂, M₂⟩, h₂, hr⟩ := bind_ok hr
    change Except.ok _ = _ at hr
    simp only [Except.ok.injEq, Prod.mk.injEq] at hr
    obtain ⟨rfl, h2⟩ := hr
    cases h2
    exact (Rl.dsum (tpInner_rl hT h₁) (ih h₂)).submatrix _ _

theorem q_rl {r : ReducedRep T} (h : ∀ Q ∈ r.Q, Rl Q.mat) {q : Matrix (Fin r.dim) (Fin r.dim) ℂ}
    (hq : r.q = .ok q) : Rl q := by
  unfold ReducedRep.q at hq
  cases hQ : r.Q with
  | none =>
    rw [hQ] at hq
    cases hq
    exact Rl.one
  | some Q =>
    rw [hQ] at hq
    simp only [SMat.view] at hq
    split_ifs at hq with h1
    cases hq
    exact (h Q (by rw [hQ]; rfl)).submatrix _ _

theorem tpRedRaw_rl (hT : RlTable T) {r₁ r₂ : ReducedRep T} (h₁ : ∀ Q ∈ r₁.Q, Rl Q.mat)
    (h₂ : ∀ Q ∈ r₂.Q, Rl Q.mat)
    {out : List (MulIr T)} {Q : Matrix (Fin (r₁.dim * r₂.dim)) (Fin (r₁.dim * r₂.dim)) ℂ}
    (hr : tpRedRaw r₁ r₂ = .ok (out, Q)) : Rl Q := by
  unfold tpRedRaw at hr
  obtain ⟨q₁, hq₁, hr⟩ := bind_ok hr
  obtain ⟨q₂, hq₂, hr⟩ := bind_ok hr
  obtain ⟨⟨out', c, M⟩, ho, hr⟩ := bind_ok hr
  have hb := tpOuter_rl hT ho
  by_cases hc : r₁.dim * r₂.dim = c
  · simp only [dif_pos hc] at hr
    change Except.ok _ = _ at hr
    simp only [Except.ok.injEq, Prod.mk.injEq] at hr
    obtain ⟨rfl, rfl⟩ := hr
    exact ((q_rl h₁ hq₁).kron (q_rl h₂ hq₂)).mul (hb.submatrix _ _)
  · simp only [dif_neg hc] at hr
    exact absurd hr (by simp)

theorem roundQ_rl {p : ℕ} {Q : Matrix (Fin p) (Fin p) ℂ} (hQ : Rl Q) :
    ∀ q ∈ roundQ Q, Rl q.mat := by
  classical
  intro q hq
  unfold roundQ at hq
  simp only at hq
  have hre : (Q.map fun z => (z.re : ℂ)) = Q := by
    ext i j
    show ((Q i j).re : ℂ) = Q i j
    apply Complex.ext
    · simp
    · rw [hQ i j]; simp
  rw [hre, ite_self] at hq
  by_cases h1 : AllCloseM Q 1
  · rw [if_pos h1] at hq
    exact absurd hq (by simp)
  · rw [if_neg h1] at hq
    obtain rfl := Option.some.inj hq
    exact hQ

theorem tpRed_rl (hT : RlTable T) {r₁ r₂ r : ReducedRep T} (h₁ : ∀ Q ∈ r₁.Q, Rl Q.mat)
    (h₂ : ∀ Q ∈ r₂.Q, Rl Q.mat) (hr : tpRed r₁ r₂ = .ok r) : ∀ Q ∈ r.Q, Rl Q.mat := by
  unfold tpRed at hr
  obtain ⟨⟨out, Q⟩, hraw, hr⟩ := bind_ok hr
  change Except.ok _ = _ at hr
  simp only [Except.ok.injEq] at hr
  subst hr
  exact roundQ_rl (tpRedRaw_rl hT h₁ h₂ hraw)

/-! ## Intertwining before the tolerances -/

theorem tpRedRaw_X (hCG : Equivariant T) {r₁ r₂ : ReducedRep T}
    {d₁ d₂ : ℕ} {R₁ : Rep n h d₁} {R₂ : Rep n h d₂} (h₁ : Acts r₁ R₁) (h₂ : Acts r₂ R₂)
    {out : List (MulIr T)} {Q : Matrix (Fin (r₁.dim * r₂.dim)) (Fin (r₁.dim * r₂.dim)) ℂ}
    (hraw : tpRedRaw r₁ r₂ = .ok (out, Q)) (a : Fin n) :
    ∃ e : d₁ * d₂ = r₁.dim * r₂.dim, ∃ hdim : dimL out = r₁.dim * r₂.dim,
      (R₁.tensorProduct R₂).X a * Q.submatrix (finCongr e) (finCongr hdim) =
        Q.submatrix (finCongr e) (finCongr hdim) * diagMat (fun ir => (T.rep ir).X a) out := by
  obtain ⟨hn, hne₁, hmul₁, q₁, hq₁, hu₁⟩ := acts_inv h₁
  obtain ⟨-, hne₂, hmul₂, q₂, hq₂, hu₂⟩ := acts_inv h₂
  obtain ⟨e, rfl⟩ := acts_unique (acts_of hn hne₁ hmul₁ hq₁ hu₁) h₁
  subst e
  obtain ⟨e, rfl⟩ := acts_unique (acts_of hn hne₂ hmul₂ hq₂ hu₂) h₂
  subst e
  obtain ⟨q₁', q₂', e₁, e₂, hout, hdim, q, hq, hQ, hF⟩ := tpRedRaw_ok hraw
  rw [hq₁] at e₁
  rw [hq₂] at e₂
  simp only [Except.ok.injEq] at e₁ e₂
  subst e₁ e₂
  have hQ' : (⟨_, _, Q⟩ : SMat) = ⟨_, dimL out, Q.submatrix id (finCongr hdim)⟩ :=
    SMat.mk_congr_cols hdim Q
  have hQq : Q.submatrix id (finCongr hdim) = kron q₁ q₂ * q := SMat.mat_heq (hQ'.symm.trans hQ)
  refine ⟨rfl, hdim, ?_⟩
  have hQr : Q.submatrix (finCongr rfl) (finCongr hdim) = kron q₁ q₂ * q := hQq
  rw [hQr]
  have := hF _ (famX_ok hCG a)
  rw [famX_sum a fun u v => kron (diagMat u r₁.irreps) (diagMat v r₂.irreps), diagMat_one,
    diagMat_one] at this
  show (kron (q₁ * diagMat (fun ir => (T.rep ir).X a) r₁.irreps * q₁⁻¹) 1 +
    kron 1 (q₂ * diagMat (fun ir => (T.rep ir).X a) r₂.irreps * q₂⁻¹)) * (kron q₁ q₂ * q) =
    kron q₁ q₂ * q * diagMat (fun ir => (T.rep ir).X a) out
  have key : (kron (q₁ * diagMat (fun ir => (T.rep ir).X a) r₁.irreps * q₁⁻¹) 1 +
    kron 1 (q₂ * diagMat (fun ir => (T.rep ir).X a) r₂.irreps * q₂⁻¹)) * kron q₁ q₂ =
    kron q₁ q₂ * (kron (diagMat (fun ir => (T.rep ir).X a) r₁.irreps) 1 +
      kron 1 (diagMat (fun ir => (T.rep ir).X a) r₂.irreps)) := by
    rw [Matrix.add_mul, Matrix.mul_add, kron_mul, kron_mul, kron_mul, kron_mul,
      blockRep_mul hu₁, blockRep_mul hu₂, Matrix.one_mul,
      Matrix.one_mul, Matrix.mul_one, Matrix.mul_one]
  rw [← Matrix.mul_assoc, key, Matrix.mul_assoc, this, ← Matrix.mul_assoc]
  rfl

end LieNN

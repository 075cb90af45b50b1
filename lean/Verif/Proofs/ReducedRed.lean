import Verif.Proofs.ReducedSpec
/-!
# `tensor_product(ReducedRep, ReducedRep)`
-/
namespace LieNN

open Matrix
open Spec (RoundExact)

variable {n h : ℕ} {T : Table n h}

open Classical in
theorem roundQ_eq {p : ℕ} {Q : Matrix (Fin p) (Fin p) ℂ}
    (hQ : AllCloseM (Q.map fun z => (z.im : ℂ)) 0 → ∀ i j, (Q i j).im = 0) :
    roundQ Q = if AllCloseM Q 1 then none else some ⟨p, p, Q⟩ := by
  have e (h : AllCloseM (Q.map fun z => (z.im : ℂ)) 0) : (Q.map fun z => (z.re : ℂ)) = Q := by
    ext i j
    exact Complex.ext (by simp) (by simpa using (hQ h i j).symm)
  unfold roundQ
  dsimp only
  generalize hQ' : (if AllCloseM (Q.map fun z => (z.im : ℂ)) 0 then
    Q.map fun z => (z.re : ℂ) else Q) = Q'
  have : Q' = Q := by
    by_cases h : AllCloseM (Q.map fun z => (z.im : ℂ)) 0
    · rw [← hQ', if_pos h, e h]
    · rw [← hQ', if_neg h]
  rw [this]

theorem roundQ_exact {p : ℕ} {Q : Matrix (Fin p) (Fin p) ℂ} (hQ : RoundExact Q) :
    (Q = 1 ∧ roundQ Q = none) ∨ roundQ Q = some ⟨p, p, Q⟩ := by
  by_cases h1 : AllCloseM Q 1
  · exact Or.inl ⟨hQ.2 h1, by rw [roundQ_eq hQ.1, if_pos h1]⟩
  · exact Or.inr (by rw [roundQ_eq hQ.1, if_neg h1])

theorem blockRep_mul {l : List (MulIr T)}
    {q : Matrix (Fin (dimL l)) (Fin (dimL l)) ℂ} (hq : IsUnit q) (D : Matrix (Fin (dimL l)) _ ℂ) :
    q * D * q⁻¹ * q = q * D := by
  rw [Matrix.mul_assoc, nonsing_inv_mul _ ((isUnit_iff_isUnit_det q).1 hq), Matrix.mul_one]

/-- The product before the tolerance tests acts as the tensor product. -/
theorem tpRedRaw_acts (hCG : ∀ i j, ∀ k ∈ T.prod i j, ∀ C ∈ T.cg i j k,
    Spec.IsCG (T.rep i) (T.rep j) (T.rep k) C) {r₁ r₂ : ReducedRep T}
    (hcg : ∀ a ∈ r₁.irreps, ∀ b ∈ r₂.irreps, ∀ k ∈ T.prod a.ir b.ir, T.cg a.ir b.ir k ≠ [])
    {d₁ d₂ : ℕ} {R₁ : Rep n h d₁} {R₂ : Rep n h d₂} (h₁ : Spec.Acts r₁ R₁) (h₂ : Spec.Acts r₂ R₂)
    {out : List (MulIr T)} {Q : Matrix (Fin (r₁.dim * r₂.dim)) (Fin (r₁.dim * r₂.dim)) ℂ}
    (hraw : tpRedRaw r₁ r₂ = .ok (out, Q)) {Qr : Option SMat}
    (hQr : (Q = 1 ∧ Qr = none) ∨ Qr = some ⟨_, _, Q⟩) :
    Spec.Acts ⟨r₁.A, out, Qr⟩ (R₁.tensorProduct R₂) := by
  obtain ⟨hn, hne₁, hmul₁, q₁, hq₁, hu₁⟩ := acts_inv h₁
  obtain ⟨-, hne₂, hmul₂, q₂, hq₂, hu₂⟩ := acts_inv h₂
  obtain ⟨e, rfl⟩ := acts_unique (acts_of hn hne₁ hmul₁ hq₁ hu₁) h₁
  subst e
  obtain ⟨e, rfl⟩ := acts_unique (acts_of hn hne₂ hmul₂ hq₂ hu₂) h₂
  subst e
  obtain ⟨q₁', q₂', e₁, e₂, hout, hdim, q, hq, hQ, hF⟩ := tpRedRaw_ok hraw
  rw [hq₁] at e₁
  rw [hq₂] at e₂
  simp only [Except.ok.injEq] at e₁ e₂
  subst e₁ e₂
  have hK : HasInv (kron q₁ q₂) := (HasInv.of_isUnit hu₁).kron (HasInv.of_isUnit hu₂)
  have hne : out ≠ [] := by
    rintro rfl
    have : (0 : ℕ) = r₁.dim * r₂.dim := hdim
    have hn' : 0 < n := Nat.pos_of_ne_zero hn
    -- an empty result is impossible: the loops append a non-empty list for the first pair
    obtain ⟨a, l₁, hl₁⟩ := List.exists_cons_of_ne_nil hne₁
    obtain ⟨b, l₂, hl₂⟩ := List.exists_cons_of_ne_nil hne₂
    unfold tpRedRaw at hraw
    obtain ⟨_, _, hraw⟩ := bind_ok hraw
    obtain ⟨_, _, hraw⟩ := bind_ok hraw
    obtain ⟨⟨out', c, M⟩, ho, hraw⟩ := bind_ok hraw
    have hout' : out' = [] := by
      by_cases hc : r₁.dim * r₂.dim = c
      · simp only [dif_pos hc] at hraw
        change Except.ok _ = _ at hraw
        simp only [Except.ok.injEq, Prod.mk.injEq] at hraw
        exact hraw.1
      · simp only [dif_neg hc] at hraw
        exact absurd hraw (by simp)
    have : ∀ (l l' : List (MulIr T)) (out : List (MulIr T)) (c : ℕ)
        (M : Matrix (Fin (dimL l * dimL l')) (Fin c) ℂ), l ≠ [] → l' ≠ [] →
        tpOuter l' l = .ok (out, ⟨c, M⟩) → out ≠ [] := by
      intro l l' out c M hl hl' ho
      obtain ⟨a, l, rfl⟩ := List.exists_cons_of_ne_nil hl
      obtain ⟨b, l', rfl⟩ := List.exists_cons_of_ne_nil hl'
      rw [tpOuter] at ho
      obtain ⟨⟨out₁, c₁, M₁⟩, h₁, ho⟩ := bind_ok ho
      obtain ⟨⟨out₂, c₂, M₂⟩, -, ho⟩ := bind_ok ho
      change Except.ok _ = _ at ho
      simp only [Except.ok.injEq, Prod.mk.injEq] at ho
      rw [tpInner] at h₁
      obtain ⟨r, hrr, h₁⟩ := bind_ok h₁
      obtain ⟨-, hirr, hne, q, hQ, -, -⟩ := tpMul_ok hrr
      rw [hQ] at h₁
      obtain ⟨q', -, h₁⟩ := bind_ok h₁
      obtain ⟨⟨out', c', M'⟩, -, h₁⟩ := bind_ok h₁
      change Except.ok _ = _ at h₁
      simp only [Except.ok.injEq, Prod.mk.injEq] at h₁
      rw [← ho.1, ← h₁.1, hirr]
      simp [cgBlocks, hne]
    exact this _ _ _ _ _ hne₁ hne₂ ho hout'
  have hmul : ∀ m ∈ out, m.mul ≠ 0 := by
    intro m hm
    obtain ⟨a, ha, b, hb, k, hk, rfl⟩ := hout m hm
    have h1 := hmul₁ a ha
    have h2 := hmul₂ b hb
    have h3 := hcg a ha b hb k hk
    simp [h1, h2, h3]
  have hQ' : (⟨_, _, Q⟩ : SMat) = ⟨_, dimL out, Q.submatrix id (finCongr hdim)⟩ :=
    SMat.mk_congr_cols hdim Q
  have hQq : Q.submatrix id (finCongr hdim) = kron q₁ q₂ * q := SMat.mat_heq (hQ'.symm.trans hQ)
  refine acts_of_intertwines (q := kron q₁ q₂ * q) hn hne hmul (hK.mul hq) ?_ rfl ?_ ?_
  · rcases hQr with ⟨h1, h2⟩ | h2
    · left
      refine ⟨hdim.symm, h2, ?_⟩
      rw [← hQq, h1]
    · right
      show Qr = _
      rw [h2, hQ]
  · intro a
    have := hF _ (famX_ok hCG a)
    rw [famX_sum a fun u v => kron (diagMat u r₁.irreps) (diagMat v r₂.irreps), diagMat_one,
      diagMat_one] at this
    show (kron (q₁ * diagMat (fun ir => (T.rep ir).X a) r₁.irreps * q₁⁻¹) 1 +
      kron 1 (q₂ * diagMat (fun ir => (T.rep ir).X a) r₂.irreps * q₂⁻¹)) * (kron q₁ q₂ * q) =
      kron q₁ q₂ * q * diagMat (fun ir => (T.rep ir).X a) out
    have key : (kron (q₁ * diagMat (fun ir => (T.rep ir).X a) r₁.irreps * q₁⁻¹) 1 +
      kron 1 (q₂ * diagMat (fun ir => (T.rep ir).X a) r₂.irreps * q₂⁻¹)) * kron q₁ q₂ =
      kron q₁ q₂ * (kron (diagMat (fun ir => (T.rep ir).X a) r₁.irreps) 1 +
        kron 1 (diagMat (fun ir => (T.rep ir).X a) r₂.irreps)) := by
      rw [Matrix.add_mul, Matrix.mul_add, kron_mul, kron_mul, kron_mul, kron_mul,
        blockRep_mul hu₁, blockRep_mul hu₂, Matrix.one_mul,
        Matrix.one_mul, Matrix.mul_one, Matrix.mul_one]
    rw [← Matrix.mul_assoc, key, Matrix.mul_assoc, this, ← Matrix.mul_assoc]
    rfl
  · intro a
    have := hF _ (famH_ok hCG a)
    rw [famH_sum a fun u v => kron (diagMat u r₁.irreps) (diagMat v r₂.irreps)] at this
    show kron (q₁ * diagMat (fun ir => (T.rep ir).H a) r₁.irreps * q₁⁻¹)
      (q₂ * diagMat (fun ir => (T.rep ir).H a) r₂.irreps * q₂⁻¹) * (kron q₁ q₂ * q) =
      kron q₁ q₂ * q * diagMat (fun ir => (T.rep ir).H a) out
    rw [← Matrix.mul_assoc, kron_mul, blockRep_mul hu₁, blockRep_mul hu₂,
      ← kron_mul, Matrix.mul_assoc, this, ← Matrix.mul_assoc]
    rfl

theorem tpRed_acts (hCG : ∀ i j, ∀ k ∈ T.prod i j, ∀ C ∈ T.cg i j k,
    Spec.IsCG (T.rep i) (T.rep j) (T.rep k) C) {r₁ r₂ r : ReducedRep T}
    (hcg : ∀ a ∈ r₁.irreps, ∀ b ∈ r₂.irreps, ∀ k ∈ T.prod a.ir b.ir, T.cg a.ir b.ir k ≠ [])
    {d₁ d₂ : ℕ} {R₁ : Rep n h d₁} {R₂ : Rep n h d₂} (h₁ : Spec.Acts r₁ R₁) (h₂ : Spec.Acts r₂ R₂)
    (hround : ∀ out Q, tpRedRaw r₁ r₂ = .ok (out, Q) → RoundExact Q)
    (hr : tpRed r₁ r₂ = .ok r) : Spec.Acts r (R₁.tensorProduct R₂) := by
  unfold tpRed at hr
  obtain ⟨⟨out, Q⟩, hraw, hr⟩ := bind_ok hr
  change Except.ok _ = _ at hr
  simp only [Except.ok.injEq] at hr
  subst hr
  exact tpRedRaw_acts hCG hcg h₁ h₂ hraw (roundQ_exact (hround out Q hraw))

open Classical in
/-- The tolerance tests change the matrix by a bounded amount. -/
theorem roundQ_close {p : ℕ} (Q : Matrix (Fin p) (Fin p) ℂ) :
    (roundQ Q = none ∧ (∀ i, ‖Q i i - 1‖ ≤ 1 / 10 ^ 5 + 2 / 10 ^ 8) ∧
      ∀ i j, i ≠ j → ‖Q i j‖ ≤ 2 / 10 ^ 8) ∨
    ∃ Q' : Matrix (Fin p) (Fin p) ℂ, roundQ Q = some ⟨p, p, Q'⟩ ∧ ∀ i j, ‖Q i j - Q' i j‖ ≤ 1 / 10 ^ 8 := by
  obtain ⟨Q', hQ', hc⟩ : ∃ Q' : Matrix (Fin p) (Fin p) ℂ,
      Q' = (if AllCloseM (Q.map fun z => (z.im : ℂ)) 0 then Q.map fun z => (z.re : ℂ) else Q) ∧
      ∀ i j, ‖Q i j - Q' i j‖ ≤ 1 / 10 ^ 8 := by
    refine ⟨_, rfl, fun i j => ?_⟩
    split_ifs with hh
    · have h1 := hh i j
      simp only [IsClose, Matrix.map_apply, Matrix.zero_apply, sub_zero, norm_zero, mul_zero, add_zero] at h1
      rw [Matrix.map_apply]
      have e : Q i j - ((Q i j).re : ℂ) = ((Q i j).im : ℂ) * Complex.I := by
        apply Complex.ext <;> simp
      rw [e, norm_mul, Complex.norm_I, mul_one]
      exact h1
    · rw [sub_self, norm_zero]; positivity
  have hr : roundQ Q = if AllCloseM Q' 1 then none else some ⟨p, p, Q'⟩ := by
    unfold roundQ; rw [hQ']
  by_cases h1 : AllCloseM Q' 1
  · left
    refine ⟨by rw [hr, if_pos h1], fun i => ?_, fun i j hij => ?_⟩
    · have h2 := h1 i i
      simp only [IsClose, Matrix.one_apply_eq, norm_one, mul_one] at h2
      have h3 := norm_add_le (Q i i - Q' i i) (Q' i i - 1)
      rw [sub_add_sub_cancel] at h3
      have h4 := hc i i
      linarith
    · have h2 := h1 i j
      simp only [IsClose, Matrix.one_apply_ne hij, norm_zero, mul_zero, add_zero, sub_zero] at h2
      have h3 := norm_add_le (Q i j - Q' i j) (Q' i j)
      rw [sub_add_cancel] at h3
      have h4 := hc i j
      linarith
  · right
    exact ⟨Q', by rw [hr, if_neg h1], hc⟩

/-! ## Termination without exception -/

theorem ok_bind {α β : Type} (a : α) (f : α → Py β) : ((Except.ok a : Py α) >>= f) = f a := rfl

theorem tpTab_run {i j : T.Ir} (hA : AllCloseA (T.rep i).A (T.rep j).A) (hne : T.prod i j ≠ [])
    (hinv : HasInv (cgRows i j (T.prod i j))) : ∃ r, tpTab i j = .ok r := by
  unfold tpTab
  rw [pyAssert_of hA]
  obtain ⟨k, ks, hk⟩ := List.exists_cons_of_ne_nil hne
  rw [hk] at hinv ⊢
  have hd := hinv.dim_eq
  simp only [ok_bind]
  have hcast : (⟨_, _, cgRows i j (k :: ks)⟩ : SMat) =
      ⟨_, _, (cgRows i j (k :: ks)).submatrix (finCongr rfl) (finCongr hd)⟩ :=
    SMat.mk_congr rfl hd _
  have hu : IsUnit ((cgRows i j (k :: ks)).submatrix (finCongr rfl) (finCongr hd)) :=
    (hinv.submatrix _ _).isUnit
  rw [hcast, SMat.invP_mk hu]
  simp only [ok_bind]
  exact ⟨_, rfl⟩

theorem tpMul_run {a b : MulIr T} (hab : ∃ r, tpTab a.ir b.ir = .ok r) :
    ∃ r, tpMul a b = .ok r := by
  obtain ⟨tp, htp⟩ := hab
  have hA : AllCloseA (T.rep a.ir).A (T.rep b.ir).A := by
    have := htp
    unfold tpTab at this
    obtain ⟨_, h, -⟩ := bind_ok this
    exact pyAssert_ok h
  obtain ⟨-, hirr, hne, q, hQ, hq, hF⟩ := tpTab_ok htp
  unfold tpMul
  rw [pyAssert_of hA, htp]
  simp only [ok_bind]
  rw [hQ]
  simp only
  rw [SMat.view_mk]
  exact ⟨_, rfl⟩

theorem tpInner_run {a : MulIr T} {l : List (MulIr T)}
    (hab : ∀ b ∈ l, ∃ r, tpTab a.ir b.ir = .ok r) : ∃ x, tpInner a l = .ok x := by
  induction l with
  | nil => exact ⟨_, rfl⟩
  | cons b l ih =>
    obtain ⟨r, hr⟩ := tpMul_run (hab b (by simp))
    obtain ⟨⟨out, c, M⟩, hx⟩ := ih fun b hb => hab b (by simp [hb])
    obtain ⟨-, hirr, hne, q, hQ, hq, hF⟩ := tpMul_ok hr
    rw [tpInner, hr]
    simp only [ok_bind]
    rw [hQ]
    simp only
    rw [SMat.view_mk, hx]
    exact ⟨_, rfl⟩

theorem tpOuter_run {l₂ l : List (MulIr T)}
    (hab : ∀ a ∈ l, ∀ b ∈ l₂, ∃ r, tpTab a.ir b.ir = .ok r) : ∃ x, tpOuter l₂ l = .ok x := by
  induction l with
  | nil => exact ⟨_, rfl⟩
  | cons a l ih =>
    obtain ⟨⟨out₁, c₁, M₁⟩, hx₁⟩ := tpInner_run (hab a (by simp))
    obtain ⟨⟨out₂, c₂, M₂⟩, hx₂⟩ := ih fun b hb => hab b (by simp [hb])
    rw [tpOuter, hx₁, hx₂]
    exact ⟨_, rfl⟩

theorem tpRedRaw_run {r₁ r₂ : ReducedRep T} (h₁ : ∃ q, r₁.q = .ok q) (h₂ : ∃ q, r₂.q = .ok q)
    (hab : ∀ a ∈ r₁.irreps, ∀ b ∈ r₂.irreps, ∃ r, tpTab a.ir b.ir = .ok r) :
    ∃ x, tpRedRaw r₁ r₂ = .ok x := by
  obtain ⟨q₁, hq₁⟩ := h₁
  obtain ⟨q₂, hq₂⟩ := h₂
  obtain ⟨⟨out, c, M⟩, ho⟩ := tpOuter_run hab
  obtain ⟨-, q, hq, hi, -⟩ := tpOuter_ok ho
  have hc : r₁.dim * r₂.dim = c := hi.dim_eq.trans (congrArg SMat.cols hq).symm
  unfold tpRedRaw
  rw [hq₁, hq₂, ho]
  simp only [ok_bind]
  rw [dif_pos hc]
  exact ⟨_, rfl⟩

theorem tpRed_run {r₁ r₂ : ReducedRep T} (h₁ : ∃ q, r₁.q = .ok q) (h₂ : ∃ q, r₂.q = .ok q)
    (hab : ∀ a ∈ r₁.irreps, ∀ b ∈ r₂.irreps, ∃ r, tpTab a.ir b.ir = .ok r) :
    ∃ r, tpRed r₁ r₂ = .ok r := by
  obtain ⟨⟨out, Q⟩, hx⟩ := tpRedRaw_run h₁ h₂ hab
  unfold tpRed
  rw [hx]
  exact ⟨_, rfl⟩

/-! ## Matrices of zeros and ones -/

/-- All entries are `0` or `1`. -/
def Bin {a b : ℕ} (M : Matrix (Fin a) (Fin b) ℂ) : Prop := ∀ i j, M i j = 0 ∨ M i j = 1

theorem Bin.submatrix {a b a' b' : ℕ} {M : Matrix (Fin a) (Fin b) ℂ} (h : Bin M)
    (e : Fin a' → Fin a) (f : Fin b' → Fin b) : Bin (M.submatrix e f) := fun i j => h (e i) (f j)

theorem Bin.one {a : ℕ} : Bin (1 : Matrix (Fin a) (Fin a) ℂ) := by
  intro i j
  by_cases h : i = j
  · subst h; right; exact Matrix.one_apply_eq _
  · left; exact Matrix.one_apply_ne h

theorem Bin.kron {a b a' b' : ℕ} {M : Matrix (Fin a) (Fin b) ℂ} {N : Matrix (Fin a') (Fin b') ℂ}
    (hM : Bin M) (hN : Bin N) : Bin (kron M N) := by
  intro i j
  show M _ _ * N _ _ = 0 ∨ M _ _ * N _ _ = 1
  rcases hM i.divNat j.divNat with h | h <;> rcases hN i.modNat j.modNat with h' | h' <;>
    rw [h, h'] <;> simp

theorem Bin.dsum {a b a' b' : ℕ} {M : Matrix (Fin a) (Fin b) ℂ} {N : Matrix (Fin a') (Fin b') ℂ}
    (hM : Bin M) (hN : Bin N) : Bin (dsum M N) := by
  intro i j
  refine Fin.addCases (fun i => ?_) (fun i => ?_) i <;>
    refine Fin.addCases (fun j => ?_) (fun j => ?_) j
  · rw [dsum_ll]; exact hM i j
  · rw [dsum_lr]; exact Or.inl rfl
  · rw [dsum_rl]; exact Or.inl rfl
  · rw [dsum_rr]; exact hN i j

theorem Bin.roundExact {p : ℕ} {Q : Matrix (Fin p) (Fin p) ℂ} (h : Bin Q) : RoundExact Q := by
  constructor
  · intro _ i j
    rcases h i j with h | h <;> rw [h] <;> simp
  · intro hc
    ext i j
    have h1 := hc i j
    unfold IsClose at h1
    rcases h i j with h | h <;> rcases (Bin.one (a := p)) i j with h' | h' <;> rw [h, h'] at h1 ⊢
    · norm_num at h1
    · norm_num at h1

theorem tpMul_bin {a b : MulIr T} (hab : ∀ r, tpTab a.ir b.ir = .ok r → ∀ Q ∈ r.Q, Bin Q.mat)
    {r : ReducedRep T} (hr : tpMul a b = .ok r) : ∀ Q ∈ r.Q, Bin Q.mat := by
  unfold tpMul at hr
  obtain ⟨_, hA, hr⟩ := bind_ok hr
  obtain ⟨tp, htp, hr⟩ := bind_ok hr
  obtain ⟨-, hirr, hne, q, hQ, hq, hF⟩ := tpTab_ok htp
  have hb := hab tp htp _ (by rw [hQ]; rfl)
  rw [hQ] at hr
  obtain ⟨q', hq', hr⟩ := bind_ok hr
  rw [SMat.view_mk] at hq'
  simp only [Except.ok.injEq] at hq'
  subst hq'
  change Except.ok _ = _ at hr
  simp only [Except.ok.injEq] at hr
  subst hr
  intro Q hQ
  simp only [Option.mem_def, Option.some.injEq] at hQ
  subst hQ
  show Bin (liftCols _ _ _ _)
  rw [liftCols_eq]
  exact (Bin.one.kron hb).submatrix _ _

theorem tpInner_bin {a : MulIr T} {l : List (MulIr T)}
    (hab : ∀ b ∈ l, ∀ r, tpTab a.ir b.ir = .ok r → ∀ Q ∈ r.Q, Bin Q.mat)
    {out : List (MulIr T)} {c : ℕ} {M : Matrix (Fin (a.dim * dimL l)) (Fin c) ℂ}
    (hr : tpInner a l = .ok (out, ⟨c, M⟩)) : Bin M := by
  induction l generalizing out c with
  | nil =>
    change Except.ok _ = _ at hr
    simp only [Except.ok.injEq, Prod.mk.injEq] at hr
    obtain ⟨rfl, h2⟩ := hr
    cases h2
    intro i j
    exact Fin.elim0 j
  | cons b l ih =>
    rw [tpInner] at hr
    obtain ⟨r, hrr, hr⟩ := bind_ok hr
    obtain ⟨-, hirr, hne, q, hQ, hq, hF⟩ := tpMul_ok hrr
    have hb := tpMul_bin (hab b (by simp)) hrr _ (by rw [hQ]; rfl)
    rw [hQ] at hr
    obtain ⟨q', hq', hr⟩ := bind_ok hr
    rw [SMat.view_mk] at hq'
    simp only [Except.ok.injEq] at hq'
    subst hq'
    obtain ⟨⟨out', c', M'⟩, hin, hr⟩ := bind_ok hr
    change Except.ok _ = _ at hr
    simp only [Except.ok.injEq, Prod.mk.injEq] at hr
    obtain ⟨rfl, h2⟩ := hr
    cases h2
    have := ih (fun b hb => hab b (by simp [hb])) hin
    exact (Bin.dsum hb this).submatrix _ _

theorem tpOuter_bin {l₂ l : List (MulIr T)}
    (hab : ∀ a ∈ l, ∀ b ∈ l₂, ∀ r, tpTab a.ir b.ir = .ok r → ∀ Q ∈ r.Q, Bin Q.mat)
    {out : List (MulIr T)} {c : ℕ} {M : Matrix (Fin (dimL l * dimL l₂)) (Fin c) ℂ}
    (hr : tpOuter l₂ l = .ok (out, ⟨c, M⟩)) : Bin M := by
  induction l generalizing out c with
  | nil =>
    change Except.ok _ = _ at hr
    simp only [Except.ok.injEq, Prod.mk.injEq] at hr
    obtain ⟨rfl, h2⟩ := hr
    cases h2
    intro i j
    exact Fin.elim0 j
  | cons a l ih =>
    rw [tpOuter] at hr
    obtain ⟨⟨out₁, c₁, M₁⟩, h₁, hr⟩ := bind_ok hr
    obtain ⟨⟨out₂, c₂, M₂⟩, h₂, hr⟩ := bind_ok hr
    change Except.ok _ = _ at hr
    simp only [Except.ok.injEq, Prod.mk.injEq] at hr
    obtain ⟨rfl, h2⟩ := hr
    cases h2
    have g₁ := tpInner_bin (hab a (by simp)) h₁
    have g₂ := ih (fun a ha => hab a (by simp [ha])) h₂
    exact (Bin.dsum g₁ g₂).submatrix _ _

/-- With `Q1 = Q2 = None` and Clebsch-Gordan coefficients that are `0` or `1`, no tolerance
matters. -/
theorem tpRedRaw_bin {r₁ r₂ : ReducedRep T} (h₁ : r₁.Q = none) (h₂ : r₂.Q = none)
    (hab : ∀ a ∈ r₁.irreps, ∀ b ∈ r₂.irreps, ∀ r, tpTab a.ir b.ir = .ok r →
      ∀ Q ∈ r.Q, Bin Q.mat)
    {out : List (MulIr T)} {Q : Matrix (Fin (r₁.dim * r₂.dim)) (Fin (r₁.dim * r₂.dim)) ℂ}
    (hr : tpRedRaw r₁ r₂ = .ok (out, Q)) : Bin Q := by
  unfold tpRedRaw at hr
  obtain ⟨q₁, hq₁, hr⟩ := bind_ok hr
  obtain ⟨q₂, hq₂, hr⟩ := bind_ok hr
  obtain ⟨⟨out', c, M⟩, ho, hr⟩ := bind_ok hr
  have hb := tpOuter_bin hab ho
  unfold ReducedRep.q at hq₁ hq₂
  rw [h₁] at hq₁
  rw [h₂] at hq₂
  cases hq₁
  cases hq₂
  by_cases hc : r₁.dim * r₂.dim = c
  · simp only [dif_pos hc] at hr
    change Except.ok _ = _ at hr
    simp only [Except.ok.injEq, Prod.mk.injEq] at hr
    obtain ⟨rfl, rfl⟩ := hr
    rw [kron_one, Matrix.one_mul]
    exact hb.submatrix _ _
  · simp only [dif_neg hc] at hr
    exact absurd hr (by simp)

theorem toReduced_acts {m : MulIr T} (hn : n ≠ 0) (hm : m.mul ≠ 0) :
    Spec.Acts m.toReduced (copies m.mul (T.rep m.ir)) := by
  have := acts_of (r := m.toReduced) hn (by simp [MulIr.toReduced])
    (by simpa [MulIr.toReduced] using hm) (q := 1) rfl isUnit_one
  have hA : m.toReduced.A = (T.rep m.ir).A := rfl
  have key (Y : T.Mats) : (⟨m.toReduced.dim, m.toReduced.dim,
      (1 : Matrix (Fin m.toReduced.dim) (Fin m.toReduced.dim) ℂ) * diagMat Y m.toReduced.irreps *
      (1 : Matrix (Fin m.toReduced.dim) (Fin m.toReduced.dim) ℂ)⁻¹⟩ : SMat) =
      ⟨m.dim, m.dim, kron (1 : Matrix (Fin m.mul) (Fin m.mul) ℂ) (Y m.ir)⟩ := by
    rw [inv_one, Matrix.one_mul, Matrix.mul_one]
    rw [← dsums_blocks]
    exact dsum_empty _
  obtain ⟨h1, h2, h3⟩ := this
  refine ⟨rfl, ?_, ?_⟩
  · rw [h2]
    congr 2
    funext a
    exact key fun ir => (T.rep ir).X a
  · rw [h3]
    congr 2
    funext a
    exact key fun ir => (T.rep ir).H a


/-! ## Joint invertibility -/

theorem dimL_cgBlocks (i j : T.Ir) (outs : List T.Ir) : dimL (cgBlocks i j outs) =
    (outs.map fun k => (T.cg i j k).length * T.dim k).sum := by
  rw [dimL_eq_sum]
  simp [cgBlocks, Function.comp_def]

theorem cgRows_mulVec {i j : T.Ir} {outs : List T.Ir} {v : Fin (T.dim i * T.dim j) → ℂ}
    (hv : cgRows i j outs *ᵥ v = 0) : ∀ k ∈ outs, ∀ C ∈ T.cg i j k, ∀ l,
      ∑ x, ∑ y, C x y l * v (finProdFinEquiv (x, y)) = 0 := by
  induction outs with
  | nil => simp
  | cons k outs ih =>
    have h1 : cgBlock (T.cg i j k) *ᵥ v = 0 := by
      funext r
      have := congrFun hv (Fin.castAdd _ r)
      refine Eq.trans ?_ this
      simp only [Matrix.mulVec, dotProduct]
      refine Finset.sum_congr rfl fun c _ => ?_
      congr 1
      exact (Fin.addCases_left (motive := fun _ => ℂ) (left := fun r => cgBlock (T.cg i j k) r c)
        (right := fun r => cgRows i j outs r c) r).symm
    have h2 : cgRows i j outs *ᵥ v = 0 := by
      funext r
      have := congrFun hv (Fin.natAdd _ r)
      refine Eq.trans ?_ this
      simp only [Matrix.mulVec, dotProduct]
      refine Finset.sum_congr rfl fun c _ => ?_
      congr 1
      exact (Fin.addCases_right (motive := fun _ => ℂ) (left := fun r => cgBlock (T.cg i j k) r c)
        (right := fun r => cgRows i j outs r c) r).symm
    intro k' hk' C hC l
    rcases List.mem_cons.1 hk' with rfl | hk'
    · obtain ⟨s, hs⟩ := List.mem_iff_get.1 hC
      have := congrFun h1 (finProdFinEquiv (s, l))
      refine Eq.trans ?_ this
      simp only [Matrix.mulVec, dotProduct]
      rw [← finProdFinEquiv.sum_comp, Fintype.sum_prod_type]
      refine Finset.sum_congr rfl fun x _ => Finset.sum_congr rfl fun y _ => ?_
      congr 1
      show _ = (T.cg i j k').get (finProdFinEquiv (s, l)).divNat
        (finProdFinEquiv (x, y)).divNat (finProdFinEquiv (x, y)).modNat
        (finProdFinEquiv (s, l)).modNat
      rw [divNat_prod, modNat_prod, divNat_prod, modNat_prod, hs]
    · exact ih h2 k' hk' C hC l

theorem hasInv_of_complete {i j : T.Ir} (hc : Spec.CGComplete i j) :
    HasInv (cgRows i j (T.prod i j)) := by
  obtain ⟨hd, hinj⟩ := hc
  rw [← dimL_cgBlocks] at hd
  have key : HasInv ((cgRows i j (T.prod i j)).submatrix (finCongr hd.symm) id) := by
    apply HasInv.of_isUnit
    rw [← Matrix.mulVec_injective_iff_isUnit]
    intro v w hvw
    have h0 : ((cgRows i j (T.prod i j)).submatrix (finCongr hd.symm) id) *ᵥ (v - w) = 0 := by
      rw [Matrix.mulVec_sub]
      exact sub_eq_zero.2 hvw
    have h1 : cgRows i j (T.prod i j) *ᵥ (v - w) = 0 := by
      funext r
      exact congrFun h0 (finCongr hd r)
    have := hinj (fun x y => (v - w) (finProdFinEquiv (x, y))) (cgRows_mulVec h1)
    have h2 : v - w = 0 := by
      funext c
      obtain ⟨⟨x, y⟩, rfl⟩ := finProdFinEquiv.surjective c
      exact congrFun (congrFun this x) y
    exact sub_eq_zero.1 h2
  have := key.submatrix (finCongr hd) (Equiv.refl _)
  exact this

theorem GoodPair.run {i j : T.Ir} (hg : Spec.GoodPair i j) : ∃ r, tpTab i j = .ok r :=
  tpTab_run hg.algebra hg.nonempty (hasInv_of_complete hg.complete)

end LieNN

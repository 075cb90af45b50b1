import Verif.Proofs.TensorPowerReal
import Verif.Proofs.SU2Table
import Verif.Proofs.IterTriv
/-!
# The tolerances of `tensor_product` do not matter on powers of an `SU2` irrep
-/
namespace LieNN

open Matrix Spec

namespace SU2

/-- The first basis vector is an eigenvector (of the transposed matrix) of the second generator. -/
def Low {d : ℕ} (w : ℂ) (R : Rep 3 0 d) : Prop :=
  0 < d ∧ ∀ i k : Fin d, i.1 = 0 → R.X 1 i k = if k.1 = 0 then w else 0

theorem low_tensor {d₁ d₂ : ℕ} {w₁ w₂ : ℂ} {R₁ : Rep 3 0 d₁} {R₂ : Rep 3 0 d₂} (h₁ : Low w₁ R₁)
    (h₂ : Low w₂ R₂) : Low (w₁ + w₂) (R₁.tensorProduct R₂) := by
  refine ⟨Nat.mul_pos h₁.1 h₂.1, fun i k hi => ?_⟩
  have hd : (i.divNat).1 = 0 := by rw [Fin.coe_divNat, hi, Nat.zero_div]
  have hm : (i.modNat).1 = 0 := by rw [Fin.coe_modNat, hi, Nat.zero_mod]
  show R₁.X 1 i.divNat k.divNat * (1 : Matrix _ _ ℂ) i.modNat k.modNat +
    (1 : Matrix _ _ ℂ) i.divNat k.divNat * R₂.X 1 i.modNat k.modNat = _
  rw [h₁.2 _ _ hd, h₂.2 _ _ hm, Matrix.one_apply, Matrix.one_apply]
  have e1 : i.modNat = k.modNat ↔ k.1 % d₂ = 0 := by
    rw [Fin.ext_iff, hm, Fin.coe_modNat]; exact eq_comm
  have e2 : i.divNat = k.divNat ↔ k.1 / d₂ = 0 := by
    rw [Fin.ext_iff, hd, Fin.coe_divNat]; exact eq_comm
  simp only [e1, e2, Fin.coe_divNat, Fin.coe_modNat]
  have e3 : k.1 = 0 ↔ k.1 / d₂ = 0 ∧ k.1 % d₂ = 0 := by
    constructor
    · intro h; rw [h]; simp
    · rintro ⟨h, h'⟩
      rw [← Nat.div_add_mod k.1 d₂, h, h']
      simp
  by_cases c1 : k.1 / d₂ = 0 <;> by_cases c2 : k.1 % d₂ = 0 <;> simp [e3, c1, c2]

/-- The eigenvalue of the first basis vector of `SU2(j)`. -/
noncomputable def lw (j : ℕ) : ℂ := Complex.I * ((-(j / 2) : ℝ) : ℂ)

theorem rep_X_one (j : ℕ) (i k : Fin (j + 1)) (hi : i.1 = 0 ∨ k.1 = 0) :
    (rep j).X 1 i k = if i.1 = k.1 then lw j else 0 := by
  show zGen j i k = _
  unfold zGen lw
  rw [Matrix.diagonal_apply]
  by_cases h : i = k
  · subst h
    have : i.1 = 0 := by tauto
    rw [if_pos rfl, if_pos rfl, this]
    simp
  · rw [if_neg h, if_neg fun h' => h (Fin.ext h')]

theorem low_rep (j : ℕ) : Low (lw j) (rep j) := by
  refine ⟨Nat.succ_pos _, fun i k hi => ?_⟩
  rw [rep_X_one j i k (.inl hi), hi]
  simp [eq_comm]

theorem lw_ne {i j : ℕ} (h : i ≠ j) : lw i ≠ lw j := by
  intro e
  have := mul_left_cancel₀ Complex.I_ne_zero e
  have := Complex.ofReal_injective this
  have : (i : ℝ) = j := by linarith
  exact h (by exact_mod_cast this)

theorem lw_add (i j : ℕ) : lw i + lw j = lw (i + j) := by
  unfold lw
  push_cast
  ring

theorem low_copies {d : ℕ} {w : ℂ} {R : Rep 3 0 d} (hR : Low w R) {m : ℕ} (hm : m ≠ 0) :
    Low w (copies m R) := by
  refine ⟨Nat.mul_pos (Nat.pos_of_ne_zero hm) hR.1, fun i k hi => ?_⟩
  have hd : (i.divNat).1 = 0 := by rw [Fin.coe_divNat, hi, Nat.zero_div]
  have hmo : (i.modNat).1 = 0 := by rw [Fin.coe_modNat, hi, Nat.zero_mod]
  show (1 : Matrix _ _ ℂ) i.divNat k.divNat * R.X 1 i.modNat k.modNat = _
  rw [hR.2 _ _ hmo, Matrix.one_apply]
  have e2 : i.divNat = k.divNat ↔ k.1 / d = 0 := by
    rw [Fin.ext_iff, hd, Fin.coe_divNat]; exact eq_comm
  simp only [e2, Fin.coe_modNat]
  have e3 : k.1 = 0 ↔ k.1 / d = 0 ∧ k.1 % d = 0 := by
    constructor
    · intro h; rw [h]; simp
    · rintro ⟨h, h'⟩
      rw [← Nat.div_add_mod k.1 d, h, h']
      simp
  by_cases c1 : k.1 / d = 0 <;> by_cases c2 : k.1 % d = 0 <;> simp [e3, c1, c2]

theorem col_dsum {p D b : ℕ} (hp : 0 < p * D) (Y : Matrix (Fin D) (Fin D) ℂ)
    (B : Matrix (Fin b) (Fin b) ℂ) {w : ℂ}
    (hY : ∀ i k : Fin D, k.1 = 0 → Y i k = if i.1 = 0 then w else 0)
    (i k : Fin (p * D + b)) (hk : k.1 = 0) :
    dsum (kron (1 : Matrix (Fin p) (Fin p) ℂ) Y) B i k = if i.1 = 0 then w else 0 := by
  obtain rfl : k = Fin.castAdd b ⟨0, hp⟩ := Fin.ext hk
  refine Fin.addCases (fun i => ?_) (fun i => ?_) i
  · rw [dsum_ll]
    show (1 : Matrix (Fin p) (Fin p) ℂ) i.divNat _ * Y i.modNat _ = _
    rw [hY _ _ (by rw [Fin.coe_modNat]; exact Nat.zero_mod _), Matrix.one_apply]
    have e2 : (i.divNat = Fin.divNat (⟨0, hp⟩ : Fin (p * D))) ↔ i.1 / D = 0 := by
      rw [Fin.ext_iff, Fin.coe_divNat, Fin.coe_divNat, Nat.zero_div]
    have e3 : i.1 = 0 ↔ i.1 / D = 0 ∧ i.1 % D = 0 := by
      constructor
      · intro h; rw [h]; simp
      · rintro ⟨h, h'⟩
        rw [← Nat.div_add_mod i.1 D, h, h']
        simp
    simp only [e2, Fin.coe_modNat, Fin.val_castAdd]
    by_cases c1 : i.1 / D = 0 <;> by_cases c2 : i.1 % D = 0 <;> simp [e3, c1, c2]
  · rw [dsum_rl, if_neg]
    rw [Fin.val_natAdd]
    omega

/-- The first column of the block diagonal matrix. -/
theorem diag_col (m : MulIr table) (hm : m.mul ≠ 0) (l : List (MulIr table))
    (i k : Fin (dimL (m :: l))) (hk : k.1 = 0) :
    diagMat (fun ir => (table.rep ir).X 1) (m :: l) i k = if i.1 = 0 then lw m.ir else 0 :=
  col_dsum (D := dim m.ir) (Nat.mul_pos (Nat.pos_of_ne_zero hm) (Nat.succ_pos _)) ((rep m.ir).X 1) _
    (fun i k hk => by
      rw [rep_X_one m.ir i k (.inr hk), hk]) i k hk

theorem rlTable : RlTable table := TBasis.su2_goodTable.real

/-- If the first block is not the one of the lowest weight, then `Q[0, 0] = 0`: the matrix is not
close to the identity. -/
theorem exact {r₁ r₂ : ReducedRep table} (hq₁ : ∀ Q ∈ r₁.Q, Rl Q.mat) (hq₂ : ∀ Q ∈ r₂.Q, Rl Q.mat)
    {d₁ d₂ : ℕ} {R₁ : Rep 3 0 d₁} {R₂ : Rep 3 0 d₂} (h₁ : Acts r₁ R₁) (h₂ : Acts r₂ R₂)
    {w₁ w₂ : ℕ} (hw₁ : Low (lw w₁) R₁) (hw₂ : Low (lw w₂) R₂)
    {out : List (MulIr table)} {Q : Matrix (Fin (r₁.dim * r₂.dim)) (Fin (r₁.dim * r₂.dim)) ℂ}
    (hraw : tpRedRaw r₁ r₂ = .ok (out, Q)) {m : MulIr table} {l : List (MulIr table)}
    (hout : out = m :: l) (hm : m.mul ≠ 0) (hk : m.ir ≠ w₁ + w₂) : RoundExact Q := by
  refine ⟨fun _ => tpRedRaw_rl rlTable hq₁ hq₂ hraw, fun hc => ?_⟩
  exfalso
  obtain ⟨e, hdim, hX⟩ := tpRedRaw_X table_equivariant h₁ h₂ hraw 1
  have hlow := low_tensor hw₁ hw₂
  subst hout
  have hp : 0 < d₁ * d₂ := hlow.1
  have hp' : 0 < dimL (m :: l) := by rw [hdim, ← e]; exact hp
  have h0 := congrFun (congrFun hX ⟨0, hp⟩) ⟨0, hp'⟩
  rw [Matrix.mul_apply, Matrix.mul_apply, Finset.sum_eq_single ⟨0, hp⟩,
    Finset.sum_eq_single (⟨0, hp'⟩ : Fin (dimL (m :: l)))] at h0
  · rw [hlow.2 _ _ rfl, diag_col m hm l _ _ rfl, if_pos rfl, if_pos rfl, lw_add, mul_comm] at h0
    have hne : lw (w₁ + w₂) - lw m.ir ≠ 0 := sub_ne_zero.2 (lw_ne fun h => hk h.symm)
    have hz : Q.submatrix (finCongr e) (finCongr hdim) ⟨0, hp⟩ ⟨0, hp'⟩ = 0 := by
      have : Q.submatrix (finCongr e) (finCongr hdim) ⟨0, hp⟩ ⟨0, hp'⟩ *
          (lw (w₁ + w₂) - lw m.ir) = 0 := by
        rw [mul_sub, h0, sub_self]
      exact (mul_eq_zero.1 this).resolve_right hne
    have hcl := hc (finCongr e ⟨0, hp⟩) (finCongr hdim ⟨0, hp'⟩)
    rw [Matrix.submatrix_apply] at hz
    rw [hz, show finCongr hdim ⟨0, hp'⟩ = finCongr e ⟨0, hp⟩ from Fin.ext rfl, Matrix.one_apply_eq]
      at hcl
    unfold IsClose at hcl
    norm_num at hcl
  · intro b _ hb
    rw [diag_col m hm l _ _ rfl, if_neg fun h => hb (Fin.ext h), mul_zero]
  · intro hb; exact absurd (Finset.mem_univ _) hb
  · intro b _ hb
    rw [hlow.2 _ _ rfl, if_neg fun h => hb (Fin.ext h), zero_mul]
  · intro hb; exact absurd (Finset.mem_univ _) hb

/-! ## The first block -/

/-- The label of the first block. -/
def First (l : List (MulIr table)) (k : ℕ) : Prop := ∃ m l', l = m :: l' ∧ m.ir = k

theorem mulL_first (i j : ℕ) : ∃ l, mulL i j = (max i j - min i j) :: l := by
  unfold mulL
  rw [List.range_succ_eq_map, List.map_cons]
  exact ⟨_, rfl⟩

theorem first_tpMul {a b : MulIr table} {r : ReducedRep table} (hr : tpMul a b = .ok r) :
    ∀ i j : ℕ, a.ir = i → b.ir = j → First r.irreps (max i j - min i j) := by
  rintro i j rfl rfl
  obtain ⟨-, hirr, -⟩ := tpMul_ok hr
  obtain ⟨l, hl⟩ := mulL_first a.ir b.ir
  have hp : table.prod a.ir b.ir = _ := (table_prod a.ir b.ir).trans hl
  rw [hirr, hp]
  exact ⟨_, _, rfl, rfl⟩

theorem first_tpTab {i j : ℕ} {r : ReducedRep table} (hr : tpTab (T := table) i j = .ok r) :
    First r.irreps (max i j - min i j) := by
  obtain ⟨-, hirr, -⟩ := tpTab_ok hr
  obtain ⟨l, hl⟩ := mulL_first i j
  have hp : table.prod i j = _ := (table_prod i j).trans hl
  rw [hirr, hp]
  exact ⟨_, _, rfl, rfl⟩

theorem first_tpOuter {l l' out : List (MulIr table)} {c : ℕ}
    {M : Matrix (Fin (dimL l * dimL l')) (Fin c) ℂ} {i j : ℕ} (hl : First l i) (hl' : First l' j)
    (ho : tpOuter l' l = .ok (out, ⟨c, M⟩)) : First out (max i j - min i j) := by
  obtain ⟨a, l, rfl, ha⟩ := hl
  obtain ⟨b, l', rfl, hb⟩ := hl'
  rw [tpOuter] at ho
  obtain ⟨⟨out₁, c₁, M₁⟩, h₁, ho⟩ := bind_ok ho
  obtain ⟨⟨out₂, c₂, M₂⟩, -, ho⟩ := bind_ok ho
  change Except.ok _ = _ at ho
  simp only [Except.ok.injEq, Prod.mk.injEq] at ho
  rw [tpInner] at h₁
  obtain ⟨r, hrr, h₁⟩ := bind_ok h₁
  obtain ⟨-, hirr, hne, q, hQ, -, -⟩ := tpMul_ok hrr
  rw [hQ] at h₁
  obtain ⟨q', -, h₁⟩ := bind_ok h₁
  obtain ⟨⟨out', c', M'⟩, -, h₁⟩ := bind_ok h₁
  change Except.ok _ = _ at h₁
  simp only [Except.ok.injEq, Prod.mk.injEq] at h₁
  obtain ⟨m, l'', hm, hk⟩ := first_tpMul hrr i j ha hb
  rw [← ho.1, ← h₁.1, hm]
  exact ⟨m, _, rfl, hk⟩

theorem first_raw {r₁ r₂ : ReducedRep table} {out : List (MulIr table)}
    {Q : Matrix (Fin (r₁.dim * r₂.dim)) (Fin (r₁.dim * r₂.dim)) ℂ} {i j : ℕ}
    (h₁ : First r₁.irreps i) (h₂ : First r₂.irreps j) (hraw : tpRedRaw r₁ r₂ = .ok (out, Q)) :
    First out (max i j - min i j) := by
  have hr : tpRed r₁ r₂ = .ok ⟨r₁.A, out, roundQ Q⟩ := by
    unfold tpRed
    rw [hraw]
    rfl
  obtain ⟨c, Q', ho⟩ := IrRep.tpRed_blocks hr
  exact first_tpOuter h₁ h₂ ho

theorem exact_first {r₁ r₂ : ReducedRep table} (hq₁ : ∀ Q ∈ r₁.Q, Rl Q.mat)
    (hq₂ : ∀ Q ∈ r₂.Q, Rl Q.mat) {d₁ d₂ : ℕ} {R₁ : Rep 3 0 d₁} {R₂ : Rep 3 0 d₂} (h₁ : Acts r₁ R₁)
    (h₂ : Acts r₂ R₂) {w₁ w₂ : ℕ} (hw₁ : Low (lw w₁) R₁) (hw₂ : Low (lw w₂) R₂) {i j : ℕ}
    (hf₁ : First r₁.irreps i) (hf₂ : First r₂.irreps j) (hk : max i j - min i j ≠ w₁ + w₂) :
    ∀ out Q, tpRedRaw r₁ r₂ = .ok (out, Q) → RoundExact Q := by
  intro out Q hraw
  obtain ⟨m, l, hm, hmk⟩ := first_raw hf₁ hf₂ hraw
  refine SU2.exact hq₁ hq₂ h₁ h₂ hw₁ hw₂ hraw hm ?_ (by rw [hmk]; exact hk)
  obtain ⟨-, -, -, -, hout, -⟩ := tpRedRaw_ok hraw
  obtain ⟨a, ha, b, hb, k, hk, e⟩ := hout m (by rw [hm]; simp)
  have h1 := (acts_inv h₁).2.2.1 a ha
  have h2 := (acts_inv h₂).2.2.1 b hb
  have h3 := (table_good a.ir b.ir).sols k hk
  rw [e]
  simp [h1, h2, h3]

/-! ## The invariants of the loop -/

open IrRep

/-- `x` acts as a power `a` of `R₀`, with a real change of basis. -/
def Core {d₀ : ℕ} (R₀ : Rep 3 0 d₀) (j a : ℕ) (x : IrRep table) : Prop :=
  ∃ d, ∃ R : Rep 3 0 d, ActsAs x d R ∧ IsTensorPower R₀ a ⟨3, 0, d, R⟩ ∧ Low (lw (a * j)) R ∧
    ∀ Q ∈ x.asRed.Q, Rl Q.mat

/-- Invariant of `rep`. -/
def PRep {d₀ : ℕ} (R₀ : Rep 3 0 d₀) (j a : ℕ) (x : IrRep table) : Prop :=
  Core R₀ j a x ∧ 1 ≤ a ∧ ∃ k, First x.asRed.irreps k ∧ k ≤ a * j ∧ ((∃ r, x = red r) → k < a * j)

/-- Invariant of `result`. -/
def PRes {d₀ : ℕ} (R₀ : Rep 3 0 d₀) (j b : ℕ) (y : IrRep table) : Prop :=
  Core R₀ j b y ∧ ∃ k, First y.asRed.irreps k ∧ k ≤ b * j ∧
    ((y = tab (0 : ℕ) ∧ b = 0) ∨ (∃ r, y = red r) ∧ 1 ≤ b)

theorem tp_first {x y : IrRep table} {r : ReducedRep table} (hr : tensorProduct x y = .ok r)
    {i k : ℕ} (hx : First x.asRed.irreps i) (hy : First y.asRed.irreps k) :
    First r.irreps (max i k - min i k) := by
  have key {r₁ r₂ r : ReducedRep table} {i k : ℕ} (h₁ : First r₁.irreps i)
      (h₂ : First r₂.irreps k) (hr : tpRed r₁ r₂ = .ok r) : First r.irreps (max i k - min i k) := by
    obtain ⟨c, Q, ho⟩ := tpRed_blocks hr
    exact first_tpOuter h₁ h₂ ho
  have fm {m : MulIr table} {k : ℕ} (h : First m.toReduced.irreps k) : m.ir = k := by
    obtain ⟨m', l, hl, hk⟩ := h
    have : m = m' := (List.cons.inj hl).1
    rw [this]; exact hk
  cases x with
  | tab i' =>
    have hi : i' = i := fm (m := ⟨1, i'⟩) hx
    cases y with
    | tab k' =>
      have hk : k' = k := fm (m := ⟨1, k'⟩) hy
      subst hi hk
      exact first_tpTab hr
    | mul b => exact first_tpMul hr i k hi (fm hy)
    | red s => exact key hx hy hr
  | mul a =>
    cases y with
    | tab k' => exact first_tpMul hr i k (fm hx) (fm (m := ⟨1, k'⟩) hy)
    | mul b => exact first_tpMul hr i k (fm hx) (fm hy)
    | red s => exact key hx hy hr
  | red s =>
    cases y with
    | tab k' => rw [max_comm, min_comm]; exact key hy hx hr
    | mul b => rw [max_comm, min_comm]; exact key hy hx hr
    | red s => exact key hx hy hr

theorem tp_rl {x y : IrRep table} {r : ReducedRep table} (hr : tensorProduct x y = .ok r)
    (hx : ∀ Q ∈ x.asRed.Q, Rl Q.mat) (hy : ∀ Q ∈ y.asRed.Q, Rl Q.mat) : ∀ Q ∈ r.Q, Rl Q.mat := by
  cases x <;> cases y
  · exact tpTab_rl rlTable hr
  · exact tpMul_rl rlTable hr
  · exact tpRed_rl rlTable hx hy hr
  · exact tpMul_rl rlTable hr
  · exact tpMul_rl rlTable hr
  · exact tpRed_rl rlTable hx hy hr
  · exact tpRed_rl rlTable hy hx hr
  · exact tpRed_rl rlTable hy hx hr
  · exact tpRed_rl rlTable hx hy hr

theorem tpExact_of {d₀ : ℕ} {R₀ : Rep 3 0 d₀} {j a b : ℕ} {x y : IrRep table} (hx : Core R₀ j a x)
    (hy : Core R₀ j b y) {i k : ℕ} (hi : First x.asRed.irreps i) (hk : First y.asRed.irreps k)
    (hne : ((∃ r, x = red r) ∨ ∃ r, y = red r) → max i k - min i k ≠ a * j + b * j) :
    TpExact x y := by
  obtain ⟨d₁, R₁, ha₁, hp₁, hw₁, hq₁⟩ := hx
  obtain ⟨d₂, R₂, ha₂, hp₂, hw₂, hq₂⟩ := hy
  have ha₁ := actsAs_asRed (by norm_num) ha₁
  have ha₂ := actsAs_asRed (by norm_num) ha₂
  have e₁ (hn : max i k - min i k ≠ a * j + b * j) :=
    exact_first hq₁ hq₂ ha₁ ha₂ hw₁ hw₂ hi hk hn
  have e₂ (hn : max i k - min i k ≠ a * j + b * j) := exact_first hq₂ hq₁ ha₂ ha₁ hw₂ hw₁ hk hi
    (by rw [max_comm, min_comm, add_comm (b * j)]; exact hn)
  cases x with
  | tab i =>
    cases y with
    | tab k => trivial
    | mul m => trivial
    | red s => exact e₁ (hne (.inr ⟨s, rfl⟩))
  | mul m =>
    cases y with
    | tab k => trivial
    | mul m => trivial
    | red s => exact e₁ (hne (.inr ⟨s, rfl⟩))
  | red r =>
    cases y with
    | tab k => exact e₂ (hne (.inl ⟨r, rfl⟩))
    | mul m => exact e₂ (hne (.inl ⟨r, rfl⟩))
    | red s => exact e₁ (hne (.inl ⟨r, rfl⟩))

/-- One call of `tensor_product`, when the tolerances do not matter. -/
theorem core_tp {d₀ : ℕ} {R₀ : Rep 3 0 d₀} {j a b : ℕ} {x y : IrRep table} (hx : Core R₀ j a x)
    (hy : Core R₀ j b y) {i k : ℕ} (hi : First x.asRed.irreps i) (hk : First y.asRed.irreps k)
    (hne : ((∃ r, x = red r) ∨ ∃ r, y = red r) → max i k - min i k ≠ a * j + b * j) :
    ∃ r, tensorProduct x y = .ok r ∧ Core R₀ j (a + b) (red r) ∧
      First r.irreps (max i k - min i k) := by
  have he := tpExact_of hx hy hi hk hne
  obtain ⟨d₁, R₁, ha₁, hp₁, hw₁, hq₁⟩ := hx
  obtain ⟨d₂, R₂, ha₂, hp₂, hw₂, hq₂⟩ := hy
  have ha₁ := actsAs_asRed (by norm_num) ha₁
  have ha₂ := actsAs_asRed (by norm_num) ha₂
  obtain ⟨r, hr, -⟩ := tp_run (T := table) table_good (acts_shaped ha₁) (acts_shaped ha₂)
  have hrl := tp_rl hr hq₁ hq₂
  refine ⟨r, hr, ?_, tp_first hr hi hk⟩
  rcases acts_tp (by norm_num) table_equivariant table_good ha₁ ha₂ he hr with h | h
  · refine ⟨_, _, h, isTensorPower_of_acts hp₁ hp₂, ?_, hrl⟩
    rw [Nat.add_mul, ← lw_add]
    exact low_tensor hw₁ hw₂
  · refine ⟨_, _, h, ?_, ?_, hrl⟩
    · rw [add_comm]; exact isTensorPower_of_acts hp₂ hp₁
    · rw [add_comm, Nat.add_mul, ← lw_add]
      exact low_tensor hw₂ hw₁

theorem ne_res {d₀ : ℕ} {R₀ : Rep 3 0 d₀} {j : ℕ} (hj : j ≠ 0) {a b : ℕ} {x y : IrRep table}
    (hx : PRep R₀ j a x) (hy : PRes R₀ j b y) :
    ∃ i k, First x.asRed.irreps i ∧ First y.asRed.irreps k ∧ i ≤ a * j ∧ k ≤ b * j ∧
      (((∃ r, x = red r) ∨ ∃ r, y = red r) → max i k - min i k ≠ a * j + b * j) := by
  obtain ⟨hc, ha, i, hi, hi2, hi3⟩ := hx
  obtain ⟨hc', k, hk, hk2, hk3⟩ := hy
  have haj : 1 ≤ a * j := Nat.mul_pos ha (Nat.pos_of_ne_zero hj)
  refine ⟨i, k, hi, hk, hi2, hk2, ?_⟩
  intro hred
  rcases hk3 with ⟨rfl, rfl⟩ | ⟨-, hb⟩
  · rcases hred with hred | ⟨r, hr⟩
    · have := hi3 hred
      omega
    · cases hr
  · have : 1 ≤ b * j := Nat.mul_pos hb (Nat.pos_of_ne_zero hj)
    omega

theorem step_res {d₀ : ℕ} {R₀ : Rep 3 0 d₀} {j : ℕ} (hj : j ≠ 0) (a b : ℕ) (x y : IrRep table)
    (hx : PRep R₀ j a x) (hy : PRes R₀ j b y) :
    ∃ r, tensorProduct x y = .ok r ∧ PRes R₀ j (a + b) (red r) := by
  obtain ⟨i, k, hi, hk, hi2, hk2, hne⟩ := ne_res hj hx hy
  obtain ⟨r, hr, h1, h2⟩ := core_tp hx.1 hy.1 hi hk hne
  refine ⟨r, hr, h1, _, h2, ?_, .inr ⟨⟨r, rfl⟩, by have := hx.2.1; omega⟩⟩
  rw [Nat.add_mul]
  omega

theorem step_rep {d₀ : ℕ} {R₀ : Rep 3 0 d₀} {j : ℕ} (hj : j ≠ 0) (a : ℕ) (x : IrRep table)
    (hx : PRep R₀ j a x) :
    ∃ r, tensorProduct x x = .ok r ∧ PRep R₀ j (a + a) (red r) := by
  obtain ⟨hc, ha, i, hi, hi2, hi3⟩ := hx
  have haj : 1 ≤ a * j := Nat.mul_pos ha (Nat.pos_of_ne_zero hj)
  obtain ⟨r, hr, h1, h2⟩ := core_tp hc hc hi hi (by intro _; omega)
  refine ⟨r, hr, h1, by omega, _, h2, ?_, ?_⟩
  · rw [Nat.add_mul]; omega
  · intro _; rw [Nat.add_mul]; omega

theorem powExact {d₀ : ℕ} {R₀ : Rep 3 0 d₀} {j : ℕ} (hj : j ≠ 0) {x : IrRep table}
    (hx : PRep R₀ j 1 x) (ht : PRes R₀ j 0 (tab (0 : ℕ))) : PowExact x (tab (0 : ℕ)) := by
  have key : ∀ rep result, LoopState x (tab (0 : ℕ)) rep result →
      (∃ a, PRep R₀ j a rep) ∧ ∃ b, PRes R₀ j b result := by
    intro rep result h
    induction h with
    | start => exact ⟨⟨1, hx⟩, 0, ht⟩
    | odd _ hu hv ih =>
      obtain ⟨⟨a, ha⟩, b, hb⟩ := ih
      obtain ⟨u, hu', hup⟩ := step_res hj _ _ _ _ ha hb
      obtain ⟨v, hv', hvp⟩ := step_rep hj _ _ ha
      rw [hu] at hu'
      rw [hv] at hv'
      cases hu'
      cases hv'
      exact ⟨⟨_, hvp⟩, _, hup⟩
    | even _ hv ih =>
      obtain ⟨⟨a, ha⟩, b, hb⟩ := ih
      obtain ⟨v, hv', hvp⟩ := step_rep hj _ _ ha
      rw [hv] at hv'
      cases hv'
      exact ⟨⟨_, hvp⟩, _, hb⟩
  intro rep result h
  obtain ⟨⟨a, ha⟩, b, hb⟩ := key rep result h
  obtain ⟨i, k, hi, hk, -, -, hne⟩ := ne_res hj ha hb
  refine ⟨tpExact_of ha.1 hb.1 hi hk hne, ?_⟩
  obtain ⟨hc, ha, i, hi, hi2, hi3⟩ := ha
  have haj : 1 ≤ a * j := Nat.mul_pos ha (Nat.pos_of_ne_zero hj)
  exact tpExact_of hc hc hi hi (by intro _; omega)

theorem triv_label : IsTrivialLabel (T := table) (0 : ℕ) := by
  refine ⟨rfl, fun a => ?_, fun a => a.elim0⟩
  ext i k
  exact trivial_rep.2.1 a i k

theorem pRes_triv {d₀ : ℕ} {R₀ : Rep 3 0 d₀} (hA : algebra = R₀.A) (j : ℕ) :
    PRes R₀ j 0 (tab (0 : ℕ)) := by
  refine ⟨⟨_, rep 0, rfl, isTensorPower_trivial rfl hA triv_label.2.1 triv_label.2.2, ?_, ?_⟩,
    0, ⟨_, _, rfl, rfl⟩, by omega, .inl ⟨rfl, rfl⟩⟩
  · rw [Nat.zero_mul]; exact low_rep 0
  · intro Q hQ; cases hQ

theorem pRep_mul {m j : ℕ} {d₀ : ℕ} {R₀ : Rep 3 0 d₀}
    (h : ActsAs (T := table) (IrRep.mul ⟨m, j⟩) d₀ R₀) :
    PRep R₀ j 1 (IrRep.mul (T := table) ⟨m, j⟩) := by
  have hm : m ≠ 0 := (acts_inv (actsAs_asRed (by norm_num) h)).2.2.1 ⟨m, j⟩ (List.mem_singleton.2 rfl)
  obtain ⟨e, e'⟩ := acts_unique (toReduced_acts (m := (⟨m, j⟩ : MulIr table)) (by norm_num) hm)
    (actsAs_asRed (by norm_num) h)
  refine ⟨⟨_, R₀, h, isTensorPower_one R₀, ?_, ?_⟩, le_rfl, j, ⟨_, _, rfl, rfl⟩, by omega, ?_⟩
  · rw [one_mul]
    subst e
    subst e'
    exact low_copies (low_rep j) hm
  · intro Q hQ; cases hQ
  · rintro ⟨r, hr⟩; cases hr

theorem pRep_tab (j : ℕ) : PRep (rep j) j 1 (tab (T := table) j) := by
  refine ⟨⟨_, rep j, rfl, isTensorPower_one _, ?_, ?_⟩, le_rfl, j, ⟨_, _, rfl, rfl⟩, by omega, ?_⟩
  · rw [one_mul]; exact low_rep j
  · intro Q hQ; cases hQ
  · rintro ⟨r, hr⟩; cases hr

end SU2

end LieNN

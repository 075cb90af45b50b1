import Verif.Model.Reduced
import Verif.Proofs.MatList
import Verif.Proofs.Rep
import Verif.Spec.CG
/-!
# Lemmas about `MulIrrep`, `ReducedRep` and their tensor products
-/
namespace LieNN

open Matrix

/-! ## Lists of results -/

theorem mapM_ok {α β : Type*} {l : List α} {f : α → Py β} {g : α → β}
    (hf : ∀ x ∈ l, f x = .ok (g x)) : l.mapM f = .ok (l.map g) := by
  induction l with
  | nil => rfl
  | cons a l ih =>
    rw [List.mapM_cons, hf a (by simp), ih fun x hx => hf x (by simp [hx])]
    rfl

theorem mapM_error {α β : Type*} {l₁ l₂ : List α} {a : α} {f : α → Py β} {g : α → β} {e : PyErr}
    (hf : ∀ x ∈ l₁, f x = .ok (g x)) (ha : f a = .error e) :
    (l₁ ++ a :: l₂).mapM f = .error e := by
  induction l₁ with
  | nil => rw [List.nil_append, List.mapM_cons, ha]; rfl
  | cons b l ih =>
    rw [List.cons_append, List.mapM_cons, hf b (by simp), ih fun x hx => hf x (by simp [hx])]
    rfl

theorem mapM_ok_inv {α β : Type*} {l : List α} {f : α → Py β} {L : List β}
    (h : l.mapM f = .ok L) : ∀ x ∈ l, ∃ y, f x = .ok y := by
  induction l generalizing L with
  | nil => simp
  | cons a l ih =>
    rw [List.mapM_cons] at h
    cases ha : f a with
    | error e => rw [ha] at h; exact absurd h (by simp [bind, Except.bind])
    | ok b =>
      cases hl : l.mapM f with
      | error e => rw [ha, hl] at h; exact absurd h (by simp [bind, Except.bind])
      | ok L' =>
        intro x hx
        rcases List.mem_cons.1 hx with rfl | hx
        · exact ⟨b, ha⟩
        · exact ih hl x hx

/-! ## Arrays with run-time shape -/

namespace SMat

theorem mulP_mk {a b c : ℕ} (M : Matrix (Fin a) (Fin b) ℂ) (N : Matrix (Fin b) (Fin c) ℂ) :
    mulP ⟨a, b, M⟩ ⟨b, c, N⟩ = .ok ⟨a, c, M * N⟩ := by
  simp [mulP]

theorem invP_mk {d : ℕ} {M : Matrix (Fin d) (Fin d) ℂ} (hM : IsUnit M) :
    invP ⟨d, d, M⟩ = .ok ⟨d, d, M⁻¹⟩ := by
  have : M.submatrix id (Fin.cast (rfl : d = d)) = M := by ext; simp
  simp only [invP, dif_pos]
  rw [if_pos (by simpa using hM)]
  simp

theorem view_mk {p q : ℕ} (M : Matrix (Fin p) (Fin q) ℂ) : view ⟨p, q, M⟩ p q = .ok M := by
  simp only [view, and_self, dif_pos]
  congr

theorem view_ok {A : SMat} {p q : ℕ} {M : Matrix (Fin p) (Fin q) ℂ} (h : A.view p q = .ok M) :
    A = ⟨p, q, M⟩ := by
  obtain ⟨r, c, N⟩ := A
  unfold view at h
  split_ifs at h with h'
  obtain ⟨h1, h2⟩ := h'
  subst h1 h2
  simp only [Except.ok.injEq] at h
  rw [← h]
  congr

theorem invP_ok {A B : SMat} (h : A.invP = .ok B) :
    ∃ (d : ℕ) (M : Matrix (Fin d) (Fin d) ℂ), IsUnit M ∧ A = ⟨d, d, M⟩ ∧ B = ⟨d, d, M⁻¹⟩ := by
  obtain ⟨r, c, N⟩ := A
  unfold invP at h
  split_ifs at h with h1 h2
  simp only at h1
  subst h1
  have e : N.submatrix id (Fin.cast (rfl : r = r)) = N := by ext; simp
  refine ⟨r, N, by simpa using h2, rfl, ?_⟩
  simp only [Except.ok.injEq] at h
  rw [← h]
  simp

theorem mk_congr_cols {p c c' : ℕ} (h : c' = c) (M : Matrix (Fin p) (Fin c) ℂ) :
    (⟨p, c, M⟩ : SMat) = ⟨p, c', M.submatrix id (Fin.cast h)⟩ := by
  subst h
  rfl

end SMat

/-- Two-sided inverse of a possibly non-square matrix. -/
def HasInv {a b : ℕ} (M : Matrix (Fin a) (Fin b) ℂ) : Prop :=
  ∃ P : Matrix (Fin b) (Fin a) ℂ, P * M = 1 ∧ M * P = 1

theorem HasInv.isUnit {a : ℕ} {M : Matrix (Fin a) (Fin a) ℂ} (h : HasInv M) : IsUnit M := by
  obtain ⟨P, h1, h2⟩ := h
  exact ⟨⟨M, P, h2, h1⟩, rfl⟩

theorem HasInv.of_isUnit {a : ℕ} {M : Matrix (Fin a) (Fin a) ℂ} (h : IsUnit M) : HasInv M := by
  obtain ⟨u, rfl⟩ := h
  exact ⟨↑u⁻¹, by simp, by simp⟩

theorem HasInv.dim_eq {a b : ℕ} {M : Matrix (Fin a) (Fin b) ℂ} (h : HasInv M) : a = b := by
  obtain ⟨P, h1, h2⟩ := h
  have := Matrix.trace_mul_comm P M
  rw [h1, h2] at this
  simp only [Matrix.trace_one, Fintype.card_fin] at this
  exact_mod_cast this.symm

theorem HasInv.submatrix {a b a' b' : ℕ} {M : Matrix (Fin a) (Fin b) ℂ} (h : HasInv M)
    (e : Fin a' ≃ Fin a) (f : Fin b' ≃ Fin b) : HasInv (M.submatrix e f) := by
  obtain ⟨P, h1, h2⟩ := h
  refine ⟨P.submatrix f e, ?_, ?_⟩
  · rw [submatrix_mul_equiv, h1, submatrix_one_equiv]
  · rw [submatrix_mul_equiv, h2, submatrix_one_equiv]

theorem HasInv.mul {a b c : ℕ} {M : Matrix (Fin a) (Fin b) ℂ} {N : Matrix (Fin b) (Fin c) ℂ}
    (hM : HasInv M) (hN : HasInv N) : HasInv (M * N) := by
  obtain ⟨P, h1, h2⟩ := hM
  obtain ⟨R, h3, h4⟩ := hN
  refine ⟨R * P, ?_, ?_⟩
  · rw [show R * P * (M * N) = R * (P * M) * N by simp only [Matrix.mul_assoc], h1,
      Matrix.mul_one, h3]
  · rw [show M * N * (R * P) = M * (N * R) * P by simp only [Matrix.mul_assoc], h4,
      Matrix.mul_one, h2]

theorem HasInv.dsum {a b a' b' : ℕ} {M : Matrix (Fin a) (Fin b) ℂ}
    {N : Matrix (Fin a') (Fin b') ℂ} (hM : HasInv M) (hN : HasInv N) : HasInv (dsum M N) := by
  obtain ⟨P, h1, h2⟩ := hM
  obtain ⟨R, h3, h4⟩ := hN
  exact ⟨LieNN.dsum P R, by rw [dsum_mul, h1, h3, dsum_one], by rw [dsum_mul, h2, h4, dsum_one]⟩

theorem HasInv.kron {a b a' b' : ℕ} {M : Matrix (Fin a) (Fin b) ℂ}
    {N : Matrix (Fin a') (Fin b') ℂ} (hM : HasInv M) (hN : HasInv N) : HasInv (kron M N) := by
  obtain ⟨P, h1, h2⟩ := hM
  obtain ⟨R, h3, h4⟩ := hN
  exact ⟨LieNN.kron P R, by rw [kron_mul, h1, h3, kron_one], by rw [kron_mul, h2, h4, kron_one]⟩

/-! ## Splitting of row-major indices -/

theorem kron_dsum_right {m n a b a' b' : ℕ} (M : Matrix (Fin m) (Fin n) ℂ)
    (A : Matrix (Fin a) (Fin b) ℂ) (B : Matrix (Fin a') (Fin b') ℂ) :
    kron M (dsum A B) = (dsum (kron M A) (kron M B)).submatrix (eIn m a a') (eIn n b b') := by
  apply kron_ext
  intro i k j l
  refine Fin.addCases (fun k => ?_) (fun k => ?_) k <;>
    refine Fin.addCases (fun l => ?_) (fun l => ?_) l <;>
    simp [kron_apply, eIn]

theorem kron_dsum_left {m n a b a' b' : ℕ} (M : Matrix (Fin m) (Fin n) ℂ)
    (A : Matrix (Fin a) (Fin b) ℂ) (B : Matrix (Fin a') (Fin b') ℂ) :
    kron (dsum A B) M = (dsum (kron A M) (kron B M)).submatrix (eOut a a' m) (eOut b b' n) := by
  apply kron_ext
  intro i k j l
  refine Fin.addCases (fun i => ?_) (fun i => ?_) i <;>
    refine Fin.addCases (fun j => ?_) (fun j => ?_) j <;>
    simp [kron_apply, eOut]

variable {n h : ℕ} {T : Table n h}

/-! ## Block-diagonal generators -/

/-- One square matrix per label. -/
abbrev Table.Mats (T : Table n h) : Type := (i : T.Ir) → Matrix (Fin (T.dim i)) (Fin (T.dim i)) ℂ

/-- `mul` diagonal copies of every block. -/
noncomputable def diagMat (Y : T.Mats) :
    (l : List (MulIr T)) → Matrix (Fin (dimL l)) (Fin (dimL l)) ℂ
  | [] => 0
  | m :: l => dsum (kron (1 : Matrix (Fin m.mul) (Fin m.mul) ℂ) (Y m.ir)) (diagMat Y l)

theorem diagMat_one (l : List (MulIr T)) : diagMat (fun _ => 1) l = 1 := by
  induction l with
  | nil => ext i; exact Fin.elim0 i
  | cons m l ih => rw [diagMat, ih, kron_one]; exact dsum_one

theorem dimL_append (l₁ l₂ : List (MulIr T)) : dimL (l₁ ++ l₂) = dimL l₁ + dimL l₂ := by
  induction l₁ with
  | nil => simp [dimL]
  | cons m l ih => simp [dimL, ih, Nat.add_assoc]

theorem dimL_eq_sum (l : List (MulIr T)) : dimL l = (l.map fun m => m.mul * T.dim m.ir).sum := by
  induction l with
  | nil => rfl
  | cons m l ih => simp [dimL, ih, MulIr.dim]

theorem dsums_replicate {d : ℕ} (k : ℕ) (M : Matrix (Fin d) (Fin d) ℂ) :
    dsums (List.replicate k ⟨d, d, M⟩) =
      ⟨k * d, k * d, kron (1 : Matrix (Fin k) (Fin k) ℂ) M⟩ := by
  induction k with
  | zero =>
    apply SMat.ext_get
    · simp [dsums]
    · simp [dsums]
    · intro i hi; simp [dsums] at hi
  | succ k ih =>
    rw [List.replicate_succ']
    rw [dsums_append, ih]
    have h1 : dsums [(⟨d, d, M⟩ : SMat)] = ⟨d, d, M⟩ := dsum_empty _
    rw [h1]
    show (SMat.mk _ _ (dsum _ _) : SMat) = _
    apply SMat.ext_get
    · simp [Nat.succ_mul]
    · simp [Nat.succ_mul]
    · intro i hi j hj
      have e1 : SMat.get ⟨k * d + d, k * d + d, dsum (kron (1 : Matrix (Fin k) (Fin k) ℂ) M) M⟩ i j
        = _ := SMat.get_dsum ⟨_, _, kron (1 : Matrix (Fin k) (Fin k) ℂ) M⟩ ⟨_, _, M⟩ i j
      have e2 : SMat.get ⟨(k + 1) * d, (k + 1) * d,
          kron (1 : Matrix (Fin (k + 1)) (Fin (k + 1)) ℂ) M⟩ i j = _ :=
        SMat.get_kron ⟨_, _, (1 : Matrix (Fin (k + 1)) (Fin (k + 1)) ℂ)⟩ ⟨_, _, M⟩ i j
      have e3 : SMat.get ⟨k * d, k * d, kron (1 : Matrix (Fin k) (Fin k) ℂ) M⟩ i j = _ :=
        SMat.get_kron ⟨_, _, (1 : Matrix (Fin k) (Fin k) ℂ)⟩ ⟨_, _, M⟩ i j
      have hone (k a b : ℕ) : SMat.get ⟨k, k, (1 : Matrix (Fin k) (Fin k) ℂ)⟩ a b =
          if a = b ∧ a < k then 1 else 0 := by
        simp only [SMat.get]
        split_ifs with h1 h2 h2
        · simp [Matrix.one_apply, h2.1]
        · rw [Matrix.one_apply, if_neg]
          intro hab
          simp only [Fin.mk.injEq] at hab
          exact h2 ⟨hab, h1.1⟩
        · omega
        · rfl
      have hi : i < k * d + d := hi
      have hj : j < k * d + d := hj
      have hd : 0 < d := by
        rcases Nat.eq_zero_or_pos d with h0 | h0
        · subst h0; simp at hi
        · exact h0
      rw [e1, e2]
      simp only [e3, hone]
      have key (a : ℕ) (ha : a < k * d + d) : a < k * d ↔ a / d < k :=
        (Nat.div_lt_iff_lt_mul hd).symm
      have key2 (a : ℕ) (ha : a < k * d + d) (hk : ¬ a < k * d) : a / d = k ∧ a % d = a - k * d := by
        have e : a / d = k := by
          apply Nat.div_eq_of_lt_le
          · omega
          · rw [Nat.succ_mul]; omega
        refine ⟨e, ?_⟩
        have := Nat.div_add_mod a d
        rw [e, mul_comm] at this
        omega
      by_cases h1 : i < k * d
      · have h1' := (key i hi).1 h1
        rw [if_pos h1]
        by_cases h2 : j < k * d
        · rw [if_pos h2]
          by_cases h3 : i / d = j / d
          · rw [if_pos ⟨h3, h1'⟩, if_pos ⟨h3, by omega⟩]
          · rw [if_neg (by tauto), if_neg (by tauto)]
        · rw [if_neg h2, if_neg, zero_mul]
          rintro ⟨h3, -⟩
          have := (key2 j hj h2).1
          omega
      · rw [if_neg h1]
        by_cases h2 : j < k * d
        · have := (key2 i hi h1).1
          have h2' := (key j hj).1 h2
          rw [if_pos h2, if_neg, zero_mul]
          rintro ⟨h3, -⟩
          omega
        · obtain ⟨a1, a2⟩ := key2 i hi h1
          obtain ⟨b1, b2⟩ := key2 j hj h2
          rw [if_neg h2, if_pos ⟨by omega, by omega⟩, one_mul, a2, b2]

theorem dsums_blocks (Y : T.Mats) (l : List (MulIr T)) :
    dsums (l.map fun m => (⟨m.dim, m.dim, kron (1 : Matrix (Fin m.mul) (Fin m.mul) ℂ) (Y m.ir)⟩ :
      SMat)) = ⟨dimL l, dimL l, diagMat Y l⟩ := by
  induction l with
  | nil => rfl
  | cons m l ih =>
    rw [List.map_cons]
    show SMat.dsum _ (dsums _) = _
    rw [ih]
    rfl

/-! ## `MulIrrep.X` and `ReducedRep.X` -/

theorem MulIr.gens_ok {p : ℕ} (hp : p ≠ 0) {m : MulIr T} (hm : m.mul ≠ 0) (Y : T.Gens p) :
    m.gens Y = .ok ((List.finRange p).map fun a =>
      ⟨m.dim, m.dim, kron (1 : Matrix (Fin m.mul) (Fin m.mul) ℂ) (Y m.ir a)⟩) := by
  unfold MulIr.gens
  rw [if_neg hp]
  apply mapM_ok
  intro a _
  rw [directSumMats_ok (by simpa using hm), dsums_replicate]

theorem MulIr.gens_zero {p : ℕ} (hp : p ≠ 0) {m : MulIr T} (hm : m.mul = 0) (Y : T.Gens p) :
    m.gens Y = .error .typeError := by
  unfold MulIr.gens
  rw [if_neg hp]
  obtain ⟨p, rfl⟩ := Nat.exists_eq_succ_of_ne_zero hp
  rw [List.finRange_succ, hm]
  rfl

theorem MulIr.genI_ok {p : ℕ} {m : MulIr T} (hm : m.mul ≠ 0) (Y : T.Gens p) {i : ℕ}
    (hi : i < p) : m.genI Y i = .ok
      ⟨m.dim, m.dim, kron (1 : Matrix (Fin m.mul) (Fin m.mul) ℂ) (Y m.ir ⟨i, hi⟩)⟩ := by
  unfold MulIr.genI
  rw [MulIr.gens_ok (by omega) hm]
  simp only [bind, Except.bind, List.getElem?_map]
  rw [List.getElem?_eq_getElem (by simpa using hi)]
  simp
  rfl

theorem MulIr.genI_zero {p : ℕ} {m : MulIr T} (hm : m.mul = 0) (Y : T.Gens p) {i : ℕ}
    (hi : i < p) : m.genI Y i = .error .typeError := by
  unfold MulIr.genI
  rw [MulIr.gens_zero (by omega) hm]
  rfl

namespace ReducedRep

theorem sumAt_ok {p : ℕ} {l : List (MulIr T)} (hne : l ≠ [])
    (hmul : ∀ m ∈ l, m.mul ≠ 0) (Y : T.Gens p) {i : ℕ} (hi : i < p) :
    sumAt l Y i = .ok ⟨dimL l, dimL l, diagMat (fun ir => Y ir ⟨i, hi⟩) l⟩ := by
  unfold sumAt
  rw [mapM_ok fun m hm => MulIr.genI_ok (hmul m hm) Y hi]
  show directSumMats _ = _
  rw [directSumMats_ok (by simpa using hne), dsums_blocks (fun ir => Y ir ⟨i, hi⟩)]

theorem genAt_some {p : ℕ} {r : ReducedRep T} (hne : r.irreps ≠ [])
    (hmul : ∀ m ∈ r.irreps, m.mul ≠ 0) {q : Matrix (Fin r.dim) (Fin r.dim) ℂ}
    (hQ : r.Q = some ⟨r.dim, r.dim, q⟩) (hq : IsUnit q) (Y : T.Gens p) {i : ℕ} (hi : i < p) :
    r.genAt Y i = .ok ⟨r.dim, r.dim, q * diagMat (fun ir => Y ir ⟨i, hi⟩) r.irreps * q⁻¹⟩ := by
  unfold genAt
  rw [sumAt_ok hne hmul Y hi, hQ]
  show (do let QX ← SMat.mulP _ _; _) = _
  rw [SMat.mulP_mk]
  show (do let iQ ← SMat.invP _; _) = _
  rw [SMat.invP_mk hq]
  exact SMat.mulP_mk _ _

/-- The change of basis, the identity if `Q is None`. -/
theorem genAt_ok {p : ℕ} {r : ReducedRep T} (hne : r.irreps ≠ [])
    (hmul : ∀ m ∈ r.irreps, m.mul ≠ 0) {q : Matrix (Fin r.dim) (Fin r.dim) ℂ}
    (hQ : r.q = .ok q) (hq : IsUnit q) (Y : T.Gens p) {i : ℕ} (hi : i < p) :
    r.genAt Y i = .ok ⟨r.dim, r.dim, q * diagMat (fun ir => Y ir ⟨i, hi⟩) r.irreps * q⁻¹⟩ := by
  unfold ReducedRep.q at hQ
  cases hr : r.Q with
  | none =>
    rw [hr] at hQ
    change Except.ok (1 : Matrix (Fin r.dim) (Fin r.dim) ℂ) = .ok q at hQ
    simp only [Except.ok.injEq] at hQ
    subst hQ
    unfold genAt
    rw [sumAt_ok hne hmul Y hi, hr]
    simp [bind, Except.bind, pure, Except.pure]
  | some Q =>
    rw [hr] at hQ
    have := SMat.view_ok hQ
    exact genAt_some hne hmul (by rw [hr, this]) hq Y hi

theorem genAt_ok_mul {p : ℕ} {r : ReducedRep T} {Y : T.Gens p} {i : ℕ} (hi : i < p) {X : SMat}
    (hX : r.genAt Y i = .ok X) : r.irreps ≠ [] ∧ ∀ m ∈ r.irreps, m.mul ≠ 0 := by
  unfold genAt sumAt at hX
  cases hxs : r.irreps.mapM fun m => m.genI Y i with
  | error e => rw [hxs] at hX; exact absurd hX (by simp [bind, Except.bind])
  | ok xs =>
    constructor
    · rintro hnil
      rw [hnil] at hX
      exact absurd hX (by simp [bind, Except.bind, directSumMats, pure, Except.pure])
    · intro m hm h0
      obtain ⟨y, hy⟩ := mapM_ok_inv hxs m hm
      rw [MulIr.genI_zero h0 Y hi] at hy
      exact absurd hy (by simp)

theorem continuousGenerators_ok {r : ReducedRep T} (hn : n ≠ 0) (hne : r.irreps ≠ [])
    (hmul : ∀ m ∈ r.irreps, m.mul ≠ 0) {q : Matrix (Fin r.dim) (Fin r.dim) ℂ}
    (hQ : r.q = .ok q) (hq : IsUnit q) :
    r.continuousGenerators = .ok (List.ofFn fun a : Fin n =>
      ⟨r.dim, r.dim, q * diagMat (fun ir => (T.rep ir).X a) r.irreps * q⁻¹⟩) := by
  unfold continuousGenerators
  have e : (List.range n).mapM (fun i => r.genAt (fun ir => (T.rep ir).X) i) =
      .ok (List.ofFn fun a : Fin n =>
      (⟨r.dim, r.dim, q * diagMat (fun ir => (T.rep ir).X a) r.irreps * q⁻¹⟩ : SMat)) := by
    rw [← List.map_coe_finRange_eq_range, List.mapM_map, List.ofFn_eq_map]
    apply mapM_ok
    intro a _
    exact genAt_ok hne hmul hQ hq _ a.2
  rw [e]
  obtain ⟨n, rfl⟩ := Nat.exists_eq_succ_of_ne_zero hn
  rw [List.ofFn_succ]
  rfl

theorem discreteGenerators_ok {r : ReducedRep T} (hne : r.irreps ≠ [])
    (hmul : ∀ m ∈ r.irreps, m.mul ≠ 0) {q : Matrix (Fin r.dim) (Fin r.dim) ℂ}
    (hQ : r.q = .ok q) (hq : IsUnit q) :
    r.discreteGenerators = .ok (List.ofFn fun a : Fin h =>
      ⟨r.dim, r.dim, q * diagMat (fun ir => (T.rep ir).H a) r.irreps * q⁻¹⟩) := by
  unfold discreteGenerators
  generalize hR : (Except.ok (List.ofFn fun a : Fin h => (⟨r.dim, r.dim,
    q * diagMat (fun ir => (T.rep ir).H a) r.irreps * q⁻¹⟩ : SMat)) : Py (List SMat)) = R
  cases hl : r.irreps with
  | nil => exact absurd hl hne
  | cons m l =>
    rcases Nat.eq_zero_or_pos h with h0 | h0
    · subst h0
      rw [← hR]
      simp [MulIr.gens, bind, Except.bind]
      rfl
    · simp only
      rw [MulIr.gens_ok (by omega) (hmul m (by simp [hl]))]
      show (if _ then _ else _) = _
      rw [if_neg (by simp; omega), List.length_map, List.length_finRange,
        ← List.map_coe_finRange_eq_range, List.mapM_map, ← hR, List.ofFn_eq_map]
      exact mapM_ok fun a _ => genAt_ok hne hmul hQ hq _ a.2

end ReducedRep

end LieNN

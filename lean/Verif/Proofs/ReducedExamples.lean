import Verif.Proofs.ReducedRed
import Mathlib.Algebra.Ring.NegOnePow
/-!
# The characters of `U(1) x Z2`: a small table of irreps
-/
namespace LieNN

open Matrix
open Spec (RoundExact)

/-- Irreps `k : ℤ` of dimension 1, with generator `i k` and discrete generator `(-1)^k`. -/
noncomputable def charT : Table 1 1 where
  Ir := ℤ
  dim := fun _ => 1
  rep := fun k => ⟨fun _ _ _ => 0, fun _ => fun _ _ => Complex.I * k,
    fun _ => fun _ _ => ((k.negOnePow : ℤ) : ℂ)⟩
  prod := fun i j => [i + j]
  cg := fun i j k => if k = i + j then [fun _ _ _ => 1] else []

theorem charT_cg (i j : ℤ) : charT.cg i j (i + j) = [fun _ _ _ => 1] := if_pos rfl

theorem charT_isCG (i j : ℤ) : ∀ k ∈ charT.prod i j, ∀ C ∈ charT.cg i j k,
    Spec.IsCG (charT.rep i) (charT.rep j) (charT.rep k) C := by
  intro k hk C hC
  have hk' : k = (i + j : ℤ) := List.mem_singleton.1 (show k ∈ [(i + j : ℤ)] from hk)
  subst hk'
  rw [charT_cg] at hC
  have hC' : C = fun _ _ _ => 1 := by simpa using hC
  subst hC'
  constructor
  · intro a x y l
    show ∑ k' : Fin 1, (1 : ℂ) * (Complex.I * ((i + j : ℤ) : ℂ)) =
      ∑ i' : Fin 1, Complex.I * ((i : ℤ) : ℂ) * 1 + ∑ j' : Fin 1, Complex.I * ((j : ℤ) : ℂ) * 1
    simp
    ring
  · intro a x y l
    show ∑ k' : Fin 1, (1 : ℂ) * ((Int.negOnePow (i + j : ℤ) : ℤ) : ℂ) =
      ∑ i' : Fin 1, ∑ j' : Fin 1, ((Int.negOnePow i : ℤ) : ℂ) * ((Int.negOnePow j : ℤ) : ℂ) * 1
    rw [Int.negOnePow_add]
    simp

theorem charT_nonempty (i j : ℤ) : ∀ k ∈ charT.prod i j, charT.cg i j k ≠ [] := by
  intro k hk
  have hk' : k = (i + j : ℤ) := List.mem_singleton.1 (show k ∈ [(i + j : ℤ)] from hk)
  subst hk'
  rw [charT_cg]
  simp

theorem charT_rows (i j : ℤ) : (⟨_, _, cgRows (T := charT) i j [(i + j : ℤ)]⟩ : SMat) =
    ⟨1, 1, (1 : Matrix (Fin 1) (Fin 1) ℂ)⟩ := by
  have hlen : (charT.cg i j (i + j : ℤ)).length = 1 := by rw [charT_cg]; rfl
  have hr : dimL (cgBlocks (T := charT) i j [(i + j : ℤ)]) = 1 := by
    show (charT.cg i j (i + j : ℤ)).length * 1 + 0 = 1
    rw [hlen]
  have key : ∀ (L : List (Fin 1 → Fin 1 → Fin 1 → ℂ)), L = [fun _ _ _ => 1] →
      (⟨_, _, vcat (cgBlock L) (fun r _ => Fin.elim0 r : Matrix (Fin 0) (Fin (1 * 1)) ℂ)⟩ : SMat) =
      ⟨1, 1, (1 : Matrix (Fin 1) (Fin 1) ℂ)⟩ := by
    rintro _ rfl
    show (⟨1, 1, _⟩ : SMat) = ⟨1, 1, _⟩
    congr
    ext x y
    fin_cases x
    fin_cases y
    rfl
  exact key _ (charT_cg i j)

theorem charT_tpTab (i j : ℤ) : tpTab (T := charT) i j =
    .ok ⟨(charT.rep i).A, cgBlocks (T := charT) i j [(i + j : ℤ)], some ⟨1, 1, 1⟩⟩ := by
  have hA : AllCloseA (charT.rep i).A (charT.rep j).A := by
    intro a b c
    exact isClose_refl (by positivity) (by positivity) _
  unfold tpTab
  rw [pyAssert_of hA]
  show (do let Q ← SMat.invP ⟨_, _, cgRows (T := charT) i j [(i + j : ℤ)]⟩; _) = _
  rw [charT_rows, SMat.invP_mk isUnit_one, inv_one]
  rfl

/-- The blocks `1x(0) + 1x(1)`. -/
noncomputable def charR : ReducedRep charT :=
  ⟨fun _ _ _ => 0, [⟨1, (0 : ℤ)⟩, ⟨1, (1 : ℤ)⟩], none⟩

/-- The block `2x(1)`. -/
noncomputable def charB : MulIr charT := ⟨2, (1 : ℤ)⟩

theorem charR_acts : Spec.Acts charR (blockRep charR.A charR.irreps 1) :=
  acts_of (by norm_num) (by simp [charR]) (by simp [charR]) rfl isUnit_one

/-- The representation of `charR`. -/
noncomputable def charRR : Rep 1 1 2 :=
  ⟨fun _ _ _ => 0, fun _ => !![0, 0; 0, Complex.I], fun _ => !![1, 0; 0, -1]⟩

/-- The representation of `charB`. -/
noncomputable def charBR : Rep 1 1 2 :=
  ⟨fun _ _ _ => 0, fun _ => !![Complex.I, 0; 0, Complex.I], fun _ => !![-1, 0; 0, -1]⟩

theorem charR_diag (x y : ℂ) (Y : charT.Mats) (h0 : Y (0 : ℤ) = fun _ _ => x)
    (h1 : Y (1 : ℤ) = fun _ _ => y) :
    (diagMat Y charR.irreps : Matrix (Fin 2) (Fin 2) ℂ) = !![x, 0; 0, y] := by
  have e0 : Y (0 : ℤ) (0 : Fin 1) (0 : Fin 1) = x := by rw [h0]
  have e1 : Y (1 : ℤ) (0 : Fin 1) (0 : Fin 1) = y := by rw [h1]
  ext i j
  fin_cases i <;> fin_cases j
  · show (1 : ℂ) * Y (0 : ℤ) (0 : Fin 1) (0 : Fin 1) = x
    rw [e0, one_mul]
  · rfl
  · rfl
  · show (1 : ℂ) * Y (1 : ℤ) (0 : Fin 1) (0 : Fin 1) = y
    rw [e1, one_mul]

theorem blockRep_one_X {n h : ℕ} {T : Table n h} (A : Fin n → Fin n → Fin n → ℂ)
    (l : List (MulIr T)) (a : Fin n) :
    (blockRep A l 1).X a = diagMat (fun ir => (T.rep ir).X a) l := by
  show 1 * _ * (1 : Matrix _ _ ℂ)⁻¹ = _
  rw [inv_one, Matrix.one_mul, Matrix.mul_one]

theorem blockRep_one_H {n h : ℕ} {T : Table n h} (A : Fin n → Fin n → Fin n → ℂ)
    (l : List (MulIr T)) (a : Fin h) :
    (blockRep A l 1).H a = diagMat (fun ir => (T.rep ir).H a) l := by
  show 1 * _ * (1 : Matrix _ _ ℂ)⁻¹ = _
  rw [inv_one, Matrix.one_mul, Matrix.mul_one]

theorem charRR_acts : Spec.Acts charR charRR := by
  have e : (blockRep charR.A charR.irreps 1 : Rep 1 1 2) = charRR := by
    apply Rep.ext
    · rfl
    · funext a
      refine (blockRep_one_X charR.A charR.irreps a).trans ?_
      refine (charR_diag 0 Complex.I (fun ir => (charT.rep ir).X a) ?_ ?_).trans rfl
      · funext _ _
        show Complex.I * ((0 : ℤ) : ℂ) = 0
        simp
      · funext _ _
        show Complex.I * ((1 : ℤ) : ℂ) = Complex.I
        simp
    · funext a
      refine (blockRep_one_H charR.A charR.irreps a).trans ?_
      refine (charR_diag 1 (-1) (fun ir => (charT.rep ir).H a) ?_ ?_).trans rfl
      · funext _ _
        show (((0 : ℤ).negOnePow : ℤ) : ℂ) = 1
        simp
      · funext _ _
        show (((1 : ℤ).negOnePow : ℤ) : ℂ) = -1
        simp
  rw [← e]
  exact charR_acts

theorem charBR_copies : Spec.IsCopies charB.mul (charT.rep charB.ir) charBR := by
  refine ⟨rfl, ?_, ?_⟩
  · intro a x k y k'
    change Fin 2 at x y
    change Fin 1 at k k'
    have e : (charT.rep charB.ir).X a k k' = Complex.I := by
      show Complex.I * ((1 : ℤ) : ℂ) = Complex.I
      simp
    rw [e]
    fin_cases k; fin_cases k'
    fin_cases x <;> fin_cases y <;> rfl
  · intro a x k y k'
    change Fin 2 at x y
    change Fin 1 at k k'
    have e : (charT.rep charB.ir).H a k k' = -1 := by
      show (((1 : ℤ).negOnePow : ℤ) : ℂ) = -1
      simp
    rw [e]
    fin_cases k; fin_cases k'
    fin_cases x <;> fin_cases y <;> rfl

theorem charT_round {r₁ r₂ : ReducedRep charT} (h₁ : r₁.Q = none) (h₂ : r₂.Q = none) :
    ∀ out Q, tpRedRaw r₁ r₂ = .ok (out, Q) → RoundExact Q := by
  intro out Q hr
  refine (tpRedRaw_bin h₁ h₂ ?_ hr).roundExact
  intro a _ b _ r hr Q hQ
  have := (charT_tpTab a.ir b.ir).symm.trans hr
  simp only [Except.ok.injEq] at this
  subst this
  simp only [Option.mem_def, Option.some.injEq] at hQ
  subst hQ
  exact Bin.one

theorem charT_run {r₁ r₂ : ReducedRep charT} (h₁ : r₁.Q = none) (h₂ : r₂.Q = none) :
    ∃ r, tpRed r₁ r₂ = .ok r := by
  refine tpRed_run ⟨1, ?_⟩ ⟨1, ?_⟩ fun a _ b _ => ⟨_, charT_tpTab _ _⟩
  · unfold ReducedRep.q; rw [h₁]; rfl
  · unfold ReducedRep.q; rw [h₂]; rfl

theorem fin_one_aux (t : Fin 1 → Fin 1 → ℂ) (h : ∑ x, ∑ y, (1 : ℂ) * t x y = 0) : t = 0 := by
  simp at h
  funext x y
  fin_cases x
  fin_cases y
  exact h

theorem charT_good (i j : ℤ) : Spec.GoodPair (T := charT) i j := by
  refine ⟨fun a b c => isClose_refl (by positivity) (by positivity) _, by simp [charT],
    charT_nonempty i j, ?_, ?_⟩
  · show ((charT.cg i j (i + j : ℤ)).length * 1) + 0 = 1 * 1
    rw [charT_cg]
    rfl
  · intro t ht
    have := ht (i + j : ℤ) (List.mem_singleton.2 rfl) (fun _ _ _ => 1)
      (by rw [charT_cg]; simp) (0 : Fin 1)
    change ∑ x : Fin 1, ∑ y : Fin 1, (1 : ℂ) * t x y = 0 at this
    exact fin_one_aux t this

/-! ## A change of basis lost by rounding -/

theorem charT_blocks (i j : ℤ) : cgBlocks (T := charT) i j [(i + j : ℤ)] = [⟨1, (i + j : ℤ)⟩] := by
  show [(⟨(charT.cg i j (i + j : ℤ)).length, (i + j : ℤ)⟩ : MulIr charT)] = _
  rw [charT_cg]
  rfl

theorem charT_tpMul (i j : ℤ) : tpMul (T := charT) ⟨1, i⟩ ⟨1, j⟩ =
    .ok ⟨(charT.rep i).A, [⟨1, (i + j : ℤ)⟩], some ⟨1, 1, 1⟩⟩ := by
  have hA : AllCloseA (charT.rep i).A (charT.rep j).A := by
    intro a b c
    exact isClose_refl (by positivity) (by positivity) _
  unfold tpMul
  simp only
  rw [pyAssert_of hA, charT_tpTab, charT_blocks]
  simp only [ok_bind]
  have : SMat.view ⟨1, 1, (1 : Matrix (Fin 1) (Fin 1) ℂ)⟩ 1 1 = .ok 1 := SMat.view_mk _
  refine Eq.trans (congrArg (· >>= _) this) ?_
  show Except.ok _ = Except.ok _
  have e : (⟨1, 1, liftCols (T := charT) 1 1 (d₁ := 1) (d₂ := 1) [⟨1, (i + j : ℤ)⟩]
      (1 : Matrix (Fin 1) (Fin 1) ℂ)⟩ : SMat) = ⟨1, 1, 1⟩ := by
    have h : ∀ x y : Fin 1, liftCols (T := charT) 1 1 (d₁ := 1) (d₂ := 1) [⟨1, (i + j : ℤ)⟩]
      (1 : Matrix (Fin 1) (Fin 1) ℂ) x y = (1 : Matrix (Fin 1) (Fin 1) ℂ) x y := by
      intro x y
      obtain rfl : x = 0 := Subsingleton.elim _ _
      obtain rfl : y = 0 := Subsingleton.elim _ _
      rw [Matrix.one_apply_eq]
      have hs : ∀ u v : Fin 1, (1 : Matrix (Fin 1) (Fin 1) ℂ) u v = 1 := by
        intro u v
        obtain rfl : u = v := Subsingleton.elim _ _
        exact Matrix.one_apply_eq _
      have := congrFun (congrFun (liftCols_eq (T := charT) 1 1 (d₁ := 1) (d₂ := 1)
        [⟨1, (i + j : ℤ)⟩] (1 : Matrix (Fin 1) (Fin 1) ℂ)) (0 : Fin 1)) (0 : Fin 1)
      refine this.trans ?_
      show (1 : Matrix (Fin 1) (Fin 1) ℂ) _ _ * (1 : Matrix (Fin 1) (Fin 1) ℂ) _ _ = 1
      exact (congrArg₂ (· * ·) (hs _ _) (hs _ _)).trans (one_mul 1)
    exact congrArg (SMat.mk 1 1) (Matrix.ext h)
  exact congrArg (fun Q => Except.ok (⟨(charT.rep i).A, [⟨1, (i + j : ℤ)⟩], some Q⟩ :
    ReducedRep charT)) e

theorem charT_tpInner (i j : ℤ) : tpInner (T := charT) ⟨1, i⟩ [⟨1, j⟩] =
    .ok ([⟨1, (i + j : ℤ)⟩], ⟨1, (1 : Matrix (Fin 1) (Fin 1) ℂ)⟩) := by
  rw [tpInner, charT_tpMul]
  simp only [ok_bind]
  have : SMat.view ⟨1, 1, (1 : Matrix (Fin 1) (Fin 1) ℂ)⟩ 1 1 = .ok 1 := SMat.view_mk _
  refine Eq.trans (congrArg (· >>= _) this) ?_
  show Except.ok _ = Except.ok _
  have e : (dsum (1 : Matrix (Fin 1) (Fin 1) ℂ) (fun _ c => Fin.elim0 c :
      Matrix (Fin 0) (Fin 0) ℂ)).submatrix (eIn 1 1 0) id = (1 : Matrix (Fin 1) (Fin 1) ℂ) := by
    ext x y
    fin_cases x
    fin_cases y
    rfl
  exact congrArg (fun Q => Except.ok (([⟨1, (i + j : ℤ)⟩] : List (MulIr charT)),
    (⟨1, Q⟩ : (c : ℕ) × Matrix (Fin 1) (Fin c) ℂ))) e

theorem charT_raw (q : Matrix (Fin 2) (Fin 2) ℂ) :
    ∃ Q : Matrix (Fin 2) (Fin 2) ℂ, Q = q ∧ tpRedRaw (T := charT)
      ⟨fun _ _ _ => 0, [⟨1, (0 : ℤ)⟩, ⟨1, (1 : ℤ)⟩], some ⟨2, 2, q⟩⟩
      ⟨fun _ _ _ => 0, [⟨1, (0 : ℤ)⟩], none⟩ = .ok ([⟨1, (0 : ℤ)⟩, ⟨1, (1 : ℤ)⟩], Q) := by
  refine ⟨q, rfl, ?_⟩
  unfold tpRedRaw
  have e1 : ReducedRep.q (T := charT)
    ⟨fun _ _ _ => 0, [⟨1, (0 : ℤ)⟩, ⟨1, (1 : ℤ)⟩], some ⟨2, 2, q⟩⟩ = .ok q := SMat.view_mk q
  have e2 : tpOuter (T := charT) [⟨1, (0 : ℤ)⟩] [⟨1, (0 : ℤ)⟩, ⟨1, (1 : ℤ)⟩] =
      .ok ([⟨1, (0 : ℤ)⟩, ⟨1, (1 : ℤ)⟩], ⟨2, (1 : Matrix (Fin 2) (Fin 2) ℂ)⟩) := by
    rw [tpOuter, tpOuter, tpOuter, charT_tpInner, charT_tpInner]
    simp only [ok_bind]
    have e : (dsum (1 : Matrix (Fin 1) (Fin 1) ℂ) ((dsum (1 : Matrix (Fin 1) (Fin 1) ℂ)
        (fun _ c => Fin.elim0 c : Matrix (Fin 0) (Fin 0) ℂ)).submatrix (eOut 1 0 1) id)).submatrix
        (eOut 1 1 1) id = (1 : Matrix (Fin 2) (Fin 2) ℂ) := by
      ext x y
      fin_cases x <;> fin_cases y <;> rfl
    exact congrArg (fun Q => Except.ok (([⟨1, (0 : ℤ)⟩, ⟨1, (1 : ℤ)⟩] : List (MulIr charT)),
      (⟨2, Q⟩ : (c : ℕ) × Matrix (Fin 2) (Fin c) ℂ))) e
  rw [e1, e2]
  have e : kron q (1 : Matrix (Fin 1) (Fin 1) ℂ) * (1 : Matrix (Fin 2) (Fin 2) ℂ).submatrix id
      (Fin.cast rfl) = q := by
    refine (Matrix.mul_one _).trans ?_
    ext x y
    fin_cases x <;> fin_cases y <;> exact mul_one _
  exact congrArg (fun Q => Except.ok (([⟨1, (0 : ℤ)⟩, ⟨1, (1 : ℤ)⟩] : List (MulIr charT)), Q)) e

/-- A change of basis within the tolerance of the identity. -/
noncomputable def nearOne : Matrix (Fin 2) (Fin 2) ℂ := !![1, 1 / 10 ^ 9; 0, 1]

theorem nearOne_inv : nearOne * !![1, -1 / 10 ^ 9; 0, 1] = 1 := by
  ext i j
  fin_cases i <;> fin_cases j <;> simp [nearOne, Matrix.mul_apply, Fin.sum_univ_two]
  ring

theorem nearOne_close : AllCloseM nearOne 1 := by
  intro i j
  unfold IsClose
  fin_cases i <;> fin_cases j <;> simp [nearOne] <;> norm_num

/-- `1x(0) + 1x(1)` in the basis `nearOne`. -/
noncomputable def charN : ReducedRep charT :=
  ⟨fun _ _ _ => 0, [⟨1, (0 : ℤ)⟩, ⟨1, (1 : ℤ)⟩], some ⟨2, 2, nearOne⟩⟩

theorem charN_tp : tpRed charN (MulIr.toReduced ⟨1, (0 : ℤ)⟩) = .ok charR := by
  obtain ⟨Q, hQ, hraw⟩ := charT_raw nearOne
  subst hQ
  unfold tpRed
  have : tpRedRaw charN (MulIr.toReduced ⟨1, (0 : ℤ)⟩) = _ := hraw
  rw [this]
  show Except.ok _ = Except.ok _
  have him : ∀ i j, (nearOne i j).im = 0 := by
    intro i j
    have : ((1 : ℂ) / 10 ^ 9) = ((1 / 10 ^ 9 : ℝ) : ℂ) := by push_cast; rfl
    fin_cases i <;> fin_cases j <;> simp only [nearOne, this] <;> simp
    have h10 : ((10 : ℂ) ^ 9) = ((10 ^ 9 : ℝ) : ℂ) := by push_cast; rfl
    rw [h10]
    exact Complex.ofReal_im _
  have hr : roundQ nearOne = none := by
    rw [roundQ_eq fun _ => him, if_pos nearOne_close]
  have hr' : roundQ (p := charN.dim * (MulIr.toReduced (T := charT) ⟨1, (0 : ℤ)⟩).dim) nearOne =
    none := hr
  rw [hr']
  rfl

/-- The representation of `charN`. -/
noncomputable def charNR : Rep 1 1 2 :=
  ⟨fun _ _ _ => 0, fun _ => !![0, Complex.I / 10 ^ 9; 0, Complex.I],
    fun _ => !![1, -2 / 10 ^ 9; 0, -1]⟩

/-- The representation of `1x(0)`. -/
noncomputable def charZR : Rep 1 1 1 := ⟨fun _ _ _ => 0, fun _ => !![0], fun _ => !![1]⟩

theorem charN_acts : Spec.Acts charN charNR := by
  have hinv : HasInv nearOne := ⟨_, mul_eq_one_comm.1 nearOne_inv, nearOne_inv⟩
  refine acts_of_intertwines (r := charN) (q := nearOne) (by norm_num) (by simp [charN])
    (by simp [charN]) hinv (Or.inr rfl) rfl ?_ ?_
  · intro a
    have h := charR_diag 0 Complex.I (fun ir => (charT.rep ir).X a)
      (by funext _ _; show Complex.I * ((0 : ℤ) : ℂ) = 0; simp)
      (by funext _ _; show Complex.I * ((1 : ℤ) : ℂ) = Complex.I; simp)
    have hm : (!![0, Complex.I / 10 ^ 9; 0, Complex.I] : Matrix (Fin 2) (Fin 2) ℂ) * nearOne =
        nearOne * !![0, 0; 0, Complex.I] := by
      ext i j
      fin_cases i <;> fin_cases j <;> simp [nearOne, Matrix.mul_apply, Fin.sum_univ_two]
      ring
    exact hm.trans (congrArg (fun M : Matrix (Fin 2) (Fin 2) ℂ => nearOne * M) h.symm)
  · intro a
    have h := charR_diag 1 (-1) (fun ir => (charT.rep ir).H a)
      (by funext _ _; show (((0 : ℤ).negOnePow : ℤ) : ℂ) = 1; simp)
      (by funext _ _; show (((1 : ℤ).negOnePow : ℤ) : ℂ) = -1; simp)
    have hm : (!![1, -2 / 10 ^ 9; 0, -1] : Matrix (Fin 2) (Fin 2) ℂ) * nearOne =
        nearOne * !![1, 0; 0, -1] := by
      ext i j
      fin_cases i <;> fin_cases j <;> simp [nearOne, Matrix.mul_apply, Fin.sum_univ_two]
      ring
    exact hm.trans (congrArg (fun M : Matrix (Fin 2) (Fin 2) ℂ => nearOne * M) h.symm)

theorem charZ_acts : Spec.Acts (MulIr.toReduced (T := charT) ⟨1, (0 : ℤ)⟩) charZR := by
  have := toReduced_acts (T := charT) (m := ⟨1, (0 : ℤ)⟩) (by norm_num) one_ne_zero
  have e : copies (n := 1) (h := 1) 1 (charT.rep (0 : ℤ)) = charZR := by
    apply Rep.ext
    · rfl
    · funext a
      apply Matrix.ext
      intro x y
      change Fin 1 at x y
      obtain rfl : x = 0 := Subsingleton.elim _ _
      obtain rfl : y = 0 := Subsingleton.elim _ _
      show (1 : ℂ) * (Complex.I * ((0 : ℤ) : ℂ)) = 0
      simp
    · funext a
      apply Matrix.ext
      intro x y
      change Fin 1 at x y
      obtain rfl : x = 0 := Subsingleton.elim _ _
      obtain rfl : y = 0 := Subsingleton.elim _ _
      show (1 : ℂ) * (((0 : ℤ).negOnePow : ℤ) : ℂ) = 1
      simp
  rw [← e]
  exact this

end LieNN

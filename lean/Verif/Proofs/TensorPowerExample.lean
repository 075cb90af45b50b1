import Verif.Proofs.TensorPower
import Verif.Proofs.ReducedExamples
/-!
# A first power that is not its base
-/
namespace LieNN

open Matrix Spec

theorem charT_tpInner_two : tpInner (T := charT) ⟨1, (0 : ℤ)⟩ [⟨1, (0 : ℤ)⟩, ⟨1, (1 : ℤ)⟩] =
    .ok ([⟨1, (0 : ℤ)⟩, ⟨1, (1 : ℤ)⟩], ⟨2, (1 : Matrix (Fin 2) (Fin 2) ℂ)⟩) := by
  rw [tpInner, charT_tpMul, charT_tpInner]
  simp only [ok_bind]
  have : SMat.view ⟨1, 1, (1 : Matrix (Fin 1) (Fin 1) ℂ)⟩ 1 1 = .ok 1 := SMat.view_mk _
  refine Eq.trans (congrArg (· >>= _) this) ?_
  show Except.ok _ = Except.ok _
  have e : (dsum (1 : Matrix (Fin 1) (Fin 1) ℂ) (1 : Matrix (Fin 1) (Fin 1) ℂ)).submatrix
      (eIn 1 1 1) id = (1 : Matrix (Fin 2) (Fin 2) ℂ) := by
    ext x y
    fin_cases x <;> fin_cases y <;> rfl
  exact congrArg (fun Q => Except.ok (([⟨1, (0 : ℤ)⟩, ⟨1, (1 : ℤ)⟩] : List (MulIr charT)),
    (⟨2, Q⟩ : (c : ℕ) × Matrix (Fin 2) (Fin c) ℂ))) e

theorem charT_raw_swap (q : Matrix (Fin 2) (Fin 2) ℂ) :
    ∃ Q : Matrix (Fin 2) (Fin 2) ℂ, Q = q ∧ tpRedRaw (T := charT)
      ⟨fun _ _ _ => 0, [⟨1, (0 : ℤ)⟩], none⟩
      ⟨fun _ _ _ => 0, [⟨1, (0 : ℤ)⟩, ⟨1, (1 : ℤ)⟩], some ⟨2, 2, q⟩⟩ =
        .ok ([⟨1, (0 : ℤ)⟩, ⟨1, (1 : ℤ)⟩], Q) := by
  refine ⟨q, rfl, ?_⟩
  unfold tpRedRaw
  have e1 : ReducedRep.q (T := charT)
    ⟨fun _ _ _ => 0, [⟨1, (0 : ℤ)⟩, ⟨1, (1 : ℤ)⟩], some ⟨2, 2, q⟩⟩ = .ok q := SMat.view_mk q
  have e2 : tpOuter (T := charT) [⟨1, (0 : ℤ)⟩, ⟨1, (1 : ℤ)⟩] [⟨1, (0 : ℤ)⟩] =
      .ok ([⟨1, (0 : ℤ)⟩, ⟨1, (1 : ℤ)⟩], ⟨2, (1 : Matrix (Fin 2) (Fin 2) ℂ)⟩) := by
    rw [tpOuter, tpOuter, charT_tpInner_two]
    simp only [ok_bind]
    have e : (dsum (1 : Matrix (Fin 2) (Fin 2) ℂ)
        (fun _ c => Fin.elim0 c : Matrix (Fin 0) (Fin 0) ℂ)).submatrix (eOut 1 0 2) id =
        (1 : Matrix (Fin 2) (Fin 2) ℂ) := by
      ext x y
      fin_cases x <;> fin_cases y <;> rfl
    exact congrArg (fun Q => Except.ok (([⟨1, (0 : ℤ)⟩, ⟨1, (1 : ℤ)⟩] : List (MulIr charT)),
      (⟨2, Q⟩ : (c : ℕ) × Matrix (Fin 2) (Fin c) ℂ))) e
  rw [e1, e2]
  have e : kron (1 : Matrix (Fin 1) (Fin 1) ℂ) q * (1 : Matrix (Fin 2) (Fin 2) ℂ).submatrix id
      (Fin.cast rfl) = q := by
    refine (Matrix.mul_one _).trans ?_
    ext x y
    fin_cases x <;> fin_cases y <;> exact one_mul _
  exact congrArg (fun Q => Except.ok (([⟨1, (0 : ℤ)⟩, ⟨1, (1 : ℤ)⟩] : List (MulIr charT)), Q)) e

theorem nearOne_round : roundQ nearOne = none := by
  have him : ∀ i j, (nearOne i j).im = 0 := by
    intro i j
    have : ((1 : ℂ) / 10 ^ 9) = ((1 / 10 ^ 9 : ℝ) : ℂ) := by push_cast; rfl
    fin_cases i <;> fin_cases j <;> simp only [nearOne, this] <;> simp
    have h10 : ((10 : ℂ) ^ 9) = ((10 ^ 9 : ℝ) : ℂ) := by push_cast; rfl
    rw [h10]
    exact Complex.ofReal_im _
  rw [roundQ_eq fun _ => him, if_pos nearOne_close]

theorem charN_power : IrRep.tensorPower 1 (.ok (0 : ℤ)) (.red charN) 1 = some (.ok (.red charR)) := by
  have h : tpRed (MulIr.toReduced ⟨1, (0 : ℤ)⟩) charN = .ok charR := by
    obtain ⟨Q, hQ, hraw⟩ := charT_raw_swap nearOne
    subst hQ
    unfold tpRed
    have : tpRedRaw (MulIr.toReduced ⟨1, (0 : ℤ)⟩) charN = _ := hraw
    rw [this]
    show Except.ok _ = Except.ok _
    have hr' : roundQ (p := (MulIr.toReduced (T := charT) ⟨1, (0 : ℤ)⟩).dim * charN.dim) nearOne =
      none := nearOne_round
    rw [hr']
    rfl
  have h' : IrRep.tensorProduct (.red charN) (.tab (0 : ℤ)) = .ok charR := h
  have h1 : IrRep.createTrivial (.ok (0 : ℤ)) (.red charN) = .ok (.tab (0 : ℤ)) :=
    IrRep.createTrivial_red _ _ (by simp [charN])
  rw [IrRep.tensorPower, h1]
  show IrRep.tensorPowerLoop (0 + 1) (.red charN) (.tab (0 : ℤ)) 1 = _
  rw [IrRep.tensorPowerLoop, h']
  rfl

end LieNN

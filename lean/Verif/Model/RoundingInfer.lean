import Verif.Model.Algebra
import Verif.Model.RoundCheck
import Verif.Spec.Rep
/-!
# Runs of `infer_algebra_from_generators` in floating point

The conventions are those of `Verif.Model.RoundCheck`: every operation has a relative error of at most `u`.
`round_fn` is the identity.
-/
namespace LieNN

open Matrix

/-- `np.linalg.pinv(Q)` computes `P`: every entry is within `κ` of the Moore-Penrose inverse
(`/repo/lie_nn/_src/util.py` line 473). -/
def PinvRun (κ : ℝ) {m n : ℕ} (Q : Matrix (Fin m) (Fin n) ℂ) (P : Matrix (Fin n) (Fin m) ℂ) : Prop :=
  ∃ P₀, Spec.IsPinv Q P₀ ∧ ∀ p k, ‖P p k - P₀ p k‖ ≤ κ

/-- `infer_algebra_from_generators(X, rtol=rtol, atol=atol)` (`/repo/lie_nn/_src/util.py` lines 452-486)
returns `res`: `L i j` is the computed commutator and `Z i j` the computed product with `pinv`, of which the
real part is stored. -/
def InferRun (u κ rtol atol : ℝ) {n d : ℕ} (X : Fin n → Matrix (Fin d) (Fin d) ℂ)
    (res : Option (Fin n → Fin n → Fin n → ℂ)) : Prop :=
  ∃ (P : Matrix (Fin (d * d)) (Fin n) ℂ) (L : Fin n → Fin n → Matrix (Fin d) (Fin d) ℂ)
    (Z : Fin n → Fin n → Fin n → ℂ) (b : Bool),
    PinvRun κ (flatGens X) P ∧ (∀ i j, CommRun u (X i) (X j) (L i j)) ∧
    (∀ i j k, DotRun u (fun p : Fin (d * d) => L i j p.divNat p.modNat) (fun p => P p k) (Z i j k)) ∧
    CheckAlgebraRun u rtol atol (fun i j k => (((Z i j k).re : ℝ) : ℂ)) X b ∧
    res = if b then some (fun i j k => (((Z i j k).re : ℝ) : ℂ)) else none

/-- `GenericRep.from_generators(X, H)` (`/repo/lie_nn/_src/rep.py` lines 105-115) returns `res`. -/
def FromGeneratorsRun (u κ : ℝ) {n h d : ℕ} (X : Fin n → Matrix (Fin d) (Fin d) ℂ)
    (H : Fin h → Matrix (Fin d) (Fin d) ℂ) (res : Option (Rep n h d)) : Prop :=
  ∃ A, InferRun u κ (1 / 10 ^ 10) (1 / 10 ^ 10) X A ∧
    res = match A with
      | none => none
      | some A => some ⟨A, X, H⟩

end LieNN

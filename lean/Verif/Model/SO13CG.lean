import Verif.Model.SL2C
/-!
# `SO13.clebsch_gordan`

`/repo/lie_nn/_src/irreps/so13.py` lines 38-43.

Simplifications: those of `SO13.gens` (`Verif/Model/SL2C.lean`) and of the generic `clebsch_gordan`
(`Verif/Model/LinAlg.lean`); the rounding passed as `round_fn` is not modelled.
-/
namespace LieNN.SO13

/-- The representation of an `SO13` irrep: `algebra` (`/repo/lie_nn/_src/irreps/so13.py` lines 85-102),
the continuous generators `X` and no discrete generators (lines 62-63). -/
def repOf {d : ℕ} (X : Fin 6 → Matrix (Fin d) (Fin d) ℂ) : Rep 6 0 d := ⟨algebra, X, Fin.elim0⟩

/-- `SO13.clebsch_gordan` (`/repo/lie_nn/_src/irreps/so13.py` lines 38-43): the generic
`clebsch_gordan` applied to `GenericRep.from_rep(rep1)`, `rep2` and `rep3`. -/
noncomputable def clebschGordan (eigh : EighFn)
    (sqrtm : {d : ℕ} → Matrix (Fin d) (Fin d) ℂ → Matrix (Fin d) (Fin d) ℂ) (r₁ r₂ r₃ : SL2C) :
    Py (List (Fin r₁.dim → Fin r₂.dim → Fin r₃.dim → ℂ)) := do
  let X₁ ← gens eigh (1 / 10 ^ 4) sqrtm r₁
  let X₂ ← gens eigh (1 / 10 ^ 4) sqrtm r₂
  let X₃ ← gens eigh (1 / 10 ^ 4) sqrtm r₃
  Rep.clebschGordan eigh (repOf X₁) (repOf X₂) (repOf X₃)

end LieNN.SO13

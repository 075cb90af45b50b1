import Verif.Model.Iter
import Verif.Model.LinAlg
import Verif.Model.Reduced
/-!
# `SU2Real.clebsch_gordan`

`/repo/lie_nn/_src/irreps/su2_real.py` lines 45-64.

Simplifications: the half integers are exact rationals; the rounding passed as `round_fn` is not
modelled; `change_basis_real_to_complex` (lines 13-27) and lines 50-58 on integers repeat
`so3_real.py` word for word, so that the model of `SO3` is used.
-/
namespace LieNN.SU2Real

/-- The representation of an `SU2Real` irrep: `algebra` (`/repo/lie_nn/_src/irreps/su2_real.py` lines
103-105), the real generators and no discrete generators (lines 100-101). -/
def repOf {d : ℕ} (X : Fin 3 → Matrix (Fin d) (Fin d) ℝ) : Rep 3 0 d :=
  ⟨SU2.algebra, fun a => (X a).map Complex.ofReal, Fin.elim0⟩

/-- An array of shape `(number_of_paths, dim1, dim2, dim3)`. -/
structure CGArray where
  /-- first dimension -/
  d₁ : ℕ
  /-- second dimension -/
  d₂ : ℕ
  /-- third dimension -/
  d₃ : ℕ
  /-- the arrays along the first axis -/
  sols : List (Fin d₁ → Fin d₂ → Fin d₃ → ℝ)

open Classical in
/-- `SU2Real.clebsch_gordan` (`/repo/lie_nn/_src/irreps/su2_real.py` lines 45-64). -/
noncomputable def cg (eigh : EighFn) (j₁ j₂ j₃ : ℚ) : Py CGArray := do
  if isInteger j₁ ∧ isInteger j₂ ∧ isInteger j₃ then
    let C ← SO3.cg (SU2.trunc j₁).toNat (SU2.trunc j₂).toNat (SU2.trunc j₃).toNat
    pure ⟨_, _, _, C⟩
  else
    let X₁ ← gens j₁
    let X₂ ← gens j₂
    let X₃ ← gens j₃
    let C ← Rep.clebschGordan eigh (repOf X₁.2) (repOf X₂.2) (repOf X₃.2)
    pyAssert (∀ D ∈ C, ∀ i j k, |(D i j k).im| < 1 / 10 ^ 5)
    pure ⟨_, _, _, C.map fun D i j k => (D i j k).re⟩

/-- The generators of `SU2Real(n / 2)` with their size.  An exception would read as size zero. -/
noncomputable def genSig (n : ℕ) : (d : ℕ) × (Fin 3 → Matrix (Fin d) (Fin d) ℝ) :=
  match gens ((n : ℚ) / 2) with
  | .ok X => X
  | .error _ => ⟨0, 0⟩

/-- `SU2Real` as a table of irreps, labelled by twice the spin. -/
noncomputable def table (eigh : EighFn) : Table 3 0 where
  Ir := ℕ
  dim := fun n => (genSig n).1
  rep := fun n => repOf (genSig n).2
  prod := fun n₁ n₂ => match mul ((n₁ : ℚ) / 2) ((n₂ : ℚ) / 2) with
    | .ok L => L.map fun j => (SU2.trunc (2 * j)).toNat
    | .error _ => []
  cg := fun n₁ n₂ n₃ => match cg eigh ((n₁ : ℚ) / 2) ((n₂ : ℚ) / 2) ((n₃ : ℚ) / 2) with
    | .ok G => G.sols.map fun C a b c =>
        if h : a.1 < G.d₁ ∧ b.1 < G.d₂ ∧ c.1 < G.d₃ then (C ⟨a, h.1⟩ ⟨b, h.2.1⟩ ⟨c, h.2.2⟩ : ℂ) else 0
    | .error _ => []

end LieNN.SU2Real

import Verif.Model.SU2
/-!
# `SO3`, `O3` and `Z2`

`/repo/lie_nn/_src/irreps/so3_real.py`, `o3_real.py` and `z2.py`.

Simplifications: exact real and complex numbers; the loops that assign the entries of the array `q`
of `change_basis_real_to_complex` assign pairwise different positions, so the array is written as a
function of the position.  `SO3` and `O3` accept every integer `l`; the generators of a negative `l`
raise the `AssertionError` of `SU2(j=2 * l)`.
-/
namespace LieNN

open Matrix

namespace SO3

/-- `change_basis_real_to_complex` (`/repo/lie_nn/_src/irreps/so3_real.py` lines 11-21).  The row is
`l + m`; for `m < 0` it has entries at the columns `l + |m|`, `l - |m|` (lines 14-16), for `m = 0` at
the column `l` (line 17), for `m > 0` at the columns `l + |m|`, `l - |m|` (lines 18-20). -/
noncomputable def changeBasis (l : ℕ) : Matrix (Fin (2 * l + 1)) (Fin (2 * l + 1)) ℂ :=
  fun row col =>
    let m : ℤ := (row : ℕ) - l
    (-Complex.I) ^ l *
      (if m < 0 then
        if (col : ℤ) = l + |m| then 1 / ((√2 : ℝ) : ℂ)
        else if (col : ℤ) = l - |m| then -Complex.I / ((√2 : ℝ) : ℂ)
        else 0
      else if m = 0 then
        if (col : ℤ) = l then 1 else 0
      else
        if (col : ℤ) = l + |m| then (-1) ^ m.toNat / ((√2 : ℝ) : ℂ)
        else if (col : ℤ) = l - |m| then Complex.I * (-1) ^ m.toNat / ((√2 : ℝ) : ℂ)
        else 0)

/-- `SO3.dim` (`/repo/lie_nn/_src/irreps/so3_real.py` lines 51-53). -/
abbrev dim (l : ℕ) : ℕ := 2 * l + 1

/-- `np.conj(Q.T) @ X @ Q` (`/repo/lie_nn/_src/irreps/so3_real.py` lines 64-66). -/
noncomputable def gensC (l : ℕ) : Fin 3 → Matrix (Fin (dim l)) (Fin (dim l)) ℂ := fun a =>
  (changeBasis l)ᴴ * SU2.gens (2 * l) a * changeBasis l

open Classical in
/-- `SO3.continuous_generators` (`/repo/lie_nn/_src/irreps/so3_real.py` lines 63-68), with the
assertion that the imaginary part is small. -/
noncomputable def gens (l : ℕ) : Py (Fin 3 → Matrix (Fin (dim l)) (Fin (dim l)) ℝ) := do
  pyAssert (∀ a i j, |(gensC l a i j).im| < 1 / 10 ^ 5)
  pure fun a => (gensC l a).map Complex.re

/-- `SO3.continuous_generators` for any integer `l`: line 64 raises for a negative `l`. -/
noncomputable def gensZ (l : ℤ) : Py (Fin 3 → Matrix (Fin (dim l.toNat)) (Fin (dim l.toNat)) ℝ) := do
  let _ ← SU2.make (2 * l)
  gens l.toNat

/-- `SO3.__mul__` (`/repo/lie_nn/_src/irreps/so3_real.py` lines 32-34). -/
def mul (l₁ l₂ : ℕ) : List ℤ := SU2.pyRange |(l₁ : ℤ) - l₂| (l₁ + l₂ + 1) 1

/-- The `einsum` of `SO3.clebsch_gordan` (`/repo/lie_nn/_src/irreps/so3_real.py` line 43). -/
noncomputable def einsumCG (l₁ l₂ l₃ : ℕ) (C : Fin (dim l₁) → Fin (dim l₂) → Fin (dim l₃) → ℝ) :
    Fin (dim l₁) → Fin (dim l₂) → Fin (dim l₃) → ℂ := fun j l m =>
  ∑ i, ∑ k, ∑ n, changeBasis l₁ i j * changeBasis l₂ k l * (changeBasis l₃)ᴴ m n *
    ((C i k n : ℝ) : ℂ)

open Classical in
/-- `SO3.clebsch_gordan` (`/repo/lie_nn/_src/irreps/so3_real.py` lines 36-49). -/
noncomputable def cg (l₁ l₂ l₃ : ℕ) :
    Py (List (Fin (dim l₁) → Fin (dim l₂) → Fin (dim l₃) → ℝ)) := do
  let L ← SU2.cg (2 * l₁) (2 * l₂) (2 * l₃)
  let L' := L.map (einsumCG l₁ l₂ l₃)
  pyAssert (∀ C ∈ L', ∀ i j k, |(C i j k).im| < 1 / 10 ^ 5)
  pure (L'.map fun C i j k => (C i j k).re)

/-- `SO3(l)` as a representation: `algebra` (lines 73-75), the generators, no discrete generators
(lines 70-71).  An exception would read as the zero matrix. -/
noncomputable def rep (l : ℕ) : Rep 3 0 (dim l) where
  A := SU2.algebra
  X := match gens l with
    | .ok X => fun a => (X a).map Complex.ofReal
    | .error _ => 0
  H := Fin.elim0

/-- `SO3` as a table of irreps (non-negative labels). -/
noncomputable def table : Table 3 0 where
  Ir := ℕ
  dim := dim
  rep := rep
  prod := fun i j => (mul i j).map Int.toNat
  cg := fun i j k => match cg i j k with
    | .ok L => L.map fun C a b c => ((C a b c : ℝ) : ℂ)
    | .error _ => []

end SO3

/-- `O3` (`/repo/lie_nn/_src/irreps/o3_real.py` lines 12-14); the comment there asks for a
non-negative `l` and for `p = 1` or `p = -1`, nothing checks it. -/
structure O3 where
  /-- degree -/
  l : ℕ
  /-- parity -/
  p : ℤ
deriving DecidableEq

namespace O3

/-- `O3.dim` (`/repo/lie_nn/_src/irreps/o3_real.py` lines 35-37). -/
abbrev dim (r : O3) : ℕ := 2 * r.l + 1

/-- `O3.__mul__` (`/repo/lie_nn/_src/irreps/o3_real.py` lines 23-26). -/
def mul (r₁ r₂ : O3) : List O3 :=
  (SU2.pyRange |(r₁.l : ℤ) - r₂.l| (r₁.l + r₂.l + 1) 1).map fun l => ⟨l.toNat, r₁.p * r₂.p⟩

/-- `O3.continuous_generators`, `discrete_generators`, `algebra`
(`/repo/lie_nn/_src/irreps/o3_real.py` lines 53-60). -/
noncomputable def rep (r : O3) : Rep 3 1 r.dim where
  A := SU2.algebra
  X := (SO3.rep r.l).X
  H := fun _ => (r.p : ℂ) • 1

/-- `O3.clebsch_gordan` (`/repo/lie_nn/_src/irreps/o3_real.py` lines 28-33). -/
noncomputable def cg (r₁ r₂ r₃ : O3) :
    Py (List (Fin r₁.dim → Fin r₂.dim → Fin r₃.dim → ℝ)) :=
  if r₁.p * r₂.p = r₃.p then SO3.cg r₁.l r₂.l r₃.l else pure []

/-- `O3` as a table of irreps. -/
noncomputable def table : Table 3 1 where
  Ir := O3
  dim := dim
  rep := rep
  prod := mul
  cg := fun i j k => match cg i j k with
    | .ok L => L.map fun C a b c => ((C a b c : ℝ) : ℂ)
    | .error _ => []

end O3

namespace Z2

/-- `Z2(p)` (`/repo/lie_nn/_src/irreps/z2.py` lines 9-11 and 44-51): one dimension, no continuous
generator, one discrete generator `p * eye(1)`. -/
noncomputable def rep (p : ℤ) : Rep 0 1 1 where
  A := fun i => i.elim0
  X := fun i => i.elim0
  H := fun _ => (p : ℂ) • 1

/-- `Z2.__mul__` (`/repo/lie_nn/_src/irreps/z2.py` lines 19-22). -/
def mul (p₁ p₂ : ℤ) : List ℤ := [p₁ * p₂]

/-- `Z2.clebsch_gordan` (`/repo/lie_nn/_src/irreps/z2.py` lines 24-29). -/
def cg (p₁ p₂ p₃ : ℤ) : List (Fin 1 → Fin 1 → Fin 1 → ℂ) :=
  if p₁ * p₂ = p₃ then [fun _ _ _ => 1] else []

/-- `Z2` as a table of irreps. -/
noncomputable def table : Table 0 1 where
  Ir := ℤ
  dim := fun _ => 1
  rep := rep
  prod := mul
  cg := cg

end Z2
end LieNN

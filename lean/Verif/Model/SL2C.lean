import Verif.Model.SU2
import Verif.Model.Perm
import Verif.Model.LinAlg
/-!
# `SL2C` and `SO13`

`/repo/lie_nn/_src/irreps/sl2c.py` and `so13.py`.

Simplifications: exact real and complex numbers; an array made by `np.concatenate` is its number of
columns together with a function of natural-number indices; a shape that does not fit the next
operation is a `ValueError`.
-/
namespace LieNN

open Matrix

/-- `SL2C` (`/repo/lie_nn/_src/irreps/sl2c.py` lines 13-16). -/
structure SL2C where
  /-- first weight -/
  l : ℕ
  /-- second weight -/
  k : ℕ
deriving DecidableEq

namespace SL2C

/-- `SL2C(l, k)` with `__post_init__` (`/repo/lie_nn/_src/irreps/sl2c.py` lines 18-22). -/
def make (l k : ℤ) : Py SL2C := do
  pyAssert (0 ≤ l)
  pyAssert (0 ≤ k)
  pure ⟨l.toNat, k.toNat⟩

/-- `SL2C.dim` (`/repo/lie_nn/_src/irreps/sl2c.py` lines 43-45). -/
abbrev dim (r : SL2C) : ℕ := (r.l + 1) * (r.k + 1)

/-- `SL2C.__mul__` (`/repo/lie_nn/_src/irreps/sl2c.py` lines 30-33), the whole generator. -/
def mul (r₁ r₂ : SL2C) : Py (List SL2C) :=
  ((SU2.pyRange |(r₁.l : ℤ) - r₂.l| (r₁.l + r₂.l + 1) 2).flatMap fun l : ℤ =>
    (SU2.pyRange |(r₁.k : ℤ) - r₂.k| (r₁.k + r₂.k + 1) 2).map fun k : ℤ => (l, k)).mapM
      fun lk => make lk.1 lk.2

/-- Number of columns of `np.concatenate(arrays, axis=-1)`. -/
def catWidth {α : Type} (L : List (ℕ × α)) : ℕ := (L.map Prod.fst).sum

/-- Entry of `np.concatenate(arrays, axis=-1)`; every array comes with its number of columns. -/
noncomputable def catAt : List (ℕ × (ℤ → ℤ → ℤ → ℝ)) → ℕ → ℕ → ℕ → ℝ
  | [], _, _, _ => 0
  | (w, M) :: L, a, b, c => if c < w then M a b c else catAt L a b (c - w)

/-- `[fastcgmat(l / 2, k / 2, i / 2) for i in range(abs(l - k), l + k + 1, 2)]`
(`/repo/lie_nn/_src/irreps/sl2c.py` lines 133-135, 138-143); `clebsch_gordanSU2mat` allocates
`int(2 * j3) + 1` columns. -/
noncomputable def blocks (l k : ℕ) : Py (List (ℕ × (ℤ → ℤ → ℤ → ℝ))) :=
  (SU2.pyRange |(l : ℤ) - k| (l + k + 1) 2).mapM fun i : ℤ => do
    let M ← SU2.cgMat (l / 2) (k / 2) (i / 2)
    pure ((i + 1).toNat, M)

/-- `clebsch_gordansl2mat` (`/repo/lie_nn/_src/irreps/sl2c.py` lines 112-144): the shape and the
entries.  Without an explicit output the first `einsum` returns the indices `c, k, n` (alphabetic
order of the indices that occur once), and `einsum("cab")` moves the first axis to the end. -/
noncomputable def sl2mat (r₁ r₂ r₃ : SL2C) : Py ((ℕ × ℕ × ℕ) × (ℕ → ℕ → ℕ → ℝ)) := do
  let B₁ ← blocks r₃.l r₃.k
  let B₂a ← SU2.cgMat (r₁.l / 2) (r₂.l / 2) (r₃.l / 2)
  let B₂b ← SU2.cgMat (r₁.k / 2) (r₂.k / 2) (r₃.k / 2)
  let B₃a ← blocks r₁.l r₁.k
  let B₃b ← blocks r₂.l r₂.k
  pure ((catWidth B₃a, catWidth B₃b, catWidth B₁), fun k n c =>
    ∑ a ∈ Finset.range (r₃.l + 1), ∑ b ∈ Finset.range (r₃.k + 1),
      ∑ d ∈ Finset.range (r₁.l + 1), ∑ e ∈ Finset.range (r₂.l + 1),
      ∑ g ∈ Finset.range (r₁.k + 1), ∑ h ∈ Finset.range (r₂.k + 1),
        catAt B₁ a b c * B₂a d e a * B₂b g h b * catAt B₃a d g k * catAt B₃b e h n)

/-- `SL2C.clebsch_gordan` (`/repo/lie_nn/_src/irreps/sl2c.py` lines 35-41): the list of solutions. -/
noncomputable def cg (r₁ r₂ r₃ : SL2C) :
    Py (List (Fin r₁.dim → Fin r₂.dim → Fin r₃.dim → ℝ)) := do
  let l ← mul r₁ r₂
  if r₃ ∈ l then do
    let M ← sl2mat r₁ r₂ r₃
    if M.1 = (r₁.dim, r₂.dim, r₃.dim) then pure [fun a b c => M.2 a b c]
    else .error .valueError
  else pure []

/-- `kron_add` (`/repo/lie_nn/_src/irreps/sl2c.py` lines 67-68). -/
noncomputable def kronAddC {m p : ℕ} (x : Matrix (Fin m) (Fin m) ℂ) (y : Matrix (Fin p) (Fin p) ℂ) :
    Matrix (Fin (m * p)) (Fin (m * p)) ℂ :=
  kron x 1 + (kron 1 y).map star

/-- `X = np.concatenate([real, imag], axis=0)` (`/repo/lie_nn/_src/irreps/sl2c.py` lines 70-74). -/
noncomputable def gens0 (r : SL2C) (i : Fin 6) : Matrix (Fin r.dim) (Fin r.dim) ℂ :=
  if h : (i : ℕ) < 3 then kronAddC (SU2.gens r.l ⟨i, h⟩) (SU2.gens r.k ⟨i, h⟩)
  else kronAddC (SU2.gens r.l ⟨i - 3, by omega⟩) (-SU2.gens r.k ⟨i - 3, by omega⟩)

/-- `C` of `SL2C.continuous_generators` (`/repo/lie_nn/_src/irreps/sl2c.py` lines 75-79): the
`reshape` of an array of shape `(1, (l+1)*1, 1*(k+1), dim)` to `(dim, dim)`; any other number of
solutions does not fit. -/
noncomputable def basisC (r : SL2C) : Py (Matrix (Fin r.dim) (Fin r.dim) ℂ) := do
  let L ← cg ⟨r.l, 0⟩ ⟨0, r.k⟩ ⟨r.l, r.k⟩
  match L with
  | [C] => pure fun x c =>
      ((C (x.divNat.cast (by simp [dim])) (x.modNat.cast (by simp [dim])) c : ℝ) : ℂ)
  | _ => .error .valueError

/-- `SL2C.continuous_generators` (`/repo/lie_nn/_src/irreps/sl2c.py` lines 63-80). -/
noncomputable def gens (r : SL2C) : Py (Fin 6 → Matrix (Fin r.dim) (Fin r.dim) ℂ) := do
  let C ← basisC r
  pure fun i => Cᵀ * gens0 r i * C.map star

/-- `itertools.permutations((0, 1, 2))`. -/
def perms3 : List (ℕ × ℕ × ℕ) :=
  [(0, 1, 2), (0, 2, 1), (1, 0, 2), (1, 2, 0), (2, 0, 1), (2, 1, 0)]

/-- The assignments of `algebra`: `SL2C` with `s = 1`
(`/repo/lie_nn/_src/irreps/sl2c.py` lines 87-91), `SO13` with `s = -1`
(`/repo/lie_nn/_src/irreps/so13.py` lines 90-100). -/
def algWrites (s : ℤ) : List ((ℕ × ℕ × ℕ) × ℤ) :=
  perms3.flatMap fun t =>
    let e := Perm.permutationSign [t.1, t.2.1, t.2.2]
    [((t.1, t.2.1, t.2.2), e), ((3 + t.1, 3 + t.2.1, t.2.2), s * e),
      ((t.1, 3 + t.2.1, 3 + t.2.2), e), ((3 + t.1, t.2.1, 3 + t.2.2), e)]

/-- The array of integers after the assignments, `0` elsewhere. -/
def algZ (s : ℤ) (i j k : Fin 6) : ℤ :=
  match (algWrites s).reverse.find? (fun e => e.1 == ((i : ℕ), (j : ℕ), (k : ℕ))) with
  | some e => e.2
  | none => 0

/-- `SL2C.algebra` (`/repo/lie_nn/_src/irreps/sl2c.py` lines 82-93). -/
def algebra : Fin 6 → Fin 6 → Fin 6 → ℂ := fun i j k => (algZ 1 i j k : ℂ)

/-- `SL2C(l, k)` as a representation; an exception would read as the zero matrix. -/
noncomputable def rep (r : SL2C) : Rep 6 0 r.dim where
  A := algebra
  X := match gens r with
    | .ok X => X
    | .error _ => 0
  H := Fin.elim0

/-- `SL2C` as a table of irreps. -/
noncomputable def table : Table 6 0 where
  Ir := SL2C
  dim := dim
  rep := rep
  prod := fun i j => match mul i j with
    | .ok l => l
    | .error _ => []
  cg := fun i j k => match cg i j k with
    | .ok L => L.map fun C a b c => ((C a b c : ℝ) : ℂ)
    | .error _ => []

end SL2C

namespace SO13

/-- `SO13(l, k)` with `__post_init__` (`/repo/lie_nn/_src/irreps/so13.py` lines 21-26). -/
def make (l k : ℤ) : Py (ℕ × ℕ) := do
  pyAssert (0 ≤ l)
  pyAssert (0 ≤ k)
  pyAssert ((l + k) % 2 = 0)
  pure (l.toNat, k.toNat)

/-- `SO13.__mul__` (`/repo/lie_nn/_src/irreps/so13.py` lines 34-36). -/
def mul (r₁ r₂ : ℕ × ℕ) : Py (List (ℕ × ℕ)) := do
  let L ← SL2C.mul ⟨r₁.1, r₁.2⟩ ⟨r₂.1, r₂.2⟩
  L.mapM fun r => make r.l r.k

/-- `SO13.algebra` (`/repo/lie_nn/_src/irreps/so13.py` lines 85-102). -/
def algebra : Fin 6 → Fin 6 → Fin 6 → ℂ := fun i j k => (SL2C.algZ (-1) i j k : ℂ)

/-- `X[3:] *= 1j` (`/repo/lie_nn/_src/irreps/so13.py` lines 66-69). -/
noncomputable def boost {d : ℕ} (X : Fin 6 → Matrix (Fin d) (Fin d) ℂ) :
    Fin 6 → Matrix (Fin d) (Fin d) ℂ := fun i => if (i : ℕ) < 3 then X i else Complex.I • X i

open Classical in
/-- `SO13.continuous_generators` (`/repo/lie_nn/_src/irreps/so13.py` lines 65-83).  `sqrtm` is a
parameter; the rounding to square roots of rationals, of `S` and of the result, is not modelled.
`np.linalg.inv` raises on a singular matrix. -/
noncomputable def gens (eigh : EighFn) (eps : ℝ)
    (sqrtm : {d : ℕ} → Matrix (Fin d) (Fin d) ℂ → Matrix (Fin d) (Fin d) ℂ) (r : SL2C) :
    Py (Fin 6 → Matrix (Fin r.dim) (Fin r.dim) ℂ) := do
  let X₀ ← SL2C.gens r
  let X := boost X₀
  let S ← inferChangeOfBasis eigh eps (fun i => (X i).map star) X
  match S with
  | [] => do
    pyAssert (r.l ≠ r.k)
    pure X
  | S₀ :: _ => do
    pyAssert (r.l = r.k)
    let W := sqrtm ((Real.sqrt r.dim : ℂ) • S₀)
    if IsUnit W then
      pure fun i => (W * X i * W⁻¹).map fun z => ((z.re : ℝ) : ℂ)
    else .error .valueError

/-- The matrices of `SO13.four_vector` (`/repo/lie_nn/_src/irreps/so13.py` lines 104-149). -/
def fourVectorX : Fin 6 → Matrix (Fin 4) (Fin 4) ℂ :=
  ![!![0, 0, 0, 0; 0, 0, 0, 0; 0, 0, 0, -1; 0, 0, 1, 0],
    !![0, 0, 0, 0; 0, 0, 0, 1; 0, 0, 0, 0; 0, -1, 0, 0],
    !![0, 0, 0, 0; 0, 0, -1, 0; 0, 1, 0, 0; 0, 0, 0, 0],
    !![0, 1, 0, 0; 1, 0, 0, 0; 0, 0, 0, 0; 0, 0, 0, 0],
    !![0, 0, 1, 0; 0, 0, 0, 0; 1, 0, 0, 0; 0, 0, 0, 0],
    !![0, 0, 0, 1; 0, 0, 0, 0; 0, 0, 0, 0; 1, 0, 0, 0]]

/-- `SO13.four_vector` (`/repo/lie_nn/_src/irreps/so13.py` lines 104-149). -/
def fourVector : Rep 6 0 4 where
  A := algebra
  X := fourVectorX
  H := Fin.elim0

end SO13
end LieNN

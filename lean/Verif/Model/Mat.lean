import Mathlib.Data.Complex.Basic
import Mathlib.Data.Matrix.Basic
import Mathlib.Logic.Equiv.Fin.Basic
import Verif.Model.Basic
/-!
# Matrix helpers of `/repo/lie_nn/_src/util.py`

An array of shape `(m, n)` is a `Matrix (Fin m) (Fin n) ℂ`; an array of shape `(a, m, n)` is a
function `Fin a → Matrix (Fin m) (Fin n) ℂ`.  `SMat` packs a matrix with its run-time shape.
Floating-point entries are exact complex numbers.
-/
namespace LieNN

open Matrix

variable {R : Type*}

/-- The two-argument step of `direct_sum` (`/repo/lie_nn/_src/util.py` lines 199-208):
a zero array of shape `(m + p, n + q)` whose slice `[:m, :n]` is set to `A` and whose slice
`[m:, n:]` is set to `B`. -/
def dsum [Zero R] {m n p q : ℕ} (A : Matrix (Fin m) (Fin n) R) (B : Matrix (Fin p) (Fin q) R) :
    Matrix (Fin (m + p)) (Fin (n + q)) R :=
  fun i j => Fin.addCases
    (fun i => Fin.addCases (fun j => A i j) (fun _ => 0) j)
    (fun i => Fin.addCases (fun _ => 0) (fun j => B i j) j) i

/-- `np.einsum("ij,kl->ikjl", M, N).reshape(m * p, n * q)` (row-major reshape), the Kronecker
product as it is written at `/repo/lie_nn/_src/tensor_product.py` lines 20-23 and 73 and
`/repo/lie_nn/_src/group_product.py` lines 36-43; also `np.kron` (`util.py` lines 179-182). -/
def kron [Mul R] {m n p q : ℕ} (M : Matrix (Fin m) (Fin n) R) (N : Matrix (Fin p) (Fin q) R) :
    Matrix (Fin (m * p)) (Fin (n * q)) R :=
  fun i j => M i.divNat j.divNat * N i.modNat j.modNat

/-- `commutator` (`/repo/lie_nn/_src/util.py` lines 175-176). -/
def commutator [NonUnitalNonAssocRing R] {d : ℕ} (A B : Matrix (Fin d) (Fin d) R) :
    Matrix (Fin d) (Fin d) R :=
  A * B - B * A

/-- A two-dimensional array together with its shape. -/
structure SMat where
  /-- number of rows -/
  rows : ℕ
  /-- number of columns -/
  cols : ℕ
  /-- the entries -/
  mat : Matrix (Fin rows) (Fin cols) ℂ

namespace SMat

/-- Entry `M[i, j]`, with `0` outside of the array. -/
def get (M : SMat) (i j : ℕ) : ℂ :=
  if h : i < M.rows ∧ j < M.cols then M.mat ⟨i, h.1⟩ ⟨j, h.2⟩ else 0

end SMat

/-- `direct_sum(A, *BCD)` (`/repo/lie_nn/_src/util.py` lines 185-209), two-dimensional arguments:
recursion on the argument list from the right.  With no argument Python raises `TypeError`
(missing positional argument). -/
def directSumMats : List SMat → Py SMat
  | [] => .error .typeError
  | [A] => .ok A
  | A :: B :: l => do
      let S ← directSumMats (B :: l)
      pure ⟨A.rows + S.rows, A.cols + S.cols, dsum A.mat S.mat⟩

/-- `kron(A, *BCD)` (`/repo/lie_nn/_src/util.py` lines 179-182). -/
def kronMats : List SMat → Py SMat
  | [] => .error .typeError
  | [A] => .ok A
  | A :: B :: l => do
      let S ← kronMats (B :: l)
      pure ⟨A.rows * S.rows, A.cols * S.cols, kron A.mat S.mat⟩

/-- The assignment `R[x : x + m, y : y + n] = A` of `block_diagonal`
(`/repo/lie_nn/_src/util.py` line 169).  `R` is a real array (`np.zeros` without dtype, line 165):
only the real part of `A` is stored. -/
noncomputable def setBlock {M N : ℕ} (R : Matrix (Fin M) (Fin N) ℝ) (x y : ℕ) (A : SMat) :
    Matrix (Fin M) (Fin N) ℝ :=
  fun i j => if x ≤ i.1 ∧ i.1 < x + A.rows ∧ y ≤ j.1 ∧ j.1 < y + A.cols
    then (A.get (i.1 - x) (j.1 - y)).re else R i j

/-- The loop of `block_diagonal` (`/repo/lie_nn/_src/util.py` lines 168-171). -/
noncomputable def blockDiagonalLoop {M N : ℕ} :
    List SMat → ℕ → ℕ → Matrix (Fin M) (Fin N) ℝ → Matrix (Fin M) (Fin N) ℝ
  | [], _, _, R => R
  | A :: l, x, y, R => blockDiagonalLoop l (x + A.rows) (y + A.cols) (setBlock R x y A)

/-- `block_diagonal(As)` (`/repo/lie_nn/_src/util.py` lines 162-172) for one batch index.
`As[0]` raises `IndexError` on the empty list. -/
noncomputable def blockDiagonal (l : List SMat) : Py SMat :=
  if l = [] then .error .indexError
  else
    let M := (l.map SMat.rows).sum
    let N := (l.map SMat.cols).sum
    .ok ⟨M, N, fun i j => ((blockDiagonalLoop l 0 0 (0 : Matrix (Fin M) (Fin N) ℝ)) i j : ℂ)⟩

end LieNN

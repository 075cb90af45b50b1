import Verif.Model.Roots
/-!
# `structure_algebra` and the Dynkin diagrams of `/repo/lie_nn/_src/lie_algebra_utils.py`

A string is a list of characters.  Ranks are natural numbers.
-/
namespace LieNN.Roots

/-- `sep.join(l)`. -/
def pyJoin (sep : List Char) : List (List Char) → List Char
  | [] => []
  | [a] => a
  | a :: b :: l => a ++ sep ++ pyJoin sep (b :: l)

/-- `str(n)` of a natural number. -/
def pyStr (n : ℕ) : List Char := Nat.toDigits 10 n

/-- `"---".join("0" for i in range(1, k + 1))`. -/
def nodeRow (k : ℕ) : List Char := pyJoin ['-', '-', '-'] ((List.range' 1 k).map fun _ => ['0'])

/-- `"   ".join(str(i) for i in range(1, k + 1))`. -/
def labelRow (k : ℕ) : List Char := pyJoin [' ', ' ', ' '] ((List.range' 1 k).map pyStr)

/-- `dynkin` of `RootsWeightsA` (`/repo/lie_nn/_src/lie_algebra_utils.py` lines 17-18). -/
def dynkinA (rank : ℕ) : List Char := nodeRow rank ++ ['\n'] ++ labelRow rank

/-- `dynkin` of `RootsWeightsB` (`/repo/lie_nn/_src/lie_algebra_utils.py` lines 38-39). -/
def dynkinB (rank : ℕ) : List Char :=
  nodeRow (rank - 1) ++ ['=', '>', '=', '0', '\n'] ++ labelRow rank

/-- `dynkin` of `RootsWeightsC` (`/repo/lie_nn/_src/lie_algebra_utils.py` lines 57-58). -/
def dynkinC (rank : ℕ) : List Char :=
  nodeRow (rank - 1) ++ ['=', '<', '=', '0', '\n'] ++ labelRow rank

/-- `dynkin` of `RootsWeightsD` (`/repo/lie_nn/_src/lie_algebra_utils.py` lines 84-90). -/
def dynkinD (rank : ℕ) : List Char :=
  let sp := List.replicate (4 * (rank - 2)) ' '
  sp ++ ['0', '\n'] ++ (sp ++ ['|', '\n']) ++ (nodeRow (rank - 1) ++ ['\n']) ++
    (labelRow (rank - 2) ++ [' ', ' ', ' '] ++ pyStr rank) ++ (sp ++ ['\n']) ++ (sp ++ ['|', '\n']) ++
    (sp ++ ['0', '\n'])

/-- The dictionary returned by `structure_algebra` (`/repo/lie_nn/_src/lie_algebra_utils.py` lines
127-137). -/
structure Struct where
  /-- length of the vectors -/
  m : ℕ
  /-- `"tsDim"` -/
  tsDim : ℕ
  /-- `"SimpleRoots"`, `"PositiveRoots"`, `"FundamentalWeights"`, `"MaximalRoots"` -/
  rw : RW m
  /-- `"WeylVector"` -/
  weyl : Fin m → ℚ
  /-- `"CartanMatrix"` -/
  cartan : Matrix (Fin rw.roots.length) (Fin rw.roots.length) ℚ
  /-- `"Dynkin"` -/
  dynkin : List Char
  /-- `"CoxeterNumber"` -/
  coxeter : ℚ

/-- The exceptions of `structure_algebra`: those of the called functions and `UnboundLocalError`. -/
inductive StructErr where
  | py (e : PyErr)
  | unboundLocal
  deriving DecidableEq

/-- `/repo/lie_nn/_src/lie_algebra_utils.py` lines 122-137: `rootWeight[-1]` is the Dynkin text. -/
def structOf {m : ℕ} (rank : ℕ) (dynkin : List Char) : Py (RW m) → Except StructErr Struct
  | .error e => .error (.py e)
  | .ok w => .ok ⟨m, dynkin.length, w, weylVector w.pos, cartanMatrix w.roots, dynkin,
      coxeterNumber w.pos rank⟩

/-- `structure_algebra(group, rank)` (`/repo/lie_nn/_src/lie_algebra_utils.py` lines 113-137). -/
def structureAlgebra (group : List Char) (rank : ℕ) : Except StructErr Struct :=
  if group = ['A'] then structOf rank (dynkinA rank) (rootsA rank)
  else if group = ['B'] then structOf rank (dynkinB rank) (rootsB rank)
  else if group = ['C'] then structOf rank (dynkinC rank) (rootsC rank)
  else if group = ['D'] then structOf rank (dynkinD rank) (rootsD rank)
  else .error .unboundLocal

end LieNN.Roots

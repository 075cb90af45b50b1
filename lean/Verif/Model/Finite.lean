import Verif.Model.Rep
/-!
# `lie_nn/_src/finite.py`

Arrays of zeros and ones are exact complex matrices.  A stack `np.stack([...])` of discrete generators
is a list of matrices; the Python functions fall through to `None` for other values of `n`, which the
model returns as `TypeError` (what the first use of the value raises).
-/
namespace LieNN.Finite

open Matrix

/-- `_num_transpositions` (/repo/lie_nn/_src/finite.py:8-9). -/
def numTranspositions (n : ℤ) : ℤ := (n * (n - 1)).fdiv 2

/-- The assignment `m[i, j] = v`. -/
def setE {m n : ℕ} (M : Matrix (Fin m) (Fin n) ℂ) (i j : ℕ) (v : ℂ) : Matrix (Fin m) (Fin n) ℂ :=
  Matrix.of fun a b => if a.1 = i ∧ b.1 = j then v else M a b

/-- `_permutation_matrix` (/repo/lie_nn/_src/finite.py:12-22) of a tuple of non-negative integers: the fancy-index
assignment `m[p, range(n)] = 1` writes the entries `m[p[k], k]`, and raises `IndexError` if some
`p[k] >= n`. -/
def permutationMatrix (p : List ℕ) : Py SMat :=
  if ∀ x ∈ p, x < p.length then
    .ok ⟨p.length, p.length, Matrix.of fun i k => if p.getD k 0 = i then 1 else 0⟩
  else .error .indexError

/-- `_transposition_matrix` (/repo/lie_nn/_src/finite.py:25-33). -/
def transpositionMatrix (n i j : ℕ) : Py (Matrix (Fin n) (Fin n) ℂ) := do
  pyAssert (i < n)
  pyAssert (j < n)
  let m : Matrix (Fin n) (Fin n) ℂ := 1
  let m := setE m i i 0
  let m := setE m j j 0
  let m := setE m i j 1
  let m := setE m j i 1
  return m

/-- `Sn_natural.discrete_generators` (/repo/lie_nn/_src/finite.py:49-60), after the assertion `n >= 1` of `__init__`
(/repo/lie_nn/_src/finite.py:37-40). -/
def naturalGens (n : ℕ) : Py (List SMat) := do
  pyAssert (1 ≤ n)
  if n = 1 then return []
  else if n = 2 then
    let t ← transpositionMatrix 2 0 1
    return [⟨2, 2, t⟩]
  else
    let t ← transpositionMatrix n 0 1
    let c ← permutationMatrix ((List.range n).map fun i => (i + 1) % n)
    return [⟨n, n, t⟩, c]

/-- `H_tr` of `Sn_standard.discrete_generators` (/repo/lie_nn/_src/finite.py:104-108). -/
def standardTr (n : ℕ) : Matrix (Fin (n - 1)) (Fin (n - 1)) ℂ :=
  (List.range' 1 (n - 2)).foldl (fun M i => setE (setE M i i 1) 0 i (-1)) (setE 0 0 0 (-1))

/-- `H_cy` of `Sn_standard.discrete_generators` (/repo/lie_nn/_src/finite.py:110-114). -/
def standardCy (n : ℕ) : Matrix (Fin (n - 1)) (Fin (n - 1)) ℂ :=
  setE ((List.range (n - 2)).foldl (fun M i => setE (setE M (i + 1) i 1) 0 i (-1)) 0) 0 (n - 2) (-1)

/-- `Sn_standard.discrete_generators` (/repo/lie_nn/_src/finite.py:100-115), after the assertion `n >= 2` of `__init__`
(/repo/lie_nn/_src/finite.py:88-91). -/
def standardGens (n : ℕ) : Py (List (Matrix (Fin (n - 1)) (Fin (n - 1)) ℂ)) := do
  pyAssert (2 ≤ n)
  if n = 2 then return [Matrix.of fun _ _ => -1]
  else return [standardTr n, standardCy n]

/-- `Sn_trivial.discrete_generators` (/repo/lie_nn/_src/finite.py:133-139). -/
def trivialGens (n : ℕ) : Py (List (Matrix (Fin 1) (Fin 1) ℂ)) :=
  if n = 1 then .ok []
  else if n = 2 then .ok [Matrix.of fun _ _ => 1]
  else if 3 ≤ n then .ok [Matrix.of fun _ _ => 1, Matrix.of fun _ _ => 1]
  else .error .typeError

/-- `create_trivial` of `Sn_natural` and `Sn_standard` (/repo/lie_nn/_src/finite.py:62-63, 117-118): `h` copies of the
`1 × 1` matrix of ones, `h` the number of discrete generators. -/
def createTrivial {α : Type} (gens : Py (List α)) : Py (List (Matrix (Fin 1) (Fin 1) ℂ)) := do
  let H ← gens
  return List.replicate H.length (Matrix.of fun _ _ => 1)

end LieNN.Finite

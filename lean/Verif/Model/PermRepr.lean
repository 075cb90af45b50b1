import Verif.Model.Perm
import Mathlib.Data.List.Lex
import Mathlib.Data.Prod.Lex
import Mathlib.Data.Finset.Sort
import Mathlib.Analysis.SpecialFunctions.Pow.Real

/-!
# Signed permutation groups of `/repo/lie_nn/_src/reduced_tensor_product.py`

A formula is the list of its characters.  A frozenset is a `Finset`; every Python set below is consumed
in a way that does not depend on its iteration order, except `tuple(dims[i] for i in sub_f0)`, where
the order is an argument.  Tensors are real arrays; an array of shape `(d, *dims)` is a list of `d`
functions of the flat row-major index.
-/
namespace LieNN.PermRepr

open LieNN.Perm

/-- `Tuple[int, Tuple[int, ...]]`: a sign and a permutation. -/
abbrev SP := ℤ × List ℕ

/-- `formulas` (/repo/lie_nn/_src/reduced_tensor_product.py:262). -/
def terms (formula : List Char) : List (ℤ × List Char) :=
  (formula.splitOn '=').map fun f => (if f.head? = some '-' then -1 else 1, f.filter (· ≠ '-'))

/-- `tuple(f.index(i) for i in f0)` (/repo/lie_nn/_src/reduced_tensor_product.py:274-276); `str.index` raises `ValueError`. -/
def indices (f f0 : List Char) : Py (List ℕ) :=
  f0.mapM fun i => if i ∈ f then .ok (f.idxOf i) else .error .valueError

/-- The two tests of the loop over the terms (/repo/lie_nn/_src/reduced_tensor_product.py:266-270). -/
def checkTerm (f0 f : List Char) : Py Unit :=
  if f.toFinset.card ≠ f.length ∨ f.toFinset ≠ f0.toFinset then .error .runtimeError
  else if f0.length ≠ f.length then .error .runtimeError
  else .ok ()

/-- One turn of the `while True` loop (/repo/lie_nn/_src/reduced_tensor_product.py:283-286). -/
noncomputable def step (s : Finset SP) : Py (Finset SP) := do
  let s1 := s ∪ (← imagePy s fun x => do return (x.1, ← inverse x.2))
  let prods ← imagePy (s1 ×ˢ s1) fun q => do return (q.1.1 * q.2.1, ← compose q.1.2 q.2.2)
  return s1 ∪ prods

/-- The `while True` loop (/repo/lie_nn/_src/reduced_tensor_product.py:281-288); `none`: still running after `fuel`
turns. -/
noncomputable def loop : (fuel : ℕ) → Finset SP → Option (Py (Finset SP))
  | 0, _ => none
  | fuel + 1, s =>
    match step s with
    | .error e => some (.error e)
    | .ok s' => if s'.card = s.card then some (.ok s') else loop fuel s'

/-- The part of `germinate_perm_repr` before the loop (/repo/lie_nn/_src/reduced_tensor_product.py:262-276): `f0` and
the set of generators.  `formulas[0]` exists because `split` never returns an empty list. -/
def generators (formula : List Char) : Py (List Char × Finset SP) :=
  match terms formula with
  | [] => .error .indexError
  | (s0, f0) :: l => do
    pyAssert (s0 = 1)
    for t in (s0, f0) :: l do checkTerm f0 t.2
    let g ← ((s0, f0) :: l).mapM fun t => do return (t.1, ← indices t.2 f0)
    return (f0, g.toFinset)

/-- `germinate_perm_repr` (/repo/lie_nn/_src/reduced_tensor_product.py:259-290). -/
noncomputable def germinatePermRepr (fuel : ℕ) (formula : List Char) :
    Option (Py (List Char × Finset SP)) :=
  match generators formula with
  | .error e => some (.error e)
  | .ok (f0, s) => match loop fuel s with
    | none => none
    | some (.error e) => some (.error e)
    | some (.ok r) => some (.ok (f0, r))

/-- `subrepr_permutation` (/repo/lie_nn/_src/reduced_tensor_product.py:366-376). -/
def subrepr (sub : Finset ℕ) (G : Finset SP) : Finset SP :=
  let sor := sub.sort (· ≤ ·)
  (G.filter fun x => ∀ ji ∈ x.2.zipIdx, ji.1 ∈ sub ∨ ji.1 = ji.2).image fun x =>
    (x.1, (x.2.filter (· ∈ sub)).map fun i => sor.idxOf i)

/-- `full_base_fn` (/repo/lie_nn/_src/reduced_tensor_product.py:400-402): `itertools.product` of the ranges. -/
def fullBase : List ℕ → List (List ℕ)
  | [] => [[]]
  | d :: ds => (List.range d).flatMap fun i => (fullBase ds).map fun x => i :: x

/-- `tuple(x[i] for i in p)`: `IndexError` when an index is out of range. -/
def permute (x p : List ℕ) : Py (List ℕ) :=
  p.mapM fun i => match x[i]? with
    | some v => .ok v
    | none => .error .indexError

/-- `{(s, tuple(x[i] for i in p)) for s, p in perm_repr}` (/repo/lie_nn/_src/reduced_tensor_product.py:418). -/
noncomputable def orbit (G : Finset SP) (x : List ℕ) : Py (Finset SP) :=
  imagePy G fun g => do return (g.1, ← permute x g.2)

/-- `{(-s, x) for s, x in xs}` (/repo/lie_nn/_src/reduced_tensor_product.py:423). -/
def negate (xs : Finset SP) : Finset SP := xs.image fun y => (-y.1, y.2)

/-- The loop of `reduce_permutation_base` (/repo/lie_nn/_src/reduced_tensor_product.py:415-423), with the set `base` so
far. -/
noncomputable def baseLoop (G : Finset SP) :
    List (List ℕ) → Finset (Finset (Finset SP)) → Py (Finset (Finset (Finset SP)))
  | [], b => .ok b
  | x :: l, b => do
    let xs ← orbit G x
    baseLoop G l (if (-1, x) ∉ xs then insert {xs, negate xs} b else b)

/-- `reduce_permutation_base` (/repo/lie_nn/_src/reduced_tensor_product.py:405-427). -/
noncomputable def base (G : Finset SP) (dims : List ℕ) : Py (Finset (Finset (Finset SP))) :=
  baseLoop G (fullBase dims) ∅

/-- Python order of `Tuple[int, Tuple[int, ...]]`. -/
abbrev SPL := ℤ ×ₗ List ℕ

/-- `sorted(xs)` for a set of signed tuples (/repo/lie_nn/_src/reduced_tensor_product.py:435). -/
def sortSet (xs : Finset SP) : List SPL := (xs.image toLex).sort (· ≤ ·)

/-- `sorted([sorted(xs) for xs in x])` (/repo/lie_nn/_src/reduced_tensor_product.py:435). -/
noncomputable def sortPair (x : Finset (Finset SP)) : List (List SPL) :=
  (x.toList.map sortSet).mergeSort fun a b => decide (a ≤ b)

/-- `sorted([...  for x in base])` (/repo/lie_nn/_src/reduced_tensor_product.py:434-436). -/
noncomputable def sortBase (b : Finset (Finset (Finset SP))) : List (List (List SPL)) :=
  (b.toList.map sortPair).mergeSort fun a b => decide (a ≤ b)

/-- `sum(s for s, x in xs)` -/
def signSum (xs : List SPL) : ℤ := (xs.map fun y => (ofLex y).1).sum

/-- `max(x, key=lambda xs: sum(s for s, x in xs))` (/repo/lie_nn/_src/reduced_tensor_product.py:443): the first
maximum. -/
def pick : List (List SPL) → Py (List SPL)
  | [] => .error .valueError
  | a :: l => .ok (l.foldl (fun m b => if signSum m < signSum b then b else m) a)

/-- The index `j` (/repo/lie_nn/_src/reduced_tensor_product.py:445-448). -/
def flat (e dims : List ℕ) : ℕ := (e.zip dims).foldl (fun j kd => j * kd.2 + kd.1) 0

/-- The assignments of one row (/repo/lie_nn/_src/reduced_tensor_product.py:444-449), `0` elsewhere; an index out of
range is an `IndexError`. -/
noncomputable def row (dims : List ℕ) (x : List SPL) : Py (ℕ → ℝ) :=
  x.foldlM (fun q y =>
    if flat (ofLex y).2 dims < dims.prod then
      .ok (Function.update q (flat (ofLex y).2 dims) ((ofLex y).1 / Real.sqrt x.length))
    else .error .indexError) fun _ => 0

/-- The rows of `Q` (/repo/lie_nn/_src/reduced_tensor_product.py:439-449). -/
noncomputable def rows (b : Finset (Finset (Finset SP))) (dims : List ℕ) : Py (List (ℕ → ℝ)) :=
  (sortBase b).mapM fun x => do row dims (← pick x)

open Classical in
/-- `reduce_permutation_matrix` (/repo/lie_nn/_src/reduced_tensor_product.py:430-453); the assertion has tolerance
`rtol = 1e-7`, `atol = 0`. -/
noncomputable def matrix (b : Finset (Finset (Finset SP))) (dims : List ℕ) : Py (List (ℕ → ℝ)) := do
  let Q ← rows b dims
  pyAssert (∀ i j (hi : i < Q.length) (hj : j < Q.length),
    |(∑ k ∈ Finset.range dims.prod, Q[i] k * Q[j] k) - (if i = j then 1 else 0)| ≤
      1 / 10 ^ 7 * |(if i = j then (1 : ℝ) else 0)|)
  return Q

end LieNN.PermRepr

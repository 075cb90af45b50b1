import Verif.Model.Basic
import Mathlib.Data.Finset.NAry
import Mathlib.Data.Finset.Union
import Mathlib.Data.Finset.Sort
import Mathlib.Data.Nat.Factorial.Basic

/-!
# Model of `lie_nn/_src/discrete_groups/perm.py` and of `util.permutation_sign`

A permutation tuple `Tuple[int, ...]` is a `List ℕ`; a Python `set` of tuples is a `Finset (List ℕ)`
(iteration order of Python sets is irrelevant to every function below because each result is again
a set, a Boolean `all`, or a product of signs).  Entries are non-negative: a tuple with a negative
entry is rejected by `is_perm` anyway.
-/
namespace LieNN.Perm

/-- `TY_PERM` (/repo/lie_nn/_src/discrete_groups/perm.py:6). -/
abbrev P := List ℕ

/-- `is_perm` (/repo/lie_nn/_src/discrete_groups/perm.py:9-10): `sorted(set(p)) == list(range(len(p)))`. -/
def isPerm (p : P) : Bool := p.toFinset.sort (· ≤ ·) == List.range p.length

/-- `identity` (/repo/lie_nn/_src/discrete_groups/perm.py:13-14). -/
def identity (n : ℕ) : P := (List.range n).map fun i => i

/-- `compose` (/repo/lie_nn/_src/discrete_groups/perm.py:17-23).  After the two assertions every index is in range, so the
`getD` default below is never used (see `compose_tup` in the proofs). -/
def compose (p1 p2 : P) : Py P := do
  pyAssert (isPerm p1 ∧ isPerm p2)
  pyAssert (p1.length = p2.length)
  return (List.range p1.length).map fun i => p1.getD (p2.getD i 0) 0

/-- `tuple.index` (used by /repo/lie_nn/_src/discrete_groups/perm.py:27,52,107): position of the first occurrence, `ValueError` if absent. -/
def index (p : P) (i : ℕ) : Py ℕ := if i ∈ p then .ok (p.idxOf i) else .error .valueError

/-- `inverse` (/repo/lie_nn/_src/discrete_groups/perm.py:26-27). -/
def inverse (p : P) : Py P := (List.range p.length).mapM fun i => index p i

/-- Body of the loop of `from_int` (/repo/lie_nn/_src/discrete_groups/perm.py:38-42): `k` iterations remain, `n` is the current
value of the variable `n`, `pool` the remaining pool, `i` the remaining number, `p` the output so far.
`i % n` with `n = 0` is a `ZeroDivisionError`; `pool.pop(j)` out of range is an `IndexError`. -/
def fromIntLoop : (k n : ℕ) → (pool : List ℕ) → (i : ℕ) → (p : P) → Py P
  | 0, _, _, _, p => .ok p
  | k + 1, n, pool, i, p =>
    if n = 0 then .error .zeroDivision
    else
      let j := i % n
      match pool[j]? with
      | none => .error .indexError
      | some x => fromIntLoop k (n - 1) (pool.eraseIdx j) (i / n) (p ++ [x])

/-- `from_int` (/repo/lie_nn/_src/discrete_groups/perm.py:35-43), for a non-negative `i`. -/
def fromInt (i n : ℕ) : Py P := fromIntLoop n n (List.range n) i []

/-- Loop of `to_int` (/repo/lie_nn/_src/discrete_groups/perm.py:51-55). -/
def toIntLoop : (p : P) → (pool : List ℕ) → (i m : ℕ) → Py ℕ
  | [], _, i, _ => .ok i
  | j :: p, pool, i, m => do
    let k ← index pool j
    toIntLoop p (pool.eraseIdx k) (i + k * m) (m * pool.length)

/-- `to_int` (/repo/lie_nn/_src/discrete_groups/perm.py:46-56). -/
def toInt (p : P) : Py ℕ := toIntLoop p (List.range p.length) 0 1

/-- `rand` (/repo/lie_nn/_src/discrete_groups/perm.py:30-32): the results for the equally likely values of
`random.randint(0, math.factorial(n) - 1)`, both ends included. -/
def randOutcomes (n : ℕ) : List (Py P) :=
  let lo := 0
  let hi := n.factorial - 1
  (List.range' lo (hi + 1 - lo)).map fun i => fromInt i n

/-- `group` (/repo/lie_nn/_src/discrete_groups/perm.py:59-60): a set comprehension over `range(math.factorial(n))`.
The comprehension fails if one of the calls fails. -/
def group (n : ℕ) : Py (Finset P) := do
  let l ← (List.range n.factorial).mapM fun i => fromInt i n
  return l.toFinset

/-- A set comprehension `{f(x) for x in s}` / `[f(x) for x in s]` whose body may raise;
`Finset.toList` is the (unspecified) iteration order of the Python set. -/
noncomputable def imagePy {α β : Type} [DecidableEq β] (s : Finset α) (f : α → Py β) :
    Py (Finset β) := do
  let l ← s.toList.mapM f
  return l.toFinset

/-- One iteration of the loop of `germinate` (/repo/lie_nn/_src/discrete_groups/perm.py:66-67). -/
noncomputable def germinateStep (s : Finset P) : Py (Finset P) := do
  let s1 := s ∪ (← imagePy s inverse)
  let prods ← imagePy (s1 ×ˢ s1) fun q => compose q.1 q.2
  return s1 ∪ prods

/-- `germinate` (/repo/lie_nn/_src/discrete_groups/perm.py:63-69), bounded to `fuel` iterations of `while True`; `none` means that the
loop is still running after `fuel` iterations. -/
noncomputable def germinate : (fuel : ℕ) → Finset P → Option (Py (Finset P))
  | 0, _ => none
  | fuel + 1, s =>
    match germinateStep s with
    | .error e => some (.error e)
    | .ok s' => if s'.card = s.card then some (.ok s') else germinate fuel s'

/-- `for x in l: if not f(x): return False` … `return True`, with exceptions. -/
def allPy {α : Type} (f : α → Py Bool) : List α → Py Bool
  | [] => .ok true
  | x :: l => do
    if ← f x then allPy f l else return false

/-- `is_group` (/repo/lie_nn/_src/discrete_groups/perm.py:72-93). `g.toList` is the iteration order of the set. -/
noncomputable def isGroup (g : Finset P) : Py Bool :=
  match g.toList with
  | [] => .ok false                                                -- /repo/lie_nn/_src/discrete_groups/perm.py:73-74
  | p0 :: _ => do
    let n := p0.length                                             -- /repo/lie_nn/_src/discrete_groups/perm.py:76
    for p in g.toList do pyAssert (p.length = n)                   -- /repo/lie_nn/_src/discrete_groups/perm.py:78-79
    if identity n ∉ g then return false                            -- /repo/lie_nn/_src/discrete_groups/perm.py:81-82
    let invOk ← allPy (fun p => do let q ← inverse p; return decide (q ∈ g)) g.toList
    if !invOk then return false                                    -- /repo/lie_nn/_src/discrete_groups/perm.py:84-86
    allPy (fun p1 => allPy (fun p2 => do
      let q ← compose p1 p2; return decide (q ∈ g)) g.toList) g.toList  -- /repo/lie_nn/_src/discrete_groups/perm.py:88-93

/-- The `while` loop of `to_cycles` (/repo/lie_nn/_src/discrete_groups/perm.py:103-105): `c0 = c[0]`, current index `i`, list so far `c`.
`none`: still looping after `fuel` tests of the loop condition. -/
def cycleLoop (p : P) (c0 : ℕ) : (fuel : ℕ) → (i : ℕ) → (c : List ℕ) → Option (Py (List ℕ))
  | 0, _, _ => none
  | fuel + 1, i, c =>
    match p[i]? with
    | none => some (.error .indexError)
    | some j => if j ≠ c0 then cycleLoop p c0 fuel j (c ++ [j]) else some (.ok c)

/-- `i = c.index(min(c)); c = c[i:] + c[:i]` (/repo/lie_nn/_src/discrete_groups/perm.py:107-108). -/
def rotateMin (c : List ℕ) : List ℕ :=
  let i := c.idxOf (c.min?.getD 0)
  c.drop i ++ c.take i

/-- The `for i in range(n)` loop of `to_cycles` (/repo/lie_nn/_src/discrete_groups/perm.py:101-109) over the remaining indices `is`. -/
def toCyclesLoop (p : P) (fuel : ℕ) : (is : List ℕ) → Finset (List ℕ) → Option (Py (Finset (List ℕ)))
  | [], cycles => some (.ok cycles)
  | i :: is, cycles =>
    match cycleLoop p i fuel i [i] with
    | none => none
    | some (.error e) => some (.error e)
    | some (.ok c) =>
      toCyclesLoop p fuel is (if 2 ≤ c.length then insert (rotateMin c) cycles else cycles)

/-- `to_cycles` (/repo/lie_nn/_src/discrete_groups/perm.py:96-111); each inner `while` loop gets `fuel` condition tests. -/
def toCycles (fuel : ℕ) (p : P) : Option (Py (Finset (List ℕ))) :=
  toCyclesLoop p fuel (List.range p.length) ∅

/-- `sign` (/repo/lie_nn/_src/discrete_groups/perm.py:114-119); the loop over the set of cycles flips `s` at each even-length cycle. -/
noncomputable def sign (fuel : ℕ) (p : P) : Option (Py ℤ) :=
  match toCycles fuel p with
  | none => none
  | some (.error e) => some (.error e)
  | some (.ok cs) => some (.ok (cs.toList.foldl (fun s c => if c.length % 2 = 0 then -s else s) 1))

/-- `util.permutation_sign` (/repo/lie_nn/_src/util.py:489-499): parity of the number of inversions. -/
def permutationSign (p : P) : ℤ :=
  if p.length = 1 then 1
  else
    let trans := ((List.range p.length).map fun i =>
      ((List.range' (i + 1) (p.length - (i + 1))).filter fun j => p.getD i 0 > p.getD j 0).length).sum
    if trans % 2 = 0 then 1 else -1

end LieNN.Perm

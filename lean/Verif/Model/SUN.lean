import Verif.Model.Iter
/-!
# `SUN` (`/repo/lie_nn/_src/irreps/sun.py`)

Weights are lists of integers, Gelfand-Tsetlin patterns lists of lists of integers.

Simplifications: generators are the lists of what they yield, so an exception comes at once instead of
after the elements before it; the loops that end without `return`, which give `None`, raise the
`TypeError` that adding `None` would; exact rationals and reals instead of floats.  A recursion on the
length of the weight carries that length as an explicit argument.
-/
namespace LieNN.SUN

/-- A Gelfand-Tsetlin pattern. -/
abbrev Pat : Type := List (List ℤ)

/-- `M[i][j]` -/
def get2 (M : Pat) (i j : ℕ) : Py ℤ :=
  match M[i]? with
  | none => .error .indexError
  | some row => match row[j]? with
    | none => .error .indexError
    | some x => .ok x

/-- The pairs `i, j` of the two loops of `dim` (`/repo/lie_nn/_src/irreps/sun.py` lines 36-37). -/
def dimPairs (n : ℕ) : List (ℕ × ℕ) :=
  (List.range n).flatMap fun i => (List.range' (i + 1) (n - (i + 1))).map fun j => (i, j)

/-- The product computed by `dim` (`/repo/lie_nn/_src/irreps/sun.py` lines 35-38). -/
def dimProd (S : List ℤ) : ℚ :=
  (dimPairs S.length).foldl
    (fun d p => d * (1 + ((S.getD p.1 0 - S.getD p.2 0 : ℤ) : ℚ) / (((p.2 : ℤ) - p.1 : ℤ) : ℚ))) 1

/-- `dim` (`/repo/lie_nn/_src/irreps/sun.py` lines 29-40). -/
def dim (S : List ℤ) : Py ℤ := do
  pyAssert (isValidS S)
  pyAssert ((dimProd S).den = 1)
  pure (SU2.trunc (dimProd S))

/-- `itertools.product` of lists: the last one varies fastest. -/
def itProduct {α : Type} : List (List α) → List (List α)
  | [] => [[]]
  | l :: ls => l.flatMap fun x => (itProduct ls).map fun xs => x :: xs

/-- `S_to_Ss` (`/repo/lie_nn/_src/irreps/sun.py` lines 46-57). -/
def sToSs (S : List ℤ) : Py (List (List ℤ)) := do
  pyAssert (isValidS S)
  if S.length = 1 then pure []
  else
    let diff := (S.zip S.tail).map fun p => p.1 - p.2
    pure ((itProduct (diff.map fun s => (SU2.pyRange 0 (s + 1) 1).reverse)).map fun x =>
      (List.range (S.length - 1)).map fun i => S.getD i 0 - x.getD i 0)

/-- `S_to_Ms` (`/repo/lie_nn/_src/irreps/sun.py` lines 60-71) on a tuple of the given length. -/
def sToMsAux : ℕ → List ℤ → Py (List Pat)
  | 0, _ => .error .assertionError
  | n + 1, S => do
    pyAssert (isValidS S)
    let here := if S.length = 1 then [[S]] else []
    let nexts ← sToSs S
    let rest ← nexts.mapM fun T => do
      let Ms ← sToMsAux n T
      pure (Ms.map fun M => S :: M)
    pure (here ++ rest.flatten)

/-- `S_to_Ms` (`/repo/lie_nn/_src/irreps/sun.py` lines 60-71). -/
def sToMs (S : List ℤ) : Py (List Pat) := sToMsAux S.length S

/-- The loop of `index_to_M` (`/repo/lie_nn/_src/irreps/sun.py` lines 83-87). -/
def idxLoop (rec : List ℤ → ℤ → Py Pat) (S : List ℤ) : List (List ℤ) → ℤ → Py Pat
  | [], _ => .error .typeError
  | T :: Ts, index => do
    let d ← dim T
    if index < d then do
      let M ← rec T index
      pure (S :: M)
    else idxLoop rec S Ts (index - d)

/-- `index_to_M` (`/repo/lie_nn/_src/irreps/sun.py` lines 77-87) on a tuple of the given length. -/
def indexToMAux : ℕ → List ℤ → ℤ → Py Pat
  | 0, _, _ => .error .assertionError
  | n + 1, S, index => do
    pyAssert (isValidS S)
    let d ← dim S
    pyAssert (index < d)
    if S.length = 1 then pure [S]
    else do
      let nexts ← sToSs S
      idxLoop (indexToMAux n) S nexts index

/-- `index_to_M` (`/repo/lie_nn/_src/irreps/sun.py` lines 77-87). -/
def indexToM (S : List ℤ) (index : ℤ) : Py Pat := indexToMAux S.length S index

/-- The loop of `M_to_index` (`/repo/lie_nn/_src/irreps/sun.py` lines 97-100); `M1` is `M[1]`, `rec`
is `M_to_index(M[1:])`. -/
def mLoop (M1 : List ℤ) (rec : Py ℤ) : List (List ℤ) → ℤ → Py ℤ
  | [], _ => .error .typeError
  | T :: Ts, index =>
    if M1 = T then do
      let r ← rec
      pure (index + r)
    else do
      let d ← dim T
      mLoop M1 rec Ts (index + d)

/-- `M_to_index` (`/repo/lie_nn/_src/irreps/sun.py` lines 90-100). -/
def mToIndex : Pat → Py ℤ
  | [] => .error .indexError
  | S :: M => do
    pyAssert (isValidS S)
    if S.length = 1 then pure 0
    else do
      let nexts ← sToSs S
      match M with
      | [] => .error .indexError
      | M1 :: M' => mLoop M1 (mToIndex (M1 :: M')) nexts 0

/-- `triangular_triplet` (`/repo/lie_nn/_src/irreps/sun.py` lines 107-112). -/
def triplets (M : Pat) : Py (List (ℤ × ℤ × ℤ)) :=
  ((List.range' 1 (M.length - 1)).flatMap fun i =>
    (List.range (M.length - i)).map fun j => (i, j)).mapM fun ij => do
      let a ← get2 M (ij.1 - 1) ij.2
      let b ← get2 M (ij.1 - 1) (ij.2 + 1)
      let c ← get2 M ij.1 ij.2
      pure (a, b, c)

/-- `is_valid_M` (`/repo/lie_nn/_src/irreps/sun.py` lines 115-116). -/
def isValidM (M : Pat) : Py Bool := do
  let L ← triplets M
  pure (L.all fun m => m.1 ≥ m.2.2 && m.2.2 ≥ m.2.1 && m.2.1 ≥ 0)

/-- `unique_pairs(n)` (`/repo/lie_nn/_src/irreps/sun.py` lines 119-123). -/
def uniquePairs (n : ℕ) : List (ℕ × ℕ) :=
  (List.range n).flatMap fun i => (List.range (n - i)).map fun j => (i, j)

/-- `M_to_sigma` (`/repo/lie_nn/_src/irreps/sun.py` lines 126-127). -/
def mToSigma (M : Pat) : List ℤ := M.map List.sum ++ [0]

/-- `M_to_p_weight` (`/repo/lie_nn/_src/irreps/sun.py` lines 130-133). -/
def mToPWeight (M : Pat) : List ℤ :=
  let sigma := (mToSigma M).reverse
  ((sigma.zip sigma.tail).map fun p => p.2 - p.1).reverse

/-- `M_to_z_weight` (`/repo/lie_nn/_src/irreps/sun.py` lines 136-139). -/
def mToZWeight (M : Pat) : List ℚ :=
  let w := (mToPWeight M).reverse
  ((w.tail.zip w).map fun p => ((p.2 - p.1 : ℤ) : ℚ) / 2).reverse

/-- The increment of lines 147-150 of `mul_rep`: `pattern[k][l] - pattern[k + 1][l]`, or
`pattern[k][l]` when an index is out of range. -/
def mulIncr (pattern : Pat) (l k : ℕ) : Py ℤ :=
  match get2 pattern k l, get2 pattern (k + 1) l with
  | .ok a, .ok b => .ok (a - b)
  | x, _ => x

/-- The inner loop of `mul_rep` (`/repo/lie_nn/_src/irreps/sun.py` lines 146-153) over the pairs that
are left; the empty list is what `break` leaves. -/
def mulLoop (n : ℕ) (pattern : Pat) : List (ℕ × ℕ) → List ℤ → Py (List ℤ)
  | [], t => pure t
  | (l, k) :: ps, t =>
    match t[n - k - 1]? with
    | none => .error .indexError
    | some cur => do
      let incr ← mulIncr pattern l k
      let t := t.set (n - k - 1) (cur + incr)
      if n - k - 1 ≥ 1 ∧ t.getD (n - k - 1) 0 > t.getD (n - k - 2) 0 then pure []
      else mulLoop n pattern ps t

/-- `mul_rep` (`/repo/lie_nn/_src/irreps/sun.py` lines 142-155). -/
def mulRep (S₁ S₂ : List ℤ) : Py (List (List ℤ)) := do
  let n := S₁.length
  let Ms ← sToMs S₁
  let ts ← Ms.mapM fun pattern => mulLoop n pattern (uniquePairs n) S₂
  pure (ts.filterMap fun t => t.getLast?.map fun z => t.map fun x => x - z)

/-- `SUN.__mul__` (`/repo/lie_nn/_src/irreps/sun.py` lines 456-457), with all the constructors run. -/
def mul (S₁ S₂ : List ℤ) : Py (List (List ℤ)) := do
  let L ← mulRep S₁ S₂
  (L.dedup.mergeSort fun a b => decide (a ≤ b)).mapM make

/-- `num *= M[row][k_p] - M[k][l] + l - k_p + shift` for `k_p` in `range(count)`. -/
def prodLoop (M : Pat) (row k l count : ℕ) (shift : ℤ) (num : ℤ) : Py ℤ :=
  (List.range count).foldlM (fun num kp => do
    let a ← get2 M row kp
    let b ← get2 M k l
    pure (num * (a - b + l - kp + shift))) num

/-- The loop over the denominator: `continue` when `k_p == l`; `s` is `-1` for the raising and `1`
for the lowering coefficient. -/
def denLoop (M : Pat) (k l count : ℕ) (s : ℤ) : Py ℤ :=
  (List.range count).foldlM (fun den kp =>
    if kp = l then pure den
    else do
      let a ← get2 M k kp
      let b ← get2 M k l
      pure (den * ((a - b + l - kp) * (a - b + l - kp + s)))) 1

/-- `assert -num / den >= 0; return (-num / den) ** 0.5`. -/
noncomputable def finish (num den : ℤ) : Py ℝ :=
  if den = 0 then .error .zeroDivision
  else do
    pyAssert (0 ≤ (-num : ℚ) / den)
    pure (Real.sqrt (((-num : ℚ) / den : ℚ)))

/-- `compute_coeff_upper(M, k, l)` (`/repo/lie_nn/_src/irreps/sun.py` lines 158-172), for `1 ≤ k`. -/
noncomputable def coeffUpper (M : Pat) (k l : ℕ) : Py ℝ := do
  let n := M.length
  let num ← prodLoop M (k - 1) k l (n - k + 1) 0 1
  let num ← prodLoop M (k + 1) k l (n - k - 1) (-1) num
  let den ← denLoop M k l (n - k) (-1)
  finish num den

/-- `compute_coeff_lower(M, k, l)` (`/repo/lie_nn/_src/irreps/sun.py` lines 175-189), for `1 ≤ k`; the
two factors of the denominator are swapped. -/
noncomputable def coeffLower (M : Pat) (k l : ℕ) : Py ℝ := do
  let n := M.length
  let num ← prodLoop M (k - 1) k l (n - k + 1) 1 1
  let num ← prodLoop M (k + 1) k l (n - k - 1) 0 num
  let den ← denLoop M k l (n - k) 1
  finish num den

/-- The array of `M_add_at_lk` (`/repo/lie_nn/_src/irreps/sun.py` lines 194-197). -/
def addAt (M : Pat) (l k : ℕ) (inc : ℤ) : Pat :=
  M.mapIdx fun i row => row.mapIdx fun j x => if (i, j) = (l, k) then x + inc else x

/-- `M_add_at_lk` (`/repo/lie_nn/_src/irreps/sun.py` lines 192-198). -/
def mAddAt (M : Pat) (l k : ℕ) (inc : ℤ) : Py (Option Pat) := do
  if ← isValidM (addAt M l k inc) then pure (some (addAt M l k inc)) else pure none

/-- `upper_ladder(l, N, M)` and `lower_ladder(l, N, M)` (`/repo/lie_nn/_src/irreps/sun.py` lines
201-230), with the coefficient and the increment they use. -/
noncomputable def ladder (coeff : Pat → ℕ → ℕ → Py ℝ) (inc : ℤ) (l : ℕ) (N M : Pat) : Py ℝ :=
  (List.range (M.length - (l + 1))).foldlM (fun acc k => do
    let M' ← mAddAt M (l + 1) k inc
    if M' = some N then do
      let c ← coeff M (l + 1) k
      pure (acc + c)
    else pure acc) 0

/-- `upper_ladder` (`/repo/lie_nn/_src/irreps/sun.py` lines 201-214). -/
noncomputable def upperLadder : ℕ → Pat → Pat → Py ℝ := ladder coeffUpper 1

/-- `lower_ladder` (`/repo/lie_nn/_src/irreps/sun.py` lines 217-230). -/
noncomputable def lowerLadder : ℕ → Pat → Pat → Py ℝ := ladder coeffLower (-1)

/-- The nested lists of `upper_ladder_matrices` and `lower_ladder_matrices`
(`/repo/lie_nn/_src/irreps/sun.py` lines 233-248), and the reshape to `(n - 1, dim, dim)`. -/
noncomputable def ladderMats (f : ℕ → Pat → Pat → Py ℝ) (S : List ℤ) : Py (List (List (List ℝ))) := do
  let Ms ← sToMs S
  let rows ← (List.range (S.length - 1)).mapM fun l => Ms.mapM fun N => Ms.mapM fun M => f l N M
  let d ← dim S
  if ((S.length - 1) * Ms.length * Ms.length : ℕ) = ((S.length - 1 : ℕ) : ℤ) * d * d then pure rows
  else .error .valueError

/-- A nested list of numbers as a square matrix. -/
def toMat (d : ℕ) (rows : List (List ℝ)) : Matrix (Fin d) (Fin d) ℂ :=
  Matrix.of fun i j => (((rows.getD i []).getD j 0 : ℝ) : ℂ)

/-- `Jz_matrices` (`/repo/lie_nn/_src/irreps/sun.py` lines 251-258): the diagonals. -/
def jzDiag (S : List ℤ) : Py (List (List ℚ)) := do
  let Ms ← sToMs S
  pure ((List.range (S.length - 1)).map fun l => Ms.map fun M => (mToZWeight M).getD l 0)

/-- A diagonal as a square matrix. -/
def toDiag (d : ℕ) (z : List ℚ) : Matrix (Fin d) (Fin d) ℂ :=
  Matrix.diagonal fun i => ((z.getD i 0 : ℚ) : ℂ)

end LieNN.SUN

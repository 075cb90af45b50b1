import Verif.Model.SUN
/-!
# The Clebsch-Gordan coefficients of `SU(N)`

Simplifications: exact arithmetic; an array is a function on the indices, where `d₁`, `d₂`, `d₃` are
`dim(S1)`, `dim(S2)`, `dim(S3)`; `nullspace` and `round_to_sqrt_rational` are arguments; a division by
a zero norm, for which `numpy` returns `nan`, is the error `zeroDivision`; the generators `S_to_Ms` are
evaluated completely before the loops.
-/
namespace LieNN.SUN

open Matrix

/-- `f(l, index_to_M(S, i), index_to_M(S, j))` for a ladder function `f`. -/
noncomputable def ladderAt (f : ℕ → Pat → Pat → Py ℝ) (l : ℕ) (S : List ℤ) (i j : ℕ) : Py ℝ := do
  let N ← indexToM S i
  let M ← indexToM S j
  f l N M

/-- The pairs of the loops over two dimensions. -/
def pairs (d₁ d₂ : ℕ) : List (Fin d₁ × Fin d₂) :=
  (List.finRange d₁).flatMap fun i => (List.finRange d₂).map fun j => (i, j)

/-- The triples of the loops of lines 271-273. -/
def triples (d₁ d₂ n : ℕ) : List (Fin d₁ × Fin d₂ × ℕ) :=
  (pairs d₁ d₂).flatMap fun p => (List.range n).map fun l => (p.1, p.2, l)

/-- The entry `A[m1, m2, n1, n2, l]` (`/repo/lie_nn/_src/irreps/sun.py` lines 274-281). -/
noncomputable def constraintEntry {d₁ d₂ : ℕ} (S₁ S₂ : List ℤ) (m₁ : Fin d₁) (m₂ : Fin d₂)
    (q : Fin d₁ × Fin d₂ × ℕ) : Py ℝ := do
  let a ← if q.2.1 = m₂ then ladderAt upperLadder q.2.2 S₁ q.1 m₁ else pure 0
  let b ← if q.1 = m₁ then ladderAt upperLadder q.2.2 S₂ q.2.1 m₂ else pure 0
  pure (a + b)

/-- A two-dimensional array of shape `(d1, d2)` from its entries in order. -/
noncomputable def ofEntries {d₁ d₂ : ℕ} (L : List ℝ) : Matrix (Fin d₁) (Fin d₂) ℝ :=
  Matrix.of fun i j => L.getD (j + d₂ * i) 0

/-- The row of the constraint matrix that belongs to `(n1, n2, l)`, as an array of shape `(d1, d2)`. -/
noncomputable def constraintRow {d₁ d₂ : ℕ} (S₁ S₂ : List ℤ) (q : Fin d₁ × Fin d₂ × ℕ) :
    Py (Matrix (Fin d₁) (Fin d₂) ℝ) := do
  let L ← (pairs d₁ d₂).mapM fun m => constraintEntry S₁ S₂ m.1 m.2 q
  pure (ofEntries L)

/-- `tuple(map(add, W_1, W_2)) != W_eldest` decides whether the component `(m1, m2)` must vanish
(`/repo/lie_nn/_src/irreps/sun.py` lines 289-292). -/
def wrongWeight (S₁ S₂ : List ℤ) (eldest : Pat) (m₁ m₂ : ℕ) : Py Bool := do
  let M₁ ← indexToM S₁ m₁
  let M₂ ← indexToM S₂ m₂
  pure (decide ((mToZWeight M₁).zipWith (· + ·) (mToZWeight M₂) ≠ mToZWeight eldest))

/-- `construct_highest_weight_constraint` (`/repo/lie_nn/_src/irreps/sun.py` lines 261-297): the rows of
the matrix, every row as an array of shape `(d1, d2)`; `rnd` is `round_to_sqrt_rational`, entry by
entry. -/
noncomputable def constraintRows (rnd : ℝ → ℝ) {d₁ d₂ : ℕ} (S₁ S₂ : List ℤ) (eldest : Pat) :
    Py (List (Matrix (Fin d₁) (Fin d₂) ℝ)) := do
  let A ← (triples d₁ d₂ (eldest.length - 1)).mapM fun q => constraintRow S₁ S₂ q
  let B ← (pairs d₁ d₂).mapM fun m => do
    let w ← wrongWeight S₁ S₂ eldest m.1 m.2
    pure (if w then [Matrix.single m.1 m.2 (1 : ℝ)] else [])
  pure ((A ++ B.flatten).map fun R => R.map rnd)

/-- The number of a pair in the order of `reshape(dimS1 * dimS2, -1)`, from the end: the columns are
reversed before and after the call of `nullspace`. -/
def flipIdx {d₁ d₂ : ℕ} (k : Fin (d₁ * d₂)) : Fin d₁ × Fin d₂ := (k.rev.divNat, k.rev.modNat)

/-- The argument `A[:, ::-1]` of `nullspace` (`/repo/lie_nn/_src/irreps/sun.py` line 302). -/
def nullMatrix {d₁ d₂ : ℕ} (rows : List (Matrix (Fin d₁) (Fin d₂) ℝ)) : Matrix (Fin rows.length) (Fin (d₁ * d₂)) ℝ :=
  Matrix.of fun r k => rows.get r (flipIdx k).1 (flipIdx k).2

/-- `clebsch_gordan_eldest` (`/repo/lie_nn/_src/irreps/sun.py` lines 300-304); `null` is `nullspace`,
which returns the list of the rows. -/
noncomputable def eldest (rnd : ℝ → ℝ) (null : ∀ m n : ℕ, Matrix (Fin m) (Fin n) ℝ → List (Fin n → ℝ))
    {d₁ d₂ : ℕ} (S₁ S₂ : List ℤ) (E : Pat) : Py (List (Matrix (Fin d₁) (Fin d₂) ℝ)) := do
  let rows ← constraintRows (d₁ := d₁) (d₂ := d₂) rnd S₁ S₂ E
  pure ((null rows.length (d₁ * d₂) (nullMatrix rows)).map fun v =>
    Matrix.of fun i j => v (finProdFinEquiv (i, j)).rev)

open Classical in
/-- The innermost loop of `search_state` (`/repo/lie_nn/_src/irreps/sun.py` lines 317-319). -/
noncomputable def searchL (Mc Mp : Pat) : List ℕ → Py (Option ℕ)
  | [] => pure none
  | l :: ls => do
    let x ← lowerLadder l Mp Mc
    if x ≠ 0 then pure (some l) else searchL Mc Mp ls

/-- The loop over `Mp` of `search_state` (`/repo/lie_nn/_src/irreps/sun.py` lines 313-319). -/
noncomputable def searchMp (ML : List Pat) (n : ℕ) (Mc : Pat) : List Pat → Py (Option (Pat × ℕ))
  | [] => pure none
  | Mp :: Mps => if Mp ∈ ML then searchMp ML n Mc Mps else do
    match ← searchL Mc Mp (List.range (n - 1)) with
    | some l => pure (some (Mp, l))
    | none => searchMp ML n Mc Mps

/-- The loop over `Mc` of `search_state` (`/repo/lie_nn/_src/irreps/sun.py` lines 312-321). -/
noncomputable def searchMc (ML : List Pat) (n : ℕ) (Ms : List Pat) : List Pat → Py (Pat × Pat × ℕ)
  | [] => .error .valueError
  | Mc :: Mcs => do
    match ← searchMp ML n Mc Ms with
    | some (Mp, l) => pure (Mc, Mp, l)
    | none => searchMc ML n Ms Mcs

/-- `search_state(M_list)` (`/repo/lie_nn/_src/irreps/sun.py` lines 307-321). -/
noncomputable def searchState (ML : List Pat) : Py (Pat × Pat × ℕ) :=
  match ML with
  | [] => .error .indexError
  | [] :: _ => .error .indexError
  | (S₃ :: M) :: ML' => do
    let Ms ← sToMs S₃
    searchMc ((S₃ :: M) :: ML') (S₃ :: M).length Ms ((S₃ :: M) :: ML')

/-- An index of an array of length `d`. -/
def arrIdx (d : ℕ) (i : ℤ) : Py (Fin d) :=
  if h : 0 ≤ i ∧ i < d then .ok ⟨i.toNat, by omega⟩ else .error .indexError

/-- `CG[n1, n2] += x`. -/
def addTo {d₁ d₂ : ℕ} (CG : Matrix (Fin d₁) (Fin d₂) ℝ) (n₁ : Fin d₁) (n₂ : Fin d₂) (x : ℝ) :
    Matrix (Fin d₁) (Fin d₂) ℝ :=
  Matrix.of fun i j => if i = n₁ ∧ j = n₂ then CG i j + x else CG i j

/-- The body of the loops of `construct_lower_cg` (`/repo/lie_nn/_src/irreps/sun.py` lines 342-353). -/
noncomputable def lowerBody {d₁ d₂ d₃ : ℕ} (S₁ S₂ S₃ : List ℤ) (l : ℕ)
    (C : Fin d₁ → Fin d₂ → Fin d₃ → ℝ) (mc mp : Fin d₃) (CG : Matrix (Fin d₁) (Fin d₂) ℝ)
    (q : (Fin d₁ × Fin d₂) × (Fin d₁ × Fin d₂)) : Py (Matrix (Fin d₁) (Fin d₂) ℝ) := do
  let CG ← if q.2.2 = q.1.2 then do
      let a ← ladderAt lowerLadder l S₁ q.2.1 q.1.1
      let u ← ladderAt upperLadder l S₃ mc mp
      pure (addTo CG q.2.1 q.2.2 (C q.1.1 q.1.2 mc * a * u))
    else pure CG
  if q.2.1 = q.1.1 then do
    let a ← ladderAt lowerLadder l S₂ q.2.2 q.1.2
    let u ← ladderAt upperLadder l S₃ mc mp
    pure (addTo CG q.2.1 q.2.2 (C q.1.1 q.1.2 mc * a * u))
  else pure CG

/-- `np.linalg.norm` of an array. -/
noncomputable def frob {d₁ d₂ : ℕ} (CG : Matrix (Fin d₁) (Fin d₂) ℝ) : ℝ :=
  Real.sqrt (∑ i, ∑ j, CG i j ^ 2)

open Classical in
/-- `construct_lower_cg` (`/repo/lie_nn/_src/irreps/sun.py` lines 324-355); `C` is the array
`C[alpha]`. -/
noncomputable def constructLowerCG {d₁ d₂ d₃ : ℕ} (S₁ S₂ S₃ : List ℤ) (Mp Mc : Pat) (l : ℕ)
    (C : Fin d₁ → Fin d₂ → Fin d₃ → ℝ) : Py (Matrix (Fin d₁) (Fin d₂) ℝ) := do
  let mc ← arrIdx d₃ (← mToIndex Mc)
  let mp ← arrIdx d₃ (← mToIndex Mp)
  let loops := (pairs d₁ d₂).flatMap fun m => (pairs d₁ d₂).map fun q => (m, q)
  let CG ← loops.foldlM (lowerBody S₁ S₂ S₃ l C mc mp) 0
  if frob CG = 0 then .error .zeroDivision else pure ((frob CG)⁻¹ • CG)

/-- The `while` loop of `clebsch_gordan_matrix` for one solution
(`/repo/lie_nn/_src/irreps/sun.py` lines 373-377); `fuel` bounds the number of rounds. -/
noncomputable def cgWhile {d₁ d₂ d₃ : ℕ} (S₁ S₂ S₃ : List ℤ) :
    ℕ → (Fin d₁ → Fin d₂ → Fin d₃ → ℝ) → List Pat →
      Option (Py ((Fin d₁ → Fin d₂ → Fin d₃ → ℝ) × List Pat))
  | 0, C, ML => if ML.length ≠ d₃ then none else some (.ok (C, ML))
  | fuel + 1, C, ML =>
    if ML.length ≠ d₃ then
      let step : Py ((Fin d₁ → Fin d₂ → Fin d₃ → ℝ) × List Pat) := do
        let (Mc, Mp, l) ← searchState ML
        let mp ← arrIdx d₃ (← mToIndex Mp)
        let CG ← constructLowerCG S₁ S₂ S₃ Mp Mc l C
        pure (fun i j k => if k = mp then CG i j else C i j k, ML ++ [Mp])
      match step with
      | .error e => some (.error e)
      | .ok (C', ML') => cgWhile S₁ S₂ S₃ fuel C' ML'
    else some (.ok (C, ML))

/-- The loop over the solutions of `clebsch_gordan_matrix`
(`/repo/lie_nn/_src/irreps/sun.py` lines 372-377): `M_list` is shared. -/
noncomputable def cgLoop {d₁ d₂ d₃ : ℕ} (S₁ S₂ S₃ : List ℤ) (fuel : ℕ) :
    List (Fin d₁ → Fin d₂ → Fin d₃ → ℝ) → List Pat → Option (Py (List (Fin d₁ → Fin d₂ → Fin d₃ → ℝ)))
  | [], _ => some (.ok [])
  | C :: Cs, ML =>
    match cgWhile S₁ S₂ S₃ fuel C ML with
    | none => none
    | some (.error e) => some (.error e)
    | some (.ok (C', ML')) =>
      match cgLoop S₁ S₂ S₃ fuel Cs ML' with
      | none => none
      | some (.error e) => some (.error e)
      | some (.ok Cs') => some (.ok (C' :: Cs'))

/-- The array of line 364 for one solution: zeros, and the highest vector in the last column. -/
def initC {d₁ d₂ d₃ : ℕ} (v : Matrix (Fin d₁) (Fin d₂) ℝ) : Fin d₁ → Fin d₂ → Fin d₃ → ℝ :=
  fun i j k => if (k : ℕ) + 1 = d₃ then v i j else 0

/-- `clebsch_gordan_matrix(S1, S2, S3)` (`/repo/lie_nn/_src/irreps/sun.py` lines 358-378), which is
`SUN.clebsch_gordan` (lines 459-462). -/
noncomputable def clebschGordanMatrix (rnd : ℝ → ℝ)
    (null : ∀ m n : ℕ, Matrix (Fin m) (Fin n) ℝ → List (Fin n → ℝ)) (fuel : ℕ) (d₁ d₂ d₃ : ℕ)
    (S₁ S₂ S₃ : List ℤ) : Option (Py (List (Fin d₁ → Fin d₂ → Fin d₃ → ℝ))) :=
  let start : Py (List (Matrix (Fin d₁) (Fin d₂) ℝ) × Pat) := do
    let Ms ← sToMs S₃
    match Ms.getLast? with
    | none => .error .indexError
    | some E => do
      let vs ← eldest rnd null S₁ S₂ E
      pure (vs, E)
  match start with
  | .error e => some (.error e)
  | .ok (vs, E) => cgLoop S₁ S₂ S₃ fuel (vs.map initC) [E]

end LieNN.SUN

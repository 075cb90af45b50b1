import Verif.Model.IrrepsArray
import Verif.Model.PermRepr
import Verif.Model.BasisInter

/-!
# `_reduced_tensor_product_basis` of `/repo/lie_nn/_src/reduced_tensor_product.py`

Simplifications.  The indices `0, ..., m-1` of the product are `Fin m`; a frozenset of indices is a
`Finset (Fin m)`.  The order in which Python iterates over a frozenset of indices is an argument
`ord`: `ord f j` is the `j`-th element of `f`.  `basis_intersection(., ., epsilon, round_fn)` is an
argument `inter`; `Verif.Model.BasisInter` has its model.  Arithmetic is exact.  `none` is a computation
that still runs after `fuel` turns of the `while True` loops.
-/
namespace LieNN.TBasis

open LieNN.PermRepr LieNN.IArr

variable {n h : ℕ} {T : Table n h}

/-- The order of iteration over a frozenset of indices. -/
abbrev SetOrder := (m : ℕ) → (f : Finset (Fin m)) → Fin f.card → Fin m

/-- `basis_intersection` with its keyword arguments (/repo/lie_nn/_src/reduced_tensor_product.py:357). -/
abbrev InterFn := (n₁ n₂ D : ℕ) → Matrix (Fin n₁) (Fin D) ℂ → Matrix (Fin n₂) (Fin D) ℂ →
  Py (List (Vec n₁) × List (Vec n₂))

/-- The multi-index of a flat position, in row-major order. -/
def unravel {m : ℕ} (s : Fin m → ℕ) (j : ℕ) : Fin m → ℕ :=
  fun k => j / (∏ k' ∈ Finset.univ.filter (k < ·), s k') % s k

/-- The flat position of a multi-index, in row-major order. -/
def ravel {m : ℕ} (s p : Fin m → ℕ) : ℕ := flat (List.ofFn p) (List.ofFn s)

/-- `IrrepsArray.reshape` (/repo/lie_nn/_src/reduced_tensor_product.py:72-80) to the leading shape `shape`; `last` is the
last entry of the argument, `none` for `-1`. -/
def reshape {m' m : ℕ} (shape : Fin m → ℕ) (last : Option ℕ) (l : List (Blk T m')) :
    Py (List (Blk T m)) := do
  pyAssert (∀ d ∈ last, d = (l.map Blk.mul).sum)
  let l' ← l.mapM fun b =>
    if (∏ k, b.shape k) * (b.mul * T.dim b.ir) = (∏ k, shape k) * (b.mul * T.dim b.ir) then
      .ok ({ mul := b.mul, ir := b.ir, shape := shape,
             x := fun p u k => b.x (unravel b.shape (ravel shape p)) u k } : Blk T m)
    else .error .valueError
  IArr.mk l'

/-- `np.eye(reduced_rep.dim)` or `np.linalg.inv(reduced_rep.Q).T` with the shape `(dim, dim)`
(/repo/lie_nn/_src/reduced_tensor_product.py:194-197). -/
noncomputable def initMatrix (r : ReducedRep T) : Py (Matrix (Fin r.dim) (Fin r.dim) ℂ) :=
  match r.Q with
  | none => .ok 1
  | some Q => do
    let iQ ← Q.invP
    let M ← iQ.view r.dim r.dim
    return M.transpose

/-- Entry of a matrix at natural numbers. -/
def entry {d e : ℕ} (M : Matrix (Fin d) (Fin e) ℂ) (p c : ℕ) : ℂ :=
  if hh : p < d ∧ c < e then M ⟨p, hh.1⟩ ⟨c, hh.2⟩ else 0

/-- The leading shape of `get_initial_basis` (/repo/lie_nn/_src/reduced_tensor_product.py:196). -/
def initShape {m : ℕ} (i : Fin m) (d : ℕ) : Fin m → ℕ := fun k => if k = i then d else 1

/-- The loop of `get_initial_basis` (/repo/lie_nn/_src/reduced_tensor_product.py:198-206). -/
def initBlocks {m d : ℕ} (i : Fin m) (M : Matrix (Fin d) (Fin d) ℂ) :
    (cursor : ℕ) → List (MulIr T) → List (Blk T m)
  | _, [] => []
  | cursor, mi :: l =>
    { mul := mi.mul, ir := mi.ir, shape := initShape i d,
      x := fun p u k => entry M (p i) (cursor + (u * T.dim mi.ir + k)) } ::
    initBlocks i M (cursor + mi.mul * T.dim mi.ir) l

/-- `bases` before the loop (/repo/lie_nn/_src/reduced_tensor_product.py:208-214). -/
noncomputable def initBases {m : ℕ} (irs : Fin m → ReducedRep T) :
    Py (List (Finset (Fin m) × List (Blk T m))) :=
  (List.finRange m).mapM fun i => do
    let M ← initMatrix (irs i)
    let l ← IArr.mk (initBlocks i M 0 (irs i).irreps)
    return ({i}, l)

/-- `tuple(dims[i] for i in sub_f0)` (/repo/lie_nn/_src/reduced_tensor_product.py:386). -/
def subDims (ord : SetOrder) {m : ℕ} (f : Finset (Fin m)) (dims : Fin m → ℕ) : List ℕ :=
  List.ofFn fun j => dims (ord m f j)

/-- `tuple(dims[i] if i in f else 1 for i in range(len(dims)))`
(/repo/lie_nn/_src/reduced_tensor_product.py:255 and 396). -/
def padShape {m : ℕ} (f : Finset (Fin m)) (dims : Fin m → ℕ) : Fin m → ℕ :=
  fun k => if k ∈ f then dims k else 1

/-- `reduce_subgroup_permutation(..., return_dim=True)` (/repo/lie_nn/_src/reduced_tensor_product.py:385-393). -/
noncomputable def subgroupDim (ord : SetOrder) {m : ℕ} (f : Finset (Fin m)) (G : Finset SP)
    (dims : Fin m → ℕ) : Py ℕ :=
  let sub := subrepr (f.image Fin.val) G
  if sub.card = 1 then .ok (subDims ord f dims).prod
  else do
    let b ← base sub (subDims ord f dims)
    return b.card

/-- `reduce_subgroup_permutation(...)` (/repo/lie_nn/_src/reduced_tensor_product.py:385-397): the shape of the last axes and
the rows, as functions of the flat index.  `np.reshape(x, (-1,) + shape)` raises `ValueError` when the
product of `shape` is zero. -/
noncomputable def subgroupBasis (ord : SetOrder) {m : ℕ} (f : Finset (Fin m)) (G : Finset SP)
    (dims : Fin m → ℕ) : Py (List ℕ × List (ℕ → ℝ)) :=
  let sub := subrepr (f.image Fin.val) G
  let sd := subDims ord f dims
  if sub.card = 1 then
    .ok (sd, (List.range sd.prod).map fun i j => if j = i then 1 else 0)
  else do
    let b ← base sub sd
    let Q ← matrix b sd
    if (∏ k, padShape f dims k) = 0 then .error .valueError
    else return (List.ofFn (padShape f dims), Q)

/-- `R` (/repo/lie_nn/_src/reduced_tensor_product.py:353-354): `IndexError` for an irrep of dimension zero, `ValueError`
for the multiplicity zero. -/
def rotMatrix {m : ℕ} (b : Blk T m) : Py (Matrix (Fin b.mul) (Fin (∏ k, b.shape k)) ℂ) :=
  if h0 : 0 < T.dim b.ir then
    if b.mul = 0 then .error .valueError
    else .ok fun u j => b.x (unravel b.shape j) u ⟨0, h0⟩
  else .error .indexError

open Classical in
/-- `perm_opt` (/repo/lie_nn/_src/reduced_tensor_product.py:356): the rows that do not vanish on all the columns where `R`
is not zero. -/
noncomputable def permOpt {mul D : ℕ} (R : Matrix (Fin mul) (Fin D) ℂ) (perm : List (ℕ → ℝ)) :
    List (ℕ → ℝ) :=
  perm.filter fun q => ∃ j : Fin D, (∃ u, R u j ≠ 0) ∧ q j ≠ 0

/-- A list of rows as an array with `D` columns. -/
def rowArray (D : ℕ) (l : List (ℕ → ℝ)) : Matrix (Fin l.length) (Fin D) ℂ := fun i j => (l[i] j : ℂ)

/-- `np.einsum("vu,...ui->...vi", P, rot_basis)` (/repo/lie_nn/_src/reduced_tensor_product.py:360-361). -/
noncomputable def project {m : ℕ} (b : Blk T m) (P : List (Vec b.mul)) : Blk T m where
  mul := P.length
  ir := b.ir
  shape := b.shape
  x := fun p v k => ∑ u, P[v] u * b.x p u k

/-- The body of the loop of `constrain_rotation_basis_by_permutation_basis`
(/repo/lie_nn/_src/reduced_tensor_product.py:351-361). -/
noncomputable def constrainBlk (inter : InterFn) {m : ℕ} (perm : List (ℕ → ℝ)) (b : Blk T m) :
    Py (List (Blk T m)) := do
  let R ← rotMatrix b
  let P ← inter _ _ _ R (rowArray _ (permOpt R perm))
  return if P.1.length > 0 then [project b P.1] else []

/-- `constrain_rotation_basis_by_permutation_basis` (/repo/lie_nn/_src/reduced_tensor_product.py:328-363);
`np.reshape(permutation_basis, (0, -1))` raises `ValueError`. -/
noncomputable def constrain (inter : InterFn) {m : ℕ} (l : List (Blk T m))
    (perm : List ℕ × List (ℕ → ℝ)) : Py (List (Blk T m)) := do
  pyAssert (∀ b ∈ l, List.ofFn b.shape = perm.1)
  if perm.2.length = 0 then .error .valueError
  let new ← l.mapM (constrainBlk inter perm.2)
  IArr.mk new.flatten

/-- The case of two bases (/repo/lie_nn/_src/reduced_tensor_product.py:222-233). -/
noncomputable def finish [LinearOrder T.Ir] (inter : InterFn) (ord : SetOrder) {m : ℕ}
    (G : Finset SP) (dims : Fin m → ℕ) (fa : Finset (Fin m)) (a : List (Blk T m))
    (fb : Finset (Fin m)) (b : List (Blk T m)) : Py (List (Blk T m)) := do
  let f := fa ∪ fb
  let ab ← reduceBasisProduct a b
  if (subrepr (f.image Fin.val) G).card = 1 then sortSimp ab
  else do
    let p ← subgroupBasis ord f G dims
    let ab ← constrain inter ab p
    sortSimp ab

/-- The pairs `i < j` in the order of the two loops (/repo/lie_nn/_src/reduced_tensor_product.py:239-240). -/
def pairs (len : ℕ) : List (ℕ × ℕ) :=
  (List.range len).flatMap fun i => (List.range' (i + 1) (len - (i + 1))).map fun j => (i, j)

/-- The greedy choice (/repo/lie_nn/_src/reduced_tensor_product.py:235-247): `min_p` and `best`. -/
noncomputable def greedy (ord : SetOrder) {m : ℕ} (G : Finset SP) (dims : Fin m → ℕ)
    (fs : List (Finset (Fin m))) : Py (Option (ℕ × ℕ × ℕ × Finset (Fin m))) :=
  (pairs fs.length).foldlM (fun best ij =>
    match fs[ij.1]?, fs[ij.2]? with
    | some fa, some fb => do
      let p ← subgroupDim ord (fa ∪ fb) G dims
      match best with
      | none => pure (some (p, ij.1, ij.2, fa ∪ fb))
      | some r => pure (if p < r.1 then some (p, ij.1, ij.2, fa ∪ fb) else best)
    | _, _ => .error .indexError) none

/-- The `while True` loop (/repo/lie_nn/_src/reduced_tensor_product.py:216-256).  `i, j, f = None` raises `TypeError`. -/
noncomputable def loop [LinearOrder T.Ir] (inter : InterFn) (ord : SetOrder) : (fuel : ℕ) → {m : ℕ} →
    (irs : Fin m → ReducedRep T) → (G : Finset SP) →
    List (Finset (Fin m) × List (Blk T m)) → Option (Py (List (Blk T m)))
  | 0, _, _, _, _ => none
  | fuel + 1, m, irs, G, bases =>
    let dims : Fin m → ℕ := fun i => (irs i).dim
    match bases with
    | [(f, b)] => some (do
      pyAssert (f = Finset.univ)
      sortSimp b)
    | [(fa, a), (fb, b)] => some (finish inter ord G dims fa a fb b)
    | bases =>
      match greedy ord G dims (bases.map Prod.fst) with
      | .error e => some (.error e)
      | .ok none => some (.error .typeError)
      | .ok (some (_, i, j, f)) =>
        match initBases fun k => irs (ord m f k) with
        | .error e => some (.error e)
        | .ok sub =>
          match loop inter ord fuel (fun k => irs (ord m f k)) (subrepr (f.image Fin.val) G) sub with
          | none => none
          | some (.error e) => some (.error e)
          | some (.ok ab) =>
            match reshape (padShape f dims) none ab with
            | .error e => some (.error e)
            | .ok ab => loop inter ord fuel irs G ((f, ab) :: (bases.eraseIdx j).eraseIdx i)

/-- `_reduced_tensor_product_basis` (/repo/lie_nn/_src/reduced_tensor_product.py:186-256). -/
noncomputable def reducedBasis [LinearOrder T.Ir] (inter : InterFn) (ord : SetOrder) (fuel : ℕ) {m : ℕ}
    (irs : Fin m → ReducedRep T) (G : Finset SP) : Option (Py (List (Blk T m))) :=
  match initBases irs with
  | .error e => some (.error e)
  | .ok bases => loop inter ord fuel irs G bases

end LieNN.TBasis

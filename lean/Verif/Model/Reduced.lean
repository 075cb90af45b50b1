import Verif.Model.Rep
/-!
# `MulIrrep`, `ReducedRep` and the overloads of `tensor_product`

`/repo/lie_nn/_src/reduced_rep.py` and `/repo/lie_nn/_src/tensor_product.py`.

Simplifications.  A subclass of `TabulatedIrrep` is a `Table`: a type of labels, the arrays of every
label, the list `ir1 * ir2` and the arrays `clebsch_gordan(ir1, ir2, ir3)`; all labels share the
numbers `n`, `h` of generators.  A stack of generators of shape `(p, d, d)` is a list of matrices
with run-time shape.  Multiplicities are natural numbers (`from_irreps` asserts `mul >= 0`).  The
loops that fill the array `Q` slice by slice are written as recursions over the list of blocks: the
slices are disjoint and every entry outside of them keeps the value `0`.
-/
namespace LieNN

open Matrix

namespace SMat

/-- `A @ B`: `ValueError` when the shapes do not match. -/
def mulP (A B : SMat) : Py SMat :=
  if h : A.cols = B.rows then
    .ok ⟨A.rows, B.cols, A.mat * B.mat.submatrix (Fin.cast h) id⟩
  else .error .valueError

open Classical in
/-- `np.linalg.inv(A)`: `LinAlgError` (a `ValueError`) unless `A` is square and invertible. -/
noncomputable def invP (A : SMat) : Py SMat :=
  if h : A.rows = A.cols then
    if IsUnit (A.mat.submatrix id (Fin.cast h)) then
      .ok ⟨A.rows, A.rows, (A.mat.submatrix id (Fin.cast h))⁻¹⟩
    else .error .valueError
  else .error .valueError

/-- The array as one of the shape `(p, q)`: `ValueError` if this is not its shape. -/
def view (A : SMat) (p q : ℕ) : Py (Matrix (Fin p) (Fin q) ℂ) :=
  if h : A.rows = p ∧ A.cols = q then .ok (A.mat.submatrix (Fin.cast h.1.symm) (Fin.cast h.2.symm))
  else .error .valueError

end SMat

/-- A family of tabulated irreps (`/repo/lie_nn/_src/irrep.py` lines 9-43). -/
structure Table (n h : ℕ) where
  /-- the labels -/
  Ir : Type
  /-- `dim` -/
  dim : Ir → ℕ
  /-- `algebra`, `continuous_generators`, `discrete_generators` -/
  rep : (i : Ir) → Rep n h (dim i)
  /-- `ir1 * ir2` -/
  prod : Ir → Ir → List Ir
  /-- `clebsch_gordan(ir1, ir2, ir3)`, of shape `(sol, ir1, ir2, ir3)` -/
  cg : (i j k : Ir) → List (Fin (dim i) → Fin (dim j) → Fin (dim k) → ℂ)

/-- A stack of `p` square matrices for every label. -/
abbrev Table.Gens {n h : ℕ} (T : Table n h) (p : ℕ) : Type :=
  (i : T.Ir) → Fin p → Matrix (Fin (T.dim i)) (Fin (T.dim i)) ℂ

/-- `MulIrrep` (`/repo/lie_nn/_src/reduced_rep.py` lines 11-14) of a tabulated irrep. -/
structure MulIr {n h : ℕ} (T : Table n h) where
  /-- multiplicity -/
  mul : ℕ
  /-- `rep` -/
  ir : T.Ir

variable {n h : ℕ} {T : Table n h}

namespace MulIr

/-- `MulIrrep.dim` (`/repo/lie_nn/_src/reduced_rep.py` lines 24-26). -/
abbrev dim (m : MulIr T) : ℕ := m.mul * T.dim m.ir

/-- `MulIrrep.continuous_generators` and `discrete_generators`
(`/repo/lie_nn/_src/reduced_rep.py` lines 31-41), for the stack `Y` of generators of the irreps. -/
def gens (m : MulIr T) {p : ℕ} (Y : T.Gens p) : Py (List SMat) :=
  if p = 0 then .ok []
  else (List.finRange p).mapM fun a =>
    directSumMats (List.replicate m.mul ⟨T.dim m.ir, T.dim m.ir, Y m.ir a⟩)

/-- `mul_ir.continuous_generators()[i]`
(`/repo/lie_nn/_src/reduced_rep.py` lines 115 and 127). -/
def genI (m : MulIr T) {p : ℕ} (Y : T.Gens p) (i : ℕ) : Py SMat := do
  let L ← m.gens Y
  match L[i]? with
  | some x => pure x
  | none => .error .indexError

end MulIr

/-- `ReducedRep.dim` (`/repo/lie_nn/_src/reduced_rep.py` lines 105-107), on the list of blocks. -/
@[reducible] def dimL : List (MulIr T) → ℕ
  | [] => 0
  | m :: l => m.dim + dimL l

/-- `ReducedRep` (`/repo/lie_nn/_src/reduced_rep.py` lines 50-64): `_A`, `irreps`, `Q`. -/
structure ReducedRep (T : Table n h) where
  /-- structure constants -/
  A : Fin n → Fin n → Fin n → ℂ
  /-- the blocks -/
  irreps : List (MulIr T)
  /-- the change of basis -/
  Q : Option SMat

namespace ReducedRep

/-- `ReducedRep.dim` (`/repo/lie_nn/_src/reduced_rep.py` lines 105-107). -/
abbrev dim (r : ReducedRep T) : ℕ := dimL r.irreps

/-- `direct_sum(*[mul_ir.continuous_generators()[i] for mul_ir in self.irreps])`
(`/repo/lie_nn/_src/reduced_rep.py` lines 115 and 127). -/
def sumAt (l : List (MulIr T)) {p : ℕ} (Y : T.Gens p) (i : ℕ) : Py SMat := do
  let xs ← l.mapM fun m => m.genI Y i
  directSumMats xs

/-- The loop body of `continuous_generators` and `discrete_generators`
(`/repo/lie_nn/_src/reduced_rep.py` lines 115-117 and 127-129). -/
noncomputable def genAt (r : ReducedRep T) {p : ℕ} (Y : T.Gens p) (i : ℕ) : Py SMat := do
  let X ← sumAt r.irreps Y i
  match r.Q with
  | none => pure X
  | some Q => do
    let QX ← Q.mulP X
    let iQ ← Q.invP
    QX.mulP iQ

/-- `ReducedRep.continuous_generators` (`/repo/lie_nn/_src/reduced_rep.py` lines 112-119);
`np.stack([])` raises `ValueError`. -/
noncomputable def continuousGenerators (r : ReducedRep T) : Py (List SMat) := do
  let Xs ← (List.range n).mapM fun i => r.genAt (fun ir => (T.rep ir).X) i
  match Xs with
  | [] => .error .valueError
  | Xs => pure Xs

/-- `ReducedRep.discrete_generators` (`/repo/lie_nn/_src/reduced_rep.py` lines 121-131);
`self.irreps[0]` raises `IndexError` when there is no block. -/
noncomputable def discreteGenerators (r : ReducedRep T) : Py (List SMat) :=
  match r.irreps with
  | [] => .error .indexError
  | m :: _ => do
    let H₀ ← m.gens fun ir => (T.rep ir).H
    if H₀.length = 0 then pure []
    else (List.range H₀.length).mapM fun i => r.genAt (fun ir => (T.rep ir).H) i

open Classical in
/-- `ReducedRep.from_irreps` (`/repo/lie_nn/_src/reduced_rep.py` lines 74-103) on a non-empty list
of `MulIrrep`s.  On the empty list Python stores `A = None`; this object is not modelled. -/
noncomputable def fromIrreps (m : MulIr T) (l : List (MulIr T)) (Q : Option SMat) :
    Py (ReducedRep T) := do
  pyAssert (∀ m' ∈ l, AllCloseA (T.rep m.ir).A (T.rep m'.ir).A)
  pyAssert (∀ q ∈ Q, q.rows = dimL (m :: l) ∧ q.cols = dimL (m :: l))
  pure ⟨(T.rep m.ir).A, m :: l, Q⟩

end ReducedRep

/-! ## `tensor_product` -/

/-- `MulIrrep(mul=CG.shape[0], rep=ir_out)` for every `ir_out`
(`/repo/lie_nn/_src/tensor_product.py` lines 31-37). -/
def cgBlocks (i j : T.Ir) (outs : List T.Ir) : List (MulIr T) :=
  outs.map fun k => ⟨(T.cg i j k).length, k⟩

/-- `np.concatenate([A, B], axis=0)` -/
def vcat {a b c : ℕ} (A : Matrix (Fin a) (Fin c) ℂ) (B : Matrix (Fin b) (Fin c) ℂ) :
    Matrix (Fin (a + b)) (Fin c) ℂ :=
  fun r j => Fin.addCases (fun r => A r j) (fun r => B r j) r

/-- `np.concatenate([A, B], axis=-1)` -/
def hcat {a b c : ℕ} (A : Matrix (Fin c) (Fin a) ℂ) (B : Matrix (Fin c) (Fin b) ℂ) :
    Matrix (Fin c) (Fin (a + b)) ℂ :=
  fun i j => Fin.addCases (fun j => A i j) (fun j => B i j) j

/-- `CG` with axes `(sol, ir3, ir1, ir2)`, reshaped to `(sol * ir3, ir1 * ir2)`
(`/repo/lie_nn/_src/tensor_product.py` lines 33-35). -/
def cgBlock {d₁ d₂ d₃ : ℕ} (L : List (Fin d₁ → Fin d₂ → Fin d₃ → ℂ)) :
    Matrix (Fin (L.length * d₃)) (Fin (d₁ * d₂)) ℂ :=
  fun r c => L.get r.divNat c.divNat c.modNat r.modNat

/-- The concatenation along axis 0 of the arrays `CG`
(`/repo/lie_nn/_src/tensor_product.py` lines 32-38). -/
def cgRows (i j : T.Ir) : (outs : List T.Ir) →
    Matrix (Fin (dimL (cgBlocks i j outs))) (Fin (T.dim i * T.dim j)) ℂ
  | [] => fun r _ => Fin.elim0 r
  | k :: outs => vcat (cgBlock (T.cg i j k)) (cgRows i j outs)

open Classical in
/-- `tensor_product(TabulatedIrrep, TabulatedIrrep)`
(`/repo/lie_nn/_src/tensor_product.py` lines 27-40); `np.concatenate([])` raises `ValueError`. -/
noncomputable def tpTab (i j : T.Ir) : Py (ReducedRep T) := do
  pyAssert (AllCloseA (T.rep i).A (T.rep j).A)
  match T.prod i j with
  | [] => .error .valueError
  | k :: ks => do
    let Q ← SMat.invP ⟨_, _, cgRows i j (k :: ks)⟩
    pure ⟨(T.rep i).A, cgBlocks i j (k :: ks), some Q⟩

/-- `np.einsum("ijsk,ur,vt->uivjrtsk", q, np.eye(m1), np.eye(m2))` reshaped to a matrix
(`/repo/lie_nn/_src/tensor_product.py` lines 55-62). -/
def liftBlock (m₁ m₂ : ℕ) {d₁ d₂ mul d : ℕ} (q : Matrix (Fin (d₁ * d₂)) (Fin (mul * d)) ℂ) :
    Matrix (Fin ((m₁ * d₁) * (m₂ * d₂))) (Fin ((m₁ * m₂ * mul) * d)) ℂ :=
  fun r c =>
    q (finProdFinEquiv (r.divNat.modNat, r.modNat.modNat))
        (finProdFinEquiv (c.divNat.modNat, c.modNat)) *
      (1 : Matrix (Fin m₁) (Fin m₁) ℂ) r.divNat.divNat c.divNat.divNat.divNat *
      (1 : Matrix (Fin m₂) (Fin m₂) ℂ) r.modNat.divNat c.divNat.divNat.modNat

/-- `MulIrrep(mul=m1 * m2 * mul_ir.mul, rep=mul_ir.rep)`
(`/repo/lie_nn/_src/tensor_product.py` line 54). -/
abbrev MulIr.scale (m₁ m₂ : ℕ) (m : MulIr T) : MulIr T := ⟨m₁ * m₂ * m.mul, m.ir⟩

/-- The loop over the blocks of `tp_irreps` and the concatenation along the last axis
(`/repo/lie_nn/_src/tensor_product.py` lines 51-65): the recursion peels the slice
`Q[:, s : s + mul_ir.dim]` off the columns that are left. -/
def liftCols (m₁ m₂ : ℕ) {d₁ d₂ : ℕ} : (l : List (MulIr T)) →
    Matrix (Fin (d₁ * d₂)) (Fin (dimL l)) ℂ →
    Matrix (Fin ((m₁ * d₁) * (m₂ * d₂))) (Fin (dimL (l.map (MulIr.scale m₁ m₂)))) ℂ
  | [], _ => fun _ c => Fin.elim0 c
  | m :: l, q => hcat
      (liftBlock m₁ m₂ (mul := m.mul) (d := T.dim m.ir) (q.submatrix id (Fin.castAdd (dimL l))))
      (liftCols m₁ m₂ l (q.submatrix id (Fin.natAdd m.dim)))

open Classical in
/-- `tensor_product(MulIrrep, MulIrrep)` (`/repo/lie_nn/_src/tensor_product.py` lines 43-66). -/
noncomputable def tpMul (a b : MulIr T) : Py (ReducedRep T) := do
  pyAssert (AllCloseA (T.rep a.ir).A (T.rep b.ir).A)
  let tp ← tpTab a.ir b.ir
  match tp.Q with
  | none => .error .typeError
  | some Q => do
    let q ← Q.view (T.dim a.ir * T.dim b.ir) (dimL tp.irreps)
    pure ⟨(T.rep a.ir).A, tp.irreps.map (MulIr.scale a.mul b.mul),
      some ⟨_, _, liftCols a.mul b.mul tp.irreps q⟩⟩

/-- Row-major index of shape `(c, a + b)`, split according to the block of the second factor. -/
def eIn (c a b : ℕ) : Fin (c * (a + b)) ≃ Fin (c * a + c * b) :=
  finProdFinEquiv.symm.trans <| ((Equiv.refl _).prodCongr finSumFinEquiv.symm).trans <|
    (Equiv.prodSumDistrib _ _ _).trans <|
      (finProdFinEquiv.sumCongr finProdFinEquiv).trans finSumFinEquiv

/-- Row-major index of shape `(a + b, c)`, split according to the block of the first factor. -/
def eOut (a b c : ℕ) : Fin ((a + b) * c) ≃ Fin (a * c + b * c) :=
  finProdFinEquiv.symm.trans <| (finSumFinEquiv.symm.prodCongr (Equiv.refl _)).trans <|
    (Equiv.sumProdDistrib _ _ _).trans <|
      (finProdFinEquiv.sumCongr finProdFinEquiv).trans finSumFinEquiv

/-- The loop over `rep2.irreps` (`/repo/lie_nn/_src/tensor_product.py` lines 79-85), for one
`mulirrep1`: the new blocks, and the rows `i : i + mulirrep1.dim` of the array `Q`, in the columns
`k : k + ...` that this loop fills. -/
noncomputable def tpInner (a : MulIr T) : (l : List (MulIr T)) →
    Py (List (MulIr T) × (c : ℕ) × Matrix (Fin (a.dim * dimL l)) (Fin c) ℂ)
  | [] => pure ([], ⟨0, fun _ c => Fin.elim0 c⟩)
  | b :: l => do
    let r ← tpMul a b
    match r.Q with
    | none => .error .typeError
    | some Q => do
      let q ← Q.view (a.dim * b.dim) r.dim
      let (out, ⟨c, M⟩) ← tpInner a l
      pure (r.irreps ++ out, ⟨r.dim + c, (dsum q M).submatrix (eIn a.dim b.dim (dimL l)) id⟩)

/-- The loop over `rep1.irreps` (`/repo/lie_nn/_src/tensor_product.py` lines 77-86). -/
noncomputable def tpOuter (l₂ : List (MulIr T)) : (l : List (MulIr T)) →
    Py (List (MulIr T) × (c : ℕ) × Matrix (Fin (dimL l * dimL l₂)) (Fin c) ℂ)
  | [] => pure ([], ⟨0, fun _ c => Fin.elim0 c⟩)
  | a :: l => do
    let (out₁, ⟨c₁, M₁⟩) ← tpInner a l₂
    let (out₂, ⟨c₂, M₂⟩) ← tpOuter l₂ l
    pure (out₁ ++ out₂,
      ⟨c₁ + c₂, (dsum M₁ M₂).submatrix (eOut a.dim (dimL l) (dimL l₂)) id⟩)

/-- `np.eye(rep.dim) if rep.Q is None else rep.Q`
(`/repo/lie_nn/_src/tensor_product.py` lines 71-72), as an array of shape `(dim, dim)`
(otherwise the `reshape` of line 73 raises `ValueError`). -/
noncomputable def ReducedRep.q (r : ReducedRep T) : Py (Matrix (Fin r.dim) (Fin r.dim) ℂ) :=
  match r.Q with
  | none => pure 1
  | some Q => Q.view r.dim r.dim

/-- `tensor_product(ReducedRep, ReducedRep)` up to the product `Q = Q_tp @ Q`
(`/repo/lie_nn/_src/tensor_product.py` lines 69-91). -/
noncomputable def tpRedRaw (r₁ r₂ : ReducedRep T) :
    Py (List (MulIr T) × Matrix (Fin (r₁.dim * r₂.dim)) (Fin (r₁.dim * r₂.dim)) ℂ) := do
  let q₁ ← r₁.q
  let q₂ ← r₂.q
  let (out, ⟨c, M⟩) ← tpOuter r₂.irreps r₁.irreps
  if hc : r₁.dim * r₂.dim = c then
    pure (out, kron q₁ q₂ * M.submatrix id (Fin.cast hc))
  else .error .assertionError

/-- `np.allclose(M, N)` with the default tolerances. -/
def AllCloseM {p q : ℕ} (M N : Matrix (Fin p) (Fin q) ℂ) : Prop :=
  ∀ i j, IsClose (1 / 10 ^ 8) (1 / 10 ^ 5) (M i j) (N i j)

open Classical in
/-- Dropping of a negligible imaginary part and of a matrix close to the identity
(`/repo/lie_nn/_src/tensor_product.py` lines 93-96). -/
noncomputable def roundQ {p : ℕ} (Q : Matrix (Fin p) (Fin p) ℂ) : Option SMat :=
  let Q' : Matrix (Fin p) (Fin p) ℂ :=
    if AllCloseM (Q.map fun z => (z.im : ℂ)) 0 then Q.map fun z => (z.re : ℂ) else Q
  if AllCloseM Q' 1 then none else some ⟨p, p, Q'⟩

/-- `tensor_product(ReducedRep, ReducedRep)` (`/repo/lie_nn/_src/tensor_product.py` lines 69-97). -/
noncomputable def tpRed (r₁ r₂ : ReducedRep T) : Py (ReducedRep T) := do
  let (out, Q) ← tpRedRaw r₁ r₂
  pure ⟨r₁.A, out, roundQ Q⟩

/-- `ReducedRep(A=mulirrep.A, irreps=(mulirrep,), Q=None)`
(`/repo/lie_nn/_src/tensor_product.py` lines 112 and 117). -/
def MulIr.toReduced (m : MulIr T) : ReducedRep T := ⟨(T.rep m.ir).A, [m], none⟩

/-- `tensor_product(MulIrrep, TabulatedIrrep)`
(`/repo/lie_nn/_src/tensor_product.py` lines 100-102). -/
noncomputable def tpMulTab (a : MulIr T) (j : T.Ir) : Py (ReducedRep T) := tpMul a ⟨1, j⟩

/-- `tensor_product(TabulatedIrrep, MulIrrep)`
(`/repo/lie_nn/_src/tensor_product.py` lines 105-107). -/
noncomputable def tpTabMul (i : T.Ir) (b : MulIr T) : Py (ReducedRep T) := tpMul ⟨1, i⟩ b

/-- `tensor_product(MulIrrep, ReducedRep)`
(`/repo/lie_nn/_src/tensor_product.py` lines 110-112). -/
noncomputable def tpMulRed (a : MulIr T) (r : ReducedRep T) : Py (ReducedRep T) :=
  tpRed a.toReduced r

/-- `tensor_product(ReducedRep, MulIrrep)`
(`/repo/lie_nn/_src/tensor_product.py` lines 115-117).  The arguments are passed on in the order
`(MulIrrep, ReducedRep)`. -/
noncomputable def tpRedMul (r : ReducedRep T) (b : MulIr T) : Py (ReducedRep T) :=
  tpRed b.toReduced r

/-- `tensor_product(ReducedRep, TabulatedIrrep)`
(`/repo/lie_nn/_src/tensor_product.py` lines 120-122). -/
noncomputable def tpRedTab (r : ReducedRep T) (j : T.Ir) : Py (ReducedRep T) :=
  tpRedMul r ⟨1, j⟩

/-- `tensor_product(TabulatedIrrep, ReducedRep)`
(`/repo/lie_nn/_src/tensor_product.py` lines 125-127). -/
noncomputable def tpTabRed (i : T.Ir) (r : ReducedRep T) : Py (ReducedRep T) :=
  tpMulRed ⟨1, i⟩ r

end LieNN

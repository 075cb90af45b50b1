import Verif.Model.Jax
import Verif.Model.Reduced
/-!
# The numpy dtypes of the arrays of a representation

The other models treat all entries as complex numbers.  Here every array carries its dtype
(`Jax.Dtype`: `int`, `float`, `complex`; the widths of the types are not distinguished) and a slice
assignment into an allocated array converts to the dtype of that array: numpy drops the imaginary
part (with a warning) when complex values are written into a float array.
-/
namespace LieNN.Dt

open Matrix Jax

variable {n h d n₁ n₂ h₁ h₂ d₁ d₂ d' : ℕ}

/-- `np.result_type` of two arrays. -/
def promote : Dtype → Dtype → Dtype
  | .complex, _ => .complex
  | _, .complex => .complex
  | .float, _ => .float
  | _, .float => .float
  | .int, .int => .int

/-- The dtype of `np.linalg.inv(Q)` and `np.linalg.pinv(Q)`: integers become floats. -/
def invType : Dtype → Dtype
  | .complex => .complex
  | _ => .float

/-- `_get_dtype(*args)` (`/repo/lie_nn/_src/group_product.py` lines 13-17): the sum starts with the
float `0.0`. -/
def getDtype (args : List Dtype) : Dtype := args.foldl promote .float

/-- The value that is stored by an assignment to an entry of an array of the given dtype. -/
noncomputable def store : Dtype → ℂ → ℂ
  | .complex, z => z
  | .float, z => (z.re : ℂ)
  | .int, z => if 0 ≤ z.re then ((⌊z.re⌋ : ℤ) : ℂ) else ((⌈z.re⌉ : ℤ) : ℂ)

/-- Assignment of a matrix. -/
noncomputable def storeM {p q : ℕ} (t : Dtype) (M : Matrix (Fin p) (Fin q) ℂ) :
    Matrix (Fin p) (Fin q) ℂ := fun i j => store t (M i j)

/-- A `GenericRep` (`/repo/lie_nn/_src/rep.py` lines 90-103) with the dtypes of its arrays. -/
structure TRep (n h d : ℕ) where
  /-- the arrays -/
  rep : Rep n h d
  /-- `A.dtype` -/
  tA : Dtype
  /-- `X.dtype` -/
  tX : Dtype
  /-- `H.dtype` -/
  tH : Dtype

/-- `GenericRep.create_trivial` (`/repo/lie_nn/_src/rep.py` lines 127-132): `np.zeros`, `np.ones`. -/
def createTrivial (r : TRep n h d) : TRep n h 1 := ⟨r.rep.createTrivial, r.tA, .float, .float⟩

/-- `change_basis(rep, Q)` (`/repo/lie_nn/_src/change_basis.py` lines 9-27), `Q` of dtype `t`. -/
def changeBasis (r : TRep n h d) (t : Dtype) (Q : Matrix (Fin d') (Fin d) ℂ)
    (iQ : Matrix (Fin d) (Fin d') ℂ) : TRep n h d' :=
  ⟨r.rep.changeBasis Q iQ, r.tA, promote (promote t r.tX) (invType t),
    promote (promote t r.tH) (invType t)⟩

/-- `change_algebra(rep, Q)` (`/repo/lie_nn/_src/change_algebra.py` lines 6-23), `Q` of dtype `t`. -/
def changeAlgebra (r : TRep n h d) (t : Dtype) (Q : Matrix (Fin n₁) (Fin n) ℂ)
    (iQ : Matrix (Fin n) (Fin n₁) ℂ) : TRep n₁ h d :=
  ⟨r.rep.changeAlgebra Q iQ, promote (promote t r.tA) (invType t), promote t r.tX, r.tH⟩

/-- `conjugate(rep)` (`/repo/lie_nn/_src/conjugate.py` lines 9-15). -/
def conjugate (r : TRep n h d) : TRep n h d := ⟨r.rep.conjugate, r.tA, r.tX, r.tH⟩

/-- `direct_sum(rep1, rep2)` after its guards (`/repo/lie_nn/_src/direct_sum.py` lines 12-16): the
output array of `util.direct_sum` is always `complex128` (`/repo/lie_nn/_src/util.py` lines
206-208). -/
noncomputable def directSum (r₁ : TRep n h d₁) (r₂ : TRep n h d₂) : TRep n h (d₁ + d₂) :=
  ⟨⟨r₁.rep.A, fun a => dsum (storeM .complex (r₁.rep.X a)) (storeM .complex (r₂.rep.X a)),
      fun a => dsum (storeM .complex (r₁.rep.H a)) (storeM .complex (r₂.rep.H a))⟩,
    r₁.tA, .complex, .complex⟩

/-- `tensor_product(rep1, rep2)` after its guards
(`/repo/lie_nn/_src/tensor_product.py` lines 14-24); `np.eye` is a float array. -/
def tensorProduct (r₁ : TRep n h d₁) (r₂ : TRep n h d₂) : TRep n h (d₁ * d₂) :=
  ⟨r₁.rep.tensorProduct r₂.rep, r₁.tA, promote (promote r₁.tX .float) (promote .float r₂.tX),
    promote r₁.tH r₂.tH⟩

/-- `group_product(rep1, rep2)` (`/repo/lie_nn/_src/group_product.py` lines 20-45): three arrays are
allocated with the dtype given by `_get_dtype` and filled by slice assignments. -/
noncomputable def groupProduct (r₁ : TRep n₁ h₁ d₁) (r₂ : TRep n₂ h₂ d₂) :
    TRep (n₁ + n₂) (h₁ + h₂) (d₁ * d₂) :=
  let tA := getDtype [r₁.tA, r₂.tA]
  let tX := getDtype [r₁.tX, r₂.tX]
  let tH := getDtype [r₁.tH, r₂.tH]
  ⟨{ A := fun i j k => Fin.addCases
        (fun i => Fin.addCases
          (fun j => Fin.addCases (fun k => store tA (r₁.rep.A i j k)) (fun _ => 0) k) (fun _ => 0) j)
        (fun i => Fin.addCases (fun _ => 0)
          (fun j => Fin.addCases (fun _ => 0) (fun k => store tA (r₂.rep.A i j k)) k) j) i
     X := Fin.addCases (fun a => storeM tX (kron (r₁.rep.X a) 1))
        (fun a => storeM tX (kron 1 (r₂.rep.X a)))
     H := Fin.addCases (fun a => storeM tH (kron (r₁.rep.H a) 1))
        (fun a => storeM tH (kron 1 (r₂.rep.H a))) }, tA, tX, tH⟩

/-- The arrays of `TabulatedIrrepProduct(rep1, rep2)` (`/repo/lie_nn/_src/group_product.py` lines
95-126), allocated and filled in the same way. -/
noncomputable def tabulatedProduct (r₁ : TRep n₁ h₁ d₁) (r₂ : TRep n₂ h₂ d₂) :
    TRep (n₁ + n₂) (h₁ + h₂) (d₁ * d₂) :=
  let tA := getDtype [r₁.tA, r₂.tA]
  let tX := getDtype [r₁.tX, r₂.tX]
  let tH := getDtype [r₁.tH, r₂.tH]
  ⟨{ A := fun i j k => if hi : i.1 < n₁ then
          if hj : j.1 < n₁ then
            if hk : k.1 < n₁ then store tA (r₁.rep.A ⟨i, hi⟩ ⟨j, hj⟩ ⟨k, hk⟩) else 0 else 0
        else if _ : j.1 < n₁ then 0 else if _ : k.1 < n₁ then 0
          else store tA (r₂.rep.A ⟨i - n₁, by omega⟩ ⟨j - n₁, by omega⟩ ⟨k - n₁, by omega⟩)
     X := fun a => if ha : a.1 < n₁ then storeM tX (kron (r₁.rep.X ⟨a, ha⟩) 1)
        else storeM tX (kron 1 (r₂.rep.X ⟨a - n₁, by omega⟩))
     H := fun a => if ha : a.1 < h₁ then storeM tH (kron (r₁.rep.H ⟨a, ha⟩) 1)
        else storeM tH (kron 1 (r₂.rep.H ⟨a - h₁, by omega⟩)) }, tA, tX, tH⟩

/-- `jax_utils.exp_map` (`/repo/lie_nn/_src/jax_utils.py` lines 41-51) of a representation with
dtypes. -/
noncomputable def jaxExpMap (empty : Fin h → ℕ → Matrix (Fin d) (Fin d) ℂ) (r : TRep n h d)
    (c : Fin n → ℂ) (k : Fin h → ℤ) : Py (Matrix (Fin d) (Fin d) ℂ) :=
  Jax.expMap r.tH empty r.rep c k

/-! ## `MulIrrep` and `ReducedRep` -/

/-- The dtype of `direct_sum(*arrays)` (`/repo/lie_nn/_src/util.py` lines 185-209): a single array is
returned as it is, otherwise the output is `complex128`. -/
def directSumType : List Dtype → Py Dtype
  | [] => .error .typeError
  | [t] => .ok t
  | _ :: _ :: _ => .ok .complex

/-- The dtype of `MulIrrep.continuous_generators()` and `discrete_generators()`
(`/repo/lie_nn/_src/reduced_rep.py` lines 31-41); `p` is the number of generators, `t` the dtype of
those of the irrep.  `np.empty` is a float array. -/
def mulType (p mul : ℕ) (t : Dtype) : Py Dtype :=
  if p = 0 then .ok .float else directSumType (List.replicate mul t)

/-- The dtype of one turn of the loops of `ReducedRep` (`/repo/lie_nn/_src/reduced_rep.py` lines
115-117 and 127-129): `p` generators, `ty` the dtype for every label, `tQ` the dtype of `Q` if there
is one. -/
def blockType {T : Table n h} (p : ℕ) (ty : T.Ir → Dtype) (irreps : List (MulIr T)) (tQ : Option Dtype) :
    Py Dtype := do
  let ts ← irreps.mapM fun m => mulType p m.mul (ty m.ir)
  let t ← directSumType ts
  match tQ with
  | none => pure t
  | some q => pure (promote (promote q t) (invType q))

/-- The dtype of `ReducedRep.continuous_generators()` (`/repo/lie_nn/_src/reduced_rep.py` lines
112-119); `np.stack([])` raises `ValueError`. -/
def reducedTypeX {T : Table n h} (ty : T.Ir → Dtype) (irreps : List (MulIr T)) (tQ : Option Dtype) :
    Py Dtype :=
  if n = 0 then .error .valueError else blockType n ty irreps tQ

/-- The dtype of `ReducedRep.discrete_generators()` (`/repo/lie_nn/_src/reduced_rep.py` lines
121-131). -/
def reducedType {T : Table n h} (ty : T.Ir → Dtype) (irreps : List (MulIr T)) (tQ : Option Dtype) :
    Py Dtype :=
  match irreps with
  | [] => .error .indexError
  | m :: l => if h = 0 then .ok .float else blockType h ty (m :: l) tQ

end LieNN.Dt

import Verif.Model.TensorBasis

/-!
# `reduced_tensor_product_basis` and `reduced_symmetric_tensor_product_basis`

`/repo/lie_nn/_src/reduced_tensor_product.py` lines 83-182.

Simplifications.  `ReducedRep` has no `__eq__`, so `!=` compares object identities: a `ReducedRep` given
by the caller is an address in `heap`, and `_to_reducedrep` creates one new object for every other
argument, named by the keyword.  The order in which Python iterates over the frozenset of signed
permutations is an argument `iter`.  The order of the keys of the dictionary is not modelled: it only
decides which of several exceptions of the same type is raised.  `order` is a natural number:
`range(order)` and `[irreps] * order` are empty for the negative numbers.
-/
namespace LieNN.TFront

open LieNN.PermRepr LieNN.IArr LieNN.TBasis

variable {n h : ℕ} {T : Table n h}

/-- An argument that stands for a representation. -/
inductive Arg (T : Table n h) where
  /-- a `TabulatedIrrep` -/
  | irrep (ir : T.Ir)
  /-- a `MulIrrep` -/
  | mulIrrep (m : MulIr T)
  /-- a `ReducedRep` at an address -/
  | reduced (a : ℕ)
  /-- anything else -/
  | other

/-- `_to_reducedrep` (/repo/lie_nn/_src/reduced_tensor_product.py:83-89). -/
noncomputable def toReduced (heap : ℕ → ReducedRep T) : Arg T → Py (ReducedRep T)
  | .irrep ir => ReducedRep.fromIrreps ⟨1, ir⟩ [] none
  | .mulIrrep m => ReducedRep.fromIrreps m [] none
  | .reduced a => .ok (heap a)
  | .other => .error .assertionError

/-- `RepArray` (/repo/lie_nn/_src/reduced_tensor_product.py:19-22); the array is given by its values at the leading
multi-indices. -/
structure RepArray (T : Table n h) (m : ℕ) where
  /-- `rep` -/
  rep : ReducedRep T
  /-- `array` -/
  array : (Fin m → ℕ) → List ℂ
  /-- `list`, with the irrep and the shape of every array -/
  list : List (Blk T m)

/-- `RepArray(ReducedRep.from_irreps(out.irreps), out.array, out.list)`
(/repo/lie_nn/_src/reduced_tensor_product.py:125, 157 and 182).  An `IrrepsArray` has at least one block. -/
noncomputable def repArray {m : ℕ} (out : List (Blk T m)) : Py (RepArray T m) :=
  match out.map fun b => (⟨b.mul, b.ir⟩ : MulIr T) with
  | [] => .error .valueError
  | mi :: l => do
    let rep ← ReducedRep.fromIrreps mi l none
    return ⟨rep, IArr.array out, out⟩

/-- The last two lines of the three functions. -/
noncomputable def run [LinearOrder T.Ir] (inter : InterFn) (ord : SetOrder) (fuel : ℕ) {m : ℕ}
    (irs : Fin m → ReducedRep T) (G : Finset SP) : Option (Py (RepArray T m)) :=
  (reducedBasis inter ord fuel irs G).map fun r => r >>= repArray

/-- The list version (/repo/lie_nn/_src/reduced_tensor_product.py:118-125). -/
noncomputable def listBasis [LinearOrder T.Ir] (inter : InterFn) (ord : SetOrder) (fuel : ℕ)
    (heap : ℕ → ReducedRep T) (args : List (Arg T)) : Option (Py (Σ m, RepArray T m)) :=
  match args.mapM (toReduced heap) with
  | .error e => some (.error e)
  | .ok l => (run inter ord fuel (fun k : Fin l.length => l[k]) {(1, List.range l.length)}).map
      fun r => r >>= fun x => .ok ⟨_, x⟩

/-- `reduced_symmetric_tensor_product_basis` (/repo/lie_nn/_src/reduced_tensor_product.py:160-182). -/
noncomputable def symmetricBasis [LinearOrder T.Ir] (inter : InterFn) (ord : SetOrder) (fuel : ℕ)
    (heap : ℕ → ReducedRep T) (arg : Arg T) (order : ℕ) : Option (Py (RepArray T order)) :=
  match toReduced heap arg with
  | .error e => some (.error e)
  | .ok r => run inter ord fuel (fun _ : Fin order => r)
      (((List.range order).permutations.map fun p => ((1 : ℤ), p)).toFinset)

/-! ## The formula version -/

/-- A keyword, a string. -/
abbrev Key := List Char

/-- The identity of a `ReducedRep` object: one of the caller, or the one created for a keyword. -/
inductive Ref where
  | given (a : ℕ)
  | fresh (k : Key)
  deriving DecidableEq

/-- The object that `_to_reducedrep` returns for the keyword `k`. -/
def refOf (k : Key) : Arg T → Ref
  | .reduced a => .given a
  | _ => .fresh k

/-- The content of an object. -/
noncomputable def deref (heap : ℕ → ReducedRep T) (kw : List (Key × Arg T)) : Ref → Py (ReducedRep T)
  | .given a => .ok (heap a)
  | .fresh k => match kw.lookup k with
    | some a => toReduced heap a
    | none => .error .keyError

/-- `irreps_dict`. -/
abbrev Dict := List (Key × Ref)

/-- `irreps_dict[k] = v`. -/
def dset (d : Dict) (k : Key) (v : Ref) : Dict := (k, v) :: d.filter (·.1 ≠ k)

/-- `if j in irreps_dict: irreps_dict[i] = irreps_dict[j]`. -/
def copy (d : Dict) (i j : Key) : Dict :=
  match d.lookup j with
  | some v => dset d i v
  | none => d

/-- The body of the inner loop (/repo/lie_nn/_src/reduced_tensor_product.py:139-144). -/
def stepPair (d : Dict) (ij : Key × Key) : Py Dict := do
  match d.lookup ij.1, d.lookup ij.2 with
  | some a, some b => if a ≠ b then .error .runtimeError
  | _, _ => pure ()
  return copy (copy d ij.2 ij.1) ij.1 ij.2

/-- `f0[i]` (/repo/lie_nn/_src/reduced_tensor_product.py:137). -/
def letterAt (f0 : List Char) (i : ℕ) : Py Char :=
  match f0[i]? with
  | some c => .ok c
  | none => .error .indexError

/-- The loop over the signed permutations (/repo/lie_nn/_src/reduced_tensor_product.py:136-144). -/
def spread (f0 : List Char) (d : Dict) (perms : List SP) : Py Dict :=
  perms.foldlM (fun d sp => do
    let f ← sp.2.mapM (letterAt f0)
    ((f0.zip f).map fun c => (([c.1], [c.2]) : Key × Key)).foldlM stepPair d) d

/-- `irreps_tuple`, from the keywords (/repo/lie_nn/_src/reduced_tensor_product.py:130-154). -/
noncomputable def assign (heap : ℕ → ReducedRep T) (iter : Finset SP → List SP) (f0 : List Char)
    (G : Finset SP) (kw : List (Key × Arg T)) : Py (List (ReducedRep T)) := do
  let d ← kw.mapM fun ka => do
    let _ ← toReduced heap ka.2
    return (ka.1, refOf ka.1 ka.2)
  if ∃ k ∈ kw.map Prod.fst, k.length ≠ 1 then .error .typeError
  let d ← spread f0 d (iter G)
  if ∃ c ∈ f0, d.lookup [c] = none then .error .runtimeError
  if ∃ k ∈ d.map Prod.fst, ¬ k <:+: f0 then .error .runtimeError
  f0.mapM fun c => match d.lookup [c] with
    | some v => deref heap kw v
    | none => .error .keyError

/-- `reduced_tensor_product_basis` with a formula (/repo/lie_nn/_src/reduced_tensor_product.py:127-157). -/
noncomputable def formulaBasis [LinearOrder T.Ir] (inter : InterFn) (ord : SetOrder)
    (iter : Finset SP → List SP) (fuel : ℕ) (heap : ℕ → ReducedRep T) (formula : List Char)
    (kw : List (Key × Arg T)) : Option (Py (Σ m, RepArray T m)) :=
  match germinatePermRepr fuel formula with
  | none => none
  | some (.error e) => some (.error e)
  | some (.ok (f0, G)) =>
    match assign heap iter f0 G kw with
    | .error e => some (.error e)
    | .ok l => (run inter ord fuel (fun k : Fin l.length => l[k]) G).map
        fun r => r >>= fun x => .ok ⟨_, x⟩

end LieNN.TFront

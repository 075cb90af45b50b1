import Verif.Model.Parse
import Verif.Model.Reduced
/-!
# The printed forms `__repr__`

A Python `str` is the list of its characters (`LieNN.Parse.Str`).  The `__repr__` of an irrep is the one that
the decorator `@dataclass` writes: the name of the class and its fields.  `@dataclass` leaves a `__repr__` that
the class defines itself alone, so `MulIrrep` and `GenericRep` keep their own.  Simplifications: the fields are
Python `int`s (not NumPy integers, whose `repr` depends on the version of NumPy); `SU2Real`, whose field is a
`float`, is left out.
-/
namespace LieNN.Printing

open Parse

/-- `str.join`. -/
def join (sep : Str) (l : List Str) : Str := sep.intercalate l

/-- `repr` of a Python `int`. -/
def int (z : ℤ) : Str := if z < 0 then '-' :: Nat.toDigits 10 z.natAbs else Nat.toDigits 10 z.natAbs

/-- `repr` of a Python tuple of `int`s; a tuple with one entry is printed `(1,)`. -/
def tuple : List ℤ → Str
  | [a] => "(".toList ++ int a ++ ",)".toList
  | S => "(".toList ++ join ", ".toList (S.map int) ++ ")".toList

/-- The `__repr__` written by `@dataclass`: `Name(field=value, ...)`. -/
def dataclass (name : Str) (fields : List (Str × Str)) : Str :=
  name ++ "(".toList ++ join ", ".toList (fields.map fun f => f.1 ++ "=".toList ++ f.2) ++ ")".toList

/-- The classes of irreps with one field `S` that is a tuple. -/
inductive TupleClass
  /-- `/repo/lie_nn/_src/irreps/sun.py` lines 441-443 -/
  | SUN
  /-- `/repo/lie_nn/_src/irreps/sun.py` lines 490-491 -/
  | SU2_
  /-- `/repo/lie_nn/_src/irreps/sun.py` lines 501-502 -/
  | SU3
  /-- `/repo/lie_nn/_src/irreps/sun.py` lines 513-514 -/
  | SU4
  /-- `/repo/lie_nn/_src/irreps/son.py` lines 26-28 -/
  | SON
  /-- `/repo/lie_nn/_src/irreps/spn.py` lines 22-24 -/
  | SPN

/-- `__qualname__`. -/
def TupleClass.name : TupleClass → Str
  | SUN => "SUN".toList
  | SU2_ => "SU2_".toList
  | SU3 => "SU3".toList
  | SU4 => "SU4".toList
  | SON => "SON".toList
  | SPN => "SPN".toList

/-- The irreps of the library, with the fields of their classes. -/
inductive Label
  /-- `/repo/lie_nn/_src/irreps/su2.py` lines 11-13 -/
  | SU2 (j : ℤ)
  /-- `/repo/lie_nn/_src/irreps/so3_real.py` lines 24-26 -/
  | SO3 (l : ℤ)
  /-- `/repo/lie_nn/_src/irreps/o3_real.py` lines 11-14 -/
  | O3 (l p : ℤ)
  /-- `/repo/lie_nn/_src/irreps/sl2c.py` lines 13-16 -/
  | SL2C (l k : ℤ)
  /-- `/repo/lie_nn/_src/irreps/so13.py` lines 14-19 -/
  | SO13 (l k : ℤ)
  /-- `/repo/lie_nn/_src/irreps/z2.py` lines 9-11 -/
  | Z2 (p : ℤ)
  /-- the classes with a tuple of weights -/
  | tup (c : TupleClass) (S : List ℤ)
  /-- `TabulatedIrrepProduct` (`/repo/lie_nn/_src/group_product.py` lines 53-56) -/
  | product (rep1 rep2 : Label)

/-- The name `TabulatedIrrepProduct`. -/
def productName : Str :=
  ['T', 'a', 'b', 'u', 'l', 'a', 't', 'e', 'd', 'I', 'r', 'r', 'e', 'p', 'P', 'r', 'o', 'd', 'u', 'c', 't']

/-- `repr(irrep)`. -/
def Label.repr : Label → Str
  | SU2 j => dataclass "SU2".toList [("j".toList, int j)]
  | SO3 l => dataclass "SO3".toList [("l".toList, int l)]
  | O3 l p => dataclass "O3".toList [("l".toList, int l), ("p".toList, int p)]
  | SL2C l k => dataclass "SL2C".toList [("l".toList, int l), ("k".toList, int k)]
  | SO13 l k => dataclass "SO13".toList [("l".toList, int l), ("k".toList, int k)]
  | Z2 p => dataclass "Z2".toList [("p".toList, int p)]
  | tup c S => dataclass c.name [("S".toList, tuple S)]
  | product a b => dataclass productName
      [("rep1".toList, a.repr), ("rep2".toList, b.repr)]

/-- `MulIrrep.__repr__` (`/repo/lie_nn/_src/reduced_rep.py` lines 46-47); `r` is the text of `self.rep`. -/
def mulIrrep (mul : ℤ) (r : Str) : Str := int mul ++ "x".toList ++ r

/-- `ReducedRep.__repr__` (`/repo/lie_nn/_src/reduced_rep.py` lines 136-140): `terms` are the texts of the
blocks, `q` tells whether `self.Q is not None`.  In the f-string `{-1}` is a replacement field: it prints
`-1`, without braces. -/
def reduced (terms : List Str) (q : Bool) : Str :=
  let r := join " + ".toList terms
  if q then "Q (".toList ++ r ++ ") Q^".toList ++ int (-1) else r

/-- `Rep.__repr__` and `GenericRep.__repr__` (`/repo/lie_nn/_src/rep.py` lines 74-75 and 134-135). -/
def rep (name : Str) (dim lieDim lenH : ℕ) : Str :=
  name ++ "(dim=".toList ++ int dim ++ ", lie_dim=".toList ++ int lieDim ++ ", len(H)=".toList ++ int lenH ++
    ")".toList

/-- `repr` of a `ReducedRep` of the model whose labels are printed by `p`. -/
def ofReduced {n h : ℕ} {T : Table n h} (p : T.Ir → Str) (R : ReducedRep T) : Str :=
  reduced (R.irreps.map fun m => mulIrrep m.mul (p m.ir)) R.Q.isSome

/-- `MulIrrep.rep` may be any `Rep` (`/repo/lie_nn/_src/reduced_rep.py` line 14): nested sums, here with their
dimensions. -/
inductive Nested
  /-- an irrep -/
  | ir (l : Label) (dim : ℕ)
  /-- a `ReducedRep` with one block -/
  | one (m : ℕ) (r : Nested)
  /-- a `ReducedRep` with two blocks -/
  | two (m : ℕ) (r : Nested) (m' : ℕ) (r' : Nested)

/-- `repr` of a nested sum. -/
def Nested.repr : Nested → Str
  | ir l _ => l.repr
  | one m r => reduced [mulIrrep m r.repr] false
  | two m r m' r' => reduced [mulIrrep m r.repr, mulIrrep m' r'.repr] false

/-- `dim` of a nested sum (`/repo/lie_nn/_src/reduced_rep.py` lines 24-26 and 105-107). -/
def Nested.dim : Nested → ℕ
  | ir _ d => d
  | one m r => m * r.dim
  | two m r m' r' => m * r.dim + m' * r'.dim

end LieNN.Printing

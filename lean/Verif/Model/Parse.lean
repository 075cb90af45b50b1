import Verif.Model.SUN
/-!
# The text parsers `from_string`

A Python `str` is the list of its characters.  Simplification: `int(...)`, `str.strip()` and `\d` are
modelled on ASCII characters (Python also accepts the digits and white space of Unicode).
-/
namespace LieNN.Parse

/-- A Python `str`. -/
abbrev Str := List Char

/-- ASCII characters for which `str.isspace()` holds: tab, newline, vertical tab, form feed, carriage
return, the four separators `\x1c` - `\x1f`, space. -/
def isWs (c : Char) : Bool :=
  (9 ≤ c.toNat && c.toNat ≤ 13) || (28 ≤ c.toNat && c.toNat ≤ 32)

/-- `str.strip()`. -/
def strip (s : Str) : Str := ((s.dropWhile isWs).reverse.dropWhile isWs).reverse

/-- The digits read by `int(...)`: single underscores may separate digits.  `acc` is the value so far, `d`
tells whether the previous character was a digit. -/
def digits : Str → (acc : ℕ) → (d : Bool) → Option ℕ
  | [], acc, d => if d then some acc else none
  | c :: cs, acc, d =>
    if c.isDigit then digits cs (10 * acc + (c.toNat - 48)) true
    else if c = '_' ∧ d then digits cs acc false
    else none

/-- `int(s)` for a string: surrounding white space, one sign, digits; `ValueError` otherwise. -/
def pyInt (s : Str) : Py ℤ :=
  match strip s with
  | '-' :: r => match digits r 0 false with
    | some n => .ok (-(n : ℤ))
    | none => .error .valueError
  | '+' :: r => match digits r 0 false with
    | some n => .ok n
    | none => .error .valueError
  | r => match digits r 0 false with
    | some n => .ok n
    | none => .error .valueError

/-- `SU2.from_string` (`/repo/lie_nn/_src/irreps/su2.py` lines 15-21), with `__post_init__`. -/
def su2 (s : Str) : Py ℤ := do
  let j ← pyInt s
  pyAssert (0 ≤ j)
  return j

/-- `SO3.from_string` (`/repo/lie_nn/_src/irreps/so3_real.py` lines 28-30); nothing is checked. -/
def so3 (s : Str) : Py ℤ := pyInt s

/-- `{"e": 1, "o": -1}[s]`, a `KeyError` otherwise. -/
def parity (s : Str) : Py ℤ :=
  if s = ['e'] then .ok 1 else if s = ['o'] then .ok (-1) else .error .keyError

/-- `Z2.from_string` (`/repo/lie_nn/_src/irreps/z2.py` lines 13-17). -/
def z2 (s : Str) : Py ℤ := parity (strip s)

/-- `O3.from_string` (`/repo/lie_nn/_src/irreps/o3_real.py` lines 16-21).  `s[-1]` is only evaluated when
`int(s[:-1])` succeeded, so `s` is not empty there. -/
def o3 (s : Str) : Py (ℤ × ℤ) := do
  let t := strip s
  let l ← pyInt t.dropLast
  let p ← parity (t.drop (t.length - 1))
  return (l, p)

/-- `re.match(r"\((\d+(?:,\d+)*)\)", s)`: the first group, or no match.  The group has to be the whole
run of digits and commas behind the parenthesis, since a closing parenthesis must follow it; it
matches when no piece between commas is empty.  What follows the closing parenthesis is ignored. -/
def reTuple (s : Str) : Option Str :=
  match s with
  | '(' :: r =>
    let g := r.takeWhile fun c => c.isDigit || c = ','
    if (r.drop g.length).head? = some ')' ∧ [] ∉ g.splitOn ',' then some g else none
  | _ => none

/-- `SL2C.from_string` and `SO13.from_string` (`/repo/lie_nn/_src/irreps/sl2c.py` lines 18-28,
`so13.py` lines 22-32), with `__post_init__`: the pattern `\((\d+),(\d+)\)` is `reTuple` with two
pieces. -/
def sl2c (s : Str) : Py (ℤ × ℤ) :=
  match (reTuple (strip s)).map fun g => g.splitOn ',' with
  | some [a, b] => do
    let l ← pyInt a
    let k ← pyInt b
    pyAssert (0 ≤ l)
    pyAssert (0 ≤ k)
    return (l, k)
  | _ => .error .assertionError

/-- `SUN.from_string` (`/repo/lie_nn/_src/irreps/sun.py` lines 445-454), with `__post_init__`
(`_assert_valid_S`: not empty and non-increasing).  No match: `None.group` is an `AttributeError`. -/
def sun (s : Str) : Py (List ℤ) :=
  match reTuple s with
  | none => .error .attributeError
  | some g => do
    let S ← (g.splitOn ',').mapM pyInt
    pyAssert (SUN.isValidS S)
    pyAssert (S.getLast? = some 0)
    return S

/-- `MulIrrep.from_string` (`/repo/lie_nn/_src/reduced_rep.py` lines 16-22) with `cls_irrep.from_string`
as an argument. -/
def mulIrrep {α : Type} (ir : Str → Py α) (s : Str) : Py (ℤ × α) :=
  if 'x' ∈ s then
    match s.splitOn 'x' with
    | [m, r] => do
      let m ← pyInt m
      let r ← ir r
      return (m, r)
    | _ => .error .valueError
  else do
    let r ← ir s
    return (1, r)

/-- The loop of `ReducedRep.from_irreps` (`/repo/lie_nn/_src/reduced_rep.py` lines 82-98); `cmp a b` is the
outcome of `assert np.allclose(a.algebra(), b.algebra())`. -/
def fromIrrepsLoop {α : Type} (cmp : α → α → Py Unit) : Option α → List (ℤ × α) → Py Unit
  | _, [] => .ok ()
  | A, (m, r) :: l => do
    pyAssert (0 ≤ m)
    match A with
    | none => fromIrrepsLoop cmp (some r) l
    | some a =>
      cmp a r
      fromIrrepsLoop cmp A l

/-- `ReducedRep.from_string(string, cls_irrep)` (`/repo/lie_nn/_src/reduced_rep.py` lines 65-71 and
74-103), `Q = None`: the list of multiplicities and labels of the result. -/
def reducedRep {α : Type} (ir : Str → Py α) (cmp : α → α → Py Unit) (s : Str) :
    Py (List (ℤ × α)) := do
  let l ← (s.splitOn '+').mapM (mulIrrep ir)
  fromIrrepsLoop cmp none l
  return l

/-- The comparison of algebras for the classes whose `algebra()` does not depend on the label. -/
def sameAlg {α : Type} (_ _ : α) : Py Unit := .ok ()

/-- The comparison of algebras for `SUN` (`/repo/lie_nn/_src/irreps/sun.py` lines 484-487): the array has
shape `(1, 1, 1)` and is zero for one row, otherwise shape `(N ** 2 - 1,) * 3`.  A single row against
several broadcasts and differs; otherwise different shapes do not broadcast. -/
def sunAlg (S T : List ℤ) : Py Unit :=
  if S.length = T.length then .ok ()
  else if S.length = 1 ∨ T.length = 1 then .error .assertionError
  else .error .valueError

end LieNN.Parse

/-!
# Shared conventions of the model

Python exceptions are values.  `PyErr` names the exception classes the modelled code can raise.
-/
namespace LieNN

/-- The Python exception classes that occur in the modelled code
(`assert` → `AssertionError`, `raise ValueError`, `list.index`, `np.stack([])`, …). -/
inductive PyErr where
  | assertionError
  | valueError
  | indexError
  | typeError
  | runtimeError
  | zeroDivision
  | notImplemented
  | keyError
  | attributeError
  deriving DecidableEq, Repr

/-- Outcome of a Python call. -/
abbrev Py := Except PyErr

/-- `assert c` followed by the rest of the function. -/
def pyAssert (c : Prop) [Decidable c] (e : PyErr := .assertionError) : Py Unit :=
  if c then .ok () else .error e

end LieNN

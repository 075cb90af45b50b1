import Verif.Model.Basic
import Mathlib.Data.List.Basic
/-!
# What an iterator over irreps and a selection rule should do
-/
namespace LieNN.Spec

/-- `lt` orders the elements of `valid` strictly and totally. -/
structure StrictTotal {α : Type} (valid : α → Prop) (lt : α → α → Prop) : Prop where
  irrefl : ∀ x, ¬ lt x x
  trans : ∀ x y z, lt x y → lt y z → lt x z
  total : ∀ x y, valid x → valid y → x ≠ y → lt x y ∨ lt y x

/-- An enumeration `out` (what has been yielded after so many steps, never raising): it starts at
`triv`, is strictly increasing, yields only valid elements and every valid element exactly once. -/
structure Enumerates {α : Type} (valid : α → Prop) (lt : α → α → Prop) (triv : α)
    (out : ℕ → Except PyErr (List α)) : Prop where
  order : StrictTotal valid lt
  first : ∀ N, 0 < N → ∃ L, out N = .ok (triv :: L)
  grows : ∀ N, ∃ L L', out N = .ok L ∧ out (N + 1) = .ok (L ++ L')
  sorted : ∀ N L, out N = .ok L → L.Pairwise lt
  sound : ∀ N L, out N = .ok L → ∀ x ∈ L, valid x
  exhaustive : ∀ x, valid x → ∃ N L, out N = .ok L ∧ x ∈ L
  once : ∀ N L, out N = .ok L → L.Nodup

/-- A selection rule `mul` on the irreps `valid`: it does not raise, lists valid irreps without
repetition whose dimensions sum to the product of the dimensions, does not depend on the order of
its arguments up to the order of the list, and has `triv` as unit. -/
structure SelectionRule {α : Type} (valid : α → Prop) (dim : α → ℕ) (triv : α)
    (mul : α → α → Except PyErr (List α)) : Prop where
  total : ∀ x y, valid x → valid y → ∃ L, mul x y = .ok L ∧ L.Nodup ∧ (∀ z ∈ L, valid z) ∧
    (L.map dim).sum = dim x * dim y
  comm : ∀ x y, valid x → valid y → ∀ L L', mul x y = .ok L → mul y x = .ok L' → L.Perm L'
  unit : valid triv ∧ dim triv = 1 ∧
    ∀ x, valid x → mul x triv = .ok [x] ∧ mul triv x = .ok [x]

end LieNN.Spec

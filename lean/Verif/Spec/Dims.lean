import Mathlib.Data.Rat.Defs
import Mathlib.Algebra.BigOperators.Intervals
import Mathlib.Algebra.Order.Field.Rat
/-!
# Weyl's dimension formula for the orthogonal and symplectic algebras, in coordinates

The formulas of Fulton-Harris, (24.19), (24.29) and (24.41): `l` is the highest weight plus half the sum of
the positive roots, `ρ` that half sum.
-/
namespace LieNN.Spec

/-- Coordinates of the highest weight with Dynkin labels `S`, plus `ρ`, for Sp(2 r), `r = S.length`. -/
def spShift (S : List ℤ) (k : ℕ) : ℚ := (∑ i ∈ Finset.Ico k S.length, (S.getD i 0 : ℚ)) + (S.length - k)

/-- The same for SO(2 r + 1): the last label counts half. -/
def soOddShift (S : List ℤ) (k : ℕ) : ℚ :=
  (∑ i ∈ Finset.Ico k (S.length - 1), (S.getD i 0 : ℚ)) + (S.getD (S.length - 1) 0 : ℚ) / 2 + (S.length - k - 1 / 2)

/-- The same for SO(2 r): the two spinor labels count half, with opposite signs in the last coordinate. -/
def soEvenShift (S : List ℤ) (k : ℕ) : ℚ :=
  (∑ i ∈ Finset.Ico k (S.length - 2), (S.getD i 0 : ℚ)) +
    (if k = S.length - 1 then (S.getD (S.length - 1) 0 - S.getD (S.length - 2) 0 : ℚ) / 2
      else (S.getD (S.length - 1) 0 + S.getD (S.length - 2) 0 : ℚ) / 2) + (S.length - k - 1)

/-- Sp(2 r): `∏_{j<i} (l_j² - l_i²)/(ρ_j² - ρ_i²) ∏ l_i/ρ_i`, `ρ_i = r - i` (from 0). -/
def weylSp (S : List ℤ) : ℚ :=
  (∏ i ∈ Finset.range S.length, ∏ j ∈ Finset.range i,
    (spShift S j ^ 2 - spShift S i ^ 2) / (((S.length : ℚ) - j) ^ 2 - (S.length - i) ^ 2)) *
  ∏ i ∈ Finset.range S.length, spShift S i / (S.length - i)

/-- SO(2 r + 1): the same with `ρ_i = r - i - 1/2`. -/
def weylSoOdd (S : List ℤ) : ℚ :=
  (∏ i ∈ Finset.range S.length, ∏ j ∈ Finset.range i,
    (soOddShift S j ^ 2 - soOddShift S i ^ 2) / (((S.length : ℚ) - j - 1 / 2) ^ 2 - (S.length - i - 1 / 2) ^ 2)) *
  ∏ i ∈ Finset.range S.length, soOddShift S i / (S.length - i - 1 / 2)

/-- SO(2 r): `∏_{j<i} (l_j² - l_i²)/(ρ_j² - ρ_i²)`, `ρ_i = r - i - 1`. -/
def weylSoEven (S : List ℤ) : ℚ :=
  ∏ i ∈ Finset.range S.length, ∏ j ∈ Finset.range i,
    (soEvenShift S j ^ 2 - soEvenShift S i ^ 2) / (((S.length : ℚ) - j - 1) ^ 2 - (S.length - i - 1) ^ 2)

end LieNN.Spec

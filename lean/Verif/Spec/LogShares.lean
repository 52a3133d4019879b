import Verif.Spec.PolyShares

/-!
# What is asked of the sizes for the logarithm on shares
-/

namespace CrypTen

/-- `∑ h ^ j / j` for `j = 1, …, order`: the Taylor polynomial of `-ln (1 - h)`. -/
def logSum (order : ℕ) (h : ℚ) : ℚ := ∑ j ∈ Finset.range order, h ^ (j + 1) / (j + 1)

/-- The coefficients of `logSum`. -/
def logCoeffs (order : ℕ) : List ℚ := (List.range order).map fun i : ℕ => 1 / ((i : ℚ) + 1)

/-- No intermediate result of one Householder iteration leaves 64 bits, for `n` parties, `k` bits of precision, `exp` by `d` squarings, at most `2 ^ (r + 1)` terms, inputs up to `X`,
iterates of absolute value up to `Y` and values of `1 - x exp(-y)` of absolute value up to `M`. -/
structure LogFits (n k d order r : ℕ) (X Y M : ℚ) : Prop where
  nonneg : 0 ≤ Y
  iterate : 2 ^ k * Y < 2 ^ 63
  base : 2 ^ k * (1 + Y / 2 ^ d + n / 2 ^ k) < 2 ^ 63
  squares : SquareFits k (n / 2 ^ k) d (1 + Y / 2 ^ d) (n / 2 ^ k)
  product : 2 ^ k * 2 ^ k * (X * ((1 + Y / 2 ^ d) ^ 2 ^ d + squareErr (n / 2 ^ k) d (1 + Y / 2 ^ d) (n / 2 ^ k))) < 2 ^ 63
  terms : 2 ≤ order ∧ order ≤ 2 ^ (r + 1)
  one : 1 ≤ M
  powers : SquareFits k (n / 2 ^ k) (r + 1) M 0
  coeff : 2 ^ k * 2 ^ k * ((M ^ 2 ^ (r + 1) + squareErr (n / 2 ^ k) (r + 1) M 0) * (1 + 1 / 2 ^ k)) < 2 ^ 63
  total : 2 ^ k * (Y + (M + 1) + order * ((M ^ 2 ^ (r + 1) + squareErr (n / 2 ^ k) (r + 1) M 0) * (1 + 1 / 2 ^ k) + n / 2 ^ k) + polyErr n k (r + 1) M (logCoeffs order)) < 2 ^ 63

end CrypTen

import Verif.Spec.Reciprocal

/-!
# Error bound of polynomials in fixed point
-/

namespace CrypTen

/-- The error of `polynomial` on shares of numbers of absolute value at most `M`: the powers are computed by `r` rounds of products, so they are off by at most `squareErr`; each term is
multiplied by a coefficient that was rounded to `k` bits, and the product is truncated. -/
def polyErr (n k r : ℕ) (M : ℚ) (coeffs : List ℚ) : ℚ :=
  (coeffs.map fun c => |c|).sum * squareErr (n / 2 ^ k) r M 0 + coeffs.length * ((M ^ 2 ^ r + squareErr (n / 2 ^ k) r M 0) / 2 ^ k + n / 2 ^ k)

end CrypTen

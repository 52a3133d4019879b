import Mathlib.Data.Rat.Defs
import Mathlib.Algebra.Order.Field.Rat
import Mathlib.Tactic.Positivity

/-!
# Error bounds of iterations in fixed point

Bounds that are computed by a recursion: squaring and Newton's iteration for the reciprocal, every step of which adds an error.
-/

namespace CrypTen

/-- A number of absolute value at most `w` is known up to `e`. It is squared `d` times, and every squaring adds an error of at most `δ`: how far the last square can
be from the true power. -/
def squareErr (δ : ℚ) : ℕ → ℚ → ℚ → ℚ
  | 0, _, e => e
  | d + 1, w, e => squareErr δ d (w * w) (e * (2 * w + e) + δ)

/-- None of these squares, at a scale of `2 ^ k`, leaves the 64-bit integers before it is scaled down. -/
def SquareFits (k : ℕ) (δ : ℚ) : ℕ → ℚ → ℚ → Prop
  | 0, _, _ => True
  | d + 1, w, e => 2 ^ k * 2 ^ k * (w + e) ^ 2 < 2 ^ 63 ∧ SquareFits k δ d (w * w) (e * (2 * w + e) + δ)

/-- The relative error of a reciprocal after `t` iterations of Newton's method, each of which squares it and adds `η`. -/
def newtonErr (η ρ : ℚ) : ℕ → ℚ
  | 0 => ρ
  | t + 1 => newtonErr η ρ t ^ 2 + η

/-- What one iteration of Newton's method computes from a positive number `x` and a guess of its reciprocal stays in range. -/
def RecipFits (k : ℕ) (x : ℚ) : Prop := 2 ^ k * 2 ^ k * ((4 / x ^ 2 + 1) * (x + 2)) < 2 ^ 63

/-- The error that one iteration adds to the squared relative error: a truncation of the square, multiplied by `x`, and one of the product. -/
def recipLoss (n k : ℕ) (x : ℚ) : ℚ := x * (x + 1) * (n / 2 ^ k)

/-- What is asked of a positive number `x` whose reciprocal is computed by `n` parties, with `k` bits of precision, by `T` iterations of Newton's method from
`3 exp(1 - 2x) + 0.003`, `exp` being computed with `d` squarings. `w` bounds the number that is squared, `ρ` the relative error of the initial value with all that the
computation of it on shares adds. -/
structure RecipGood (n k d T : ℕ) (x w ρ : ℚ) : Prop where
  pos : 0 < x
  fits : RecipFits k x
  base : |1 + (1 - 2 * x) / 2 ^ d| ≤ w
  one : 2 ^ k * (w + n / 2 ^ k) < 2 ^ 63
  squares : SquareFits k (n / 2 ^ k) d w (n / 2 ^ k)
  start : |1 - x * (3 * (1 + (1 - 2 * x) / 2 ^ d) ^ 2 ^ d + 3 / 1000)| + x * (3 * squareErr (n / 2 ^ k) d w (n / 2 ^ k) + 1 / 2 ^ k) ≤ ρ
  contract : ρ ≤ 1 ∧ ∀ t < T, newtonErr (recipLoss n k x) ρ t ≤ 1

/-- The relative error that ten iterations leave, for two parties and 16 bits. -/
def defaultRecipErr (x : ℚ) : ℚ := if |x| ≤ 4 then 1 / 1000 else if |x| ≤ 16 then 1 / 100 else 1 / 25

/-- The logistic function with `exp` replaced by its approximation with `d` squarings. -/
def logisticApprox (d : ℕ) (x : ℚ) : ℚ := if x < 0 then 1 - 1 / (1 + (1 - |x| / 2 ^ d) ^ 2 ^ d) else 1 / (1 + (1 - |x| / 2 ^ d) ^ 2 ^ d)

/-- The error that the computation on shares adds, if `exp` has been computed up to `η`. -/
def sigmoidErr (δ η : ℚ) : ℚ := 8 / 7 * (newtonErr (7 * δ) ((1 / 2 + 3 / 4 * η) ^ 2 + 9 * δ) 2 + η)

/-- The relative error of the reciprocal of a sum of at most `m` exponentials. -/
def softmaxRecipErr (m : ℕ) : ℚ := if m ≤ 3 then 1 / 1000 else if m ≤ 15 then 1 / 100 else 1 / 25

/-- The error of `softmax` over `m` classes. -/
def softmaxErr (m : ℕ) : ℚ := 1 / 100 + m / 400 + softmaxRecipErr m

/-- How far from one its results may add up to. -/
def softmaxSumErr (m : ℕ) : ℚ := softmaxRecipErr m + m * (2 / 2 ^ 16)

end CrypTen

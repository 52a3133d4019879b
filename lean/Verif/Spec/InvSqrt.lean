import Verif.Spec.Reciprocal

/-!
# Error bounds of Newton's iteration for the inverse square root in fixed point
-/

namespace CrypTen

/-- `1 - x y ^ 2` after `t` iterations, each of which maps it to `e ^ 2 (3 + e) / 4` and adds `η`. -/
def sqrtErr (η ρ : ℚ) : ℕ → ℚ
  | 0 => ρ
  | t + 1 => sqrtErr η ρ t ^ 2 * (3 + sqrtErr η ρ t) / 4 + η

/-- What truncations in one iteration do to the iterate: `B` is an upper bound of the inverse square root of `x / 2`. -/
def sqrtStepErr (n k : ℕ) (x B : ℚ) : ℚ := (B * (x + 1) / 2 + 3 / 2) * (n / 2 ^ k)

/-- What they do to `1 - x y ^ 2`. -/
def sqrtLoss (n k : ℕ) (x B : ℚ) : ℚ := x * (2 * B * sqrtStepErr n k x B + sqrtStepErr n k x B ^ 2)

/-- What is asked of a positive number `x` whose inverse square root is computed by `n` parties, with `k` bits of precision, by `T` iterations of Newton's method from
`2.2 exp(-(x / 2 + 0.2)) + 0.2 - x / 1024`, `exp` being computed with `d` squarings. `ρ` bounds `1 - x y ^ 2` for every initial value `y` that the computation on shares can give. -/
structure InvSqrtGood (n k d T : ℕ) (x B ρ : ℚ) : Prop where
  pos : 0 < x
  bpos : 0 < B
  root : 2 ≤ x * B ^ 2
  range : x / 2 + 1 / 5 + (n + 1) / 2 ^ k ≤ 2 ^ d
  fits : 2 ^ k * 2 ^ k * ((B + 1) ^ 2 * (x + 6)) < 2 ^ 63
  start : ∀ a y, |a - -(x / 2 + 1 / 5)| ≤ (n + 1) / 2 ^ k →
    |y - (11 / 5 * (1 + a / 2 ^ d) ^ 2 ^ d + 1 / 5 - x / 1024)| ≤ 11 / 5 * squareErr (n / 2 ^ k) d (1 + a / 2 ^ d) (n / 2 ^ k) + (2 * n + 3) / 2 ^ k →
    0 < y ∧ |1 - x * y ^ 2| ≤ ρ
  contract : ∀ t ≤ T, sqrtErr (sqrtLoss n k x B) ρ t < 1

end CrypTen

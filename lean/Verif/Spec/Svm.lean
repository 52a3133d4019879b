import Mathlib.Algebra.BigOperators.Fin
import Mathlib.Algebra.Order.Field.Rat
import Mathlib.Logic.Function.Iterate

/-!
# Training a linear classifier in plaintext

The same Python function with torch tensors, on exact numbers.
-/

namespace CrypTen.Svm.Plain
variable {F N : ℕ}

/-- `torch.sign`. -/
def sign (v : ℚ) : ℚ := if v < 0 then -1 else if v = 0 then 0 else 1

/-- The number whose sign is predicted for example `i`. -/
def score (x : Fin F × Fin N → ℚ) (w : Fin F → ℚ) (b : ℚ) (i : Fin N) : ℚ := ∑ f, w f * x (f, i) + b

/-- Gradient of the loss in the score of example `i`: `0` if it is classified correctly, minus the label otherwise. -/
def grad (x : Fin F × Fin N → ℚ) (y : Fin N → ℚ) (w : Fin F → ℚ) (b : ℚ) (i : Fin N) : ℚ := -y i * (1 - sign (score x w b i) * y i) * (1 / 2)

/-- One epoch. -/
def step (lr : ℚ) (x : Fin F × Fin N → ℚ) (y : Fin N → ℚ) (wb : (Fin F → ℚ) × ℚ) : (Fin F → ℚ) × ℚ :=
  (fun f => wb.1 f - (∑ i, grad x y wb.1 wb.2 i * x (f, i)) / N * lr, wb.2 - (∑ i, grad x y wb.1 wb.2 i) / N * lr)

/-- Weights and bias after `t` epochs. -/
def weights (lr : ℚ) (x : Fin F × Fin N → ℚ) (y : Fin N → ℚ) (w0 : Fin F → ℚ) (b0 : ℚ) (t : ℕ) : (Fin F → ℚ) × ℚ := (step lr x y)^[t] (w0, b0)

/-- Share of the examples that are classified correctly. -/
def accuracy (x : Fin F × Fin N → ℚ) (y : Fin N → ℚ) (w : Fin F → ℚ) (b : ℚ) : ℚ := ((Finset.univ.filter fun i => sign (score x w b i) = y i).card : ℚ) / N

/-! ## Error bounds -/

/-- What one epoch adds to the error of the weights: for `n` parties, features up to `X`, `k` bits of precision. -/
def stepErr (n k : ℕ) (X lr : ℚ) : ℚ := ((lr + 1 / 2) * ((2 * n + 3) * X + 5 * n + 5) + X + n) / 2 ^ k

/-- The error of the weights after `t` epochs. -/
def err (n k : ℕ) (X lr : ℚ) (t : ℕ) : ℚ := 1 / 2 ^ k + t * stepErr n k X lr

/-- The error of the scores if that of the weights, which are at most `W`, is `e`. -/
def scoreErr (n k F : ℕ) (X W e : ℚ) : ℚ := F * (e * X + W * (1 / 2 ^ k) + e * (1 / 2 ^ k)) + n / 2 ^ k + e

/-- Room for all intermediate results in 64-bit words. -/
def Room (n k F N : ℕ) (X W lr : ℚ) : Prop :=
  0 < k ∧ k ≤ 62 ∧ 8 * (n + 1) ≤ 2 ^ k ∧ 0 < N ∧ 1 ≤ X ∧ 0 ≤ W ∧ 0 ≤ lr ∧ 2 ^ k * 2 ^ k * ((F + N + 1) * ((W + lr + 4) * (X + lr + 4))) < (2 : ℚ) ^ 63

end CrypTen.Svm.Plain

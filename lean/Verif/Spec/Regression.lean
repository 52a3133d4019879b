import Mathlib.Algebra.BigOperators.Fin
import Mathlib.Algebra.Order.Field.Rat
import Mathlib.Logic.Function.Iterate

/-!
# Gradient descent for linear regression, on exact numbers
-/

namespace CrypTen.Regression.Plain
variable {F N : ℕ}

/-- Prediction minus target for example `i`. -/
def residual (x : Fin N × Fin F → ℚ) (y : Fin N → ℚ) (w : Fin F → ℚ) (b : ℚ) (i : Fin N) : ℚ := ∑ f, x (i, f) * w f + b - y i

/-- Mean squared error. -/
def loss (x : Fin N × Fin F → ℚ) (y : Fin N → ℚ) (w : Fin F → ℚ) (b : ℚ) : ℚ := (∑ i, residual x y w b i ^ 2) / N

/-- Derivative of the loss in `w f`. -/
def gradW (x : Fin N × Fin F → ℚ) (y : Fin N → ℚ) (w : Fin F → ℚ) (b : ℚ) (f : Fin F) : ℚ := ∑ i, x (i, f) * (1 / N * (residual x y w b i * 2))

/-- Derivative of the loss in `b`. -/
def gradB (x : Fin N × Fin F → ℚ) (y : Fin N → ℚ) (w : Fin F → ℚ) (b : ℚ) : ℚ := ∑ i, 1 / N * (residual x y w b i * 2)

/-- A step of gradient descent. -/
def step (lr : ℚ) (x : Fin N × Fin F → ℚ) (y : Fin N → ℚ) (wb : (Fin F → ℚ) × ℚ) : (Fin F → ℚ) × ℚ :=
  (fun f => wb.1 f - gradW x y wb.1 wb.2 f * lr, wb.2 - gradB x y wb.1 wb.2 * lr)

/-- Weights and bias after `t` steps. -/
def weights (lr : ℚ) (x : Fin N × Fin F → ℚ) (y : Fin N → ℚ) (w0 : Fin F → ℚ) (b0 : ℚ) (t : ℕ) : (Fin F → ℚ) × ℚ := (step lr x y)^[t] (w0, b0)

/-- Square of the Euclidean distance. -/
def dist2 (w : Fin F → ℚ) (b : ℚ) (w' : Fin F → ℚ) (b' : ℚ) : ℚ := ∑ f, (w f - w' f) ^ 2 + (b - b') ^ 2

/-! ## Error bounds: `n` parties, `k` bits of precision, features up to `X`, residuals up to `D`, weights up to `V`, learning rate `lr` -/

/-- Residuals. -/
def resErr (n k F : ℕ) (V : ℚ) : ℚ := F * (V * (1 / 2 ^ k)) + n * (1 / 2 ^ k) + 1 / 2 ^ k

/-- Twice the residuals. -/
def twiceErr (n k : ℕ) (D er : ℚ) : ℚ := er * 2 + D * (1 / 2 ^ k) + er * (1 / 2 ^ k) + n * (1 / 2 ^ k)

/-- Gradients of the predictions. -/
def outErr (n k N : ℕ) (D et : ℚ) : ℚ := (n + 1) * (1 / 2 ^ k) * (2 * D) + 1 / N * et + (n + 1) * (1 / 2 ^ k) * et + n * (1 / 2 ^ k)

/-- Gradients of the parameters. -/
def gradErr (n k F N : ℕ) (X D V : ℚ) : ℚ :=
  2 * D * (1 / 2 ^ k) + N * ((X + 1 / 2 ^ k) * outErr n k N D (twiceErr n k D (resErr n k F V))) + n * (1 / 2 ^ k)

/-- One update. -/
def stepErr (n k F N : ℕ) (X D V lr : ℚ) : ℚ := gradErr n k F N X D V * lr + 2 * D * X * (1 / 2 ^ k) + gradErr n k F N X D V * (1 / 2 ^ k) + n * (1 / 2 ^ k)

/-- The loss. -/
def lossErr (n k : ℕ) (D er : ℚ) : ℚ := er * (2 * D + er) + n * (1 / 2 ^ k) + (3 * n + 2) * (1 / 2 ^ k)

/-- Room for all intermediate results in 64-bit words: features up to `X`, targets up to `Y`, weights and bias up to `V`, residuals up to `D`. -/
structure Room (n k F N : ℕ) (X Y V D lr : ℚ) : Prop where
  k0 : 0 < k
  k62 : k ≤ 62
  parties : n < 2 ^ 60
  N0 : 0 < N
  X1 : 1 ≤ X
  Y0 : 0 ≤ Y
  V1 : 1 ≤ V
  hD : D = F * (X * V) + V + Y
  lr0 : 0 ≤ lr
  err : gradErr n k F N X D V ≤ 1
  fit : 2 ^ k * 2 ^ k * ((N + 1) * ((2 * D + 4) * ((2 * D + 4) * ((X + 1) * (lr + 2))))) < (2 : ℚ) ^ 63

end CrypTen.Regression.Plain

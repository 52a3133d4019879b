import Mathlib.Algebra.BigOperators.Fin
import Mathlib.Analysis.SpecialFunctions.Log.Basic

/-!
# Gradient descent for logistic regression, on real numbers
-/

namespace CrypTen.Logistic.Plain
variable {F N : ℕ}

/-- The logistic function. -/
noncomputable def logistic (z : ℝ) : ℝ := 1 / (1 + Real.exp (-z))

/-- The linear function of example `i`. -/
noncomputable def logit (x : Fin N × Fin F → ℝ) (w : Fin F → ℝ) (b : ℝ) (i : Fin N) : ℝ := ∑ f, x (i, f) * w f + b

/-- Mean binary cross-entropy of the predicted probabilities. -/
noncomputable def loss (x : Fin N × Fin F → ℝ) (y : Fin N → ℝ) (w : Fin F → ℝ) (b : ℝ) : ℝ :=
  (∑ i, -(y i * Real.log (logistic (logit x w b i)) + (1 - y i) * Real.log (1 - logistic (logit x w b i)))) / N

/-- Derivative of the loss in `w f`. -/
noncomputable def gradW (x : Fin N × Fin F → ℝ) (y : Fin N → ℝ) (w : Fin F → ℝ) (b : ℝ) (f : Fin F) : ℝ := ∑ i, x (i, f) * ((logistic (logit x w b i) - y i) / N)

/-- Derivative of the loss in `b`. -/
noncomputable def gradB (x : Fin N × Fin F → ℝ) (y : Fin N → ℝ) (w : Fin F → ℝ) (b : ℝ) : ℝ := ∑ i, (logistic (logit x w b i) - y i) / N

/-- A step of gradient descent. -/
noncomputable def step (lr : ℝ) (x : Fin N × Fin F → ℝ) (y : Fin N → ℝ) (wb : (Fin F → ℝ) × ℝ) : (Fin F → ℝ) × ℝ :=
  (fun f => wb.1 f - gradW x y wb.1 wb.2 f * lr, wb.2 - gradB x y wb.1 wb.2 * lr)

/-- Weights and bias after `t` steps. -/
noncomputable def weights (lr : ℝ) (x : Fin N × Fin F → ℝ) (y : Fin N → ℝ) (w0 : Fin F → ℝ) (b0 : ℝ) (t : ℕ) : (Fin F → ℝ) × ℝ := (step lr x y)^[t] (w0, b0)

/-- Square of the Euclidean distance. -/
def dist2 (w : Fin F → ℝ) (b : ℝ) (w' : Fin F → ℝ) (b' : ℝ) : ℝ := ∑ f, (w f - w' f) ^ 2 + (b - b') ^ 2

/-! ## Error bounds for two parties and the default configuration: features up to `X`, weights up to `V`, learning rate `lr` -/

/-- One unit of the encoding. -/
def unit : ℚ := 1 / 2 ^ 16

/-- Logits. -/
def logitErr (F : ℕ) (V : ℚ) : ℚ := F * (V * unit) + 2 * unit

/-- Predictions: the error of `sigmoid`, and a quarter of the error of the logits. -/
def predErr (F : ℕ) (V : ℚ) : ℚ := 1 / 30 + logitErr F V / 4

/-- Gradients of the logits, apart from the error of the predictions. -/
def outErr (N : ℕ) : ℚ := unit / N + 10 * unit

/-- Gradients of the parameters, apart from the error of the predictions. -/
def gradErr (N : ℕ) (X : ℚ) : ℚ := 3 * unit + N * ((X + unit) * outErr N) + 2 * unit

/-- One update. -/
def stepErr (F N : ℕ) (X V lr : ℚ) : ℚ := gradErr N X * lr + 3 * X * unit + gradErr N X * unit + 2 * unit + X * predErr F V * lr

/-- Room for all intermediate results, and logits for which `sigmoid` is accurate. -/
structure Room (F N : ℕ) (X V lr : ℚ) : Prop where
  N0 : 0 < N
  X1 : 1 ≤ X
  V1 : 1 ≤ V
  lr0 : 0 ≤ lr
  range : F * (X * V) + V ≤ 127
  err : gradErr N X ≤ 1
  fit : (X + 1) * (lr + 2) < 2 ^ 28

end CrypTen.Logistic.Plain

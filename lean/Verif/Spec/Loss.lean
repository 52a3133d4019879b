import Verif.Spec.Broadcast
import Mathlib.Analysis.SpecialFunctions.Log.Basic

/-!
# The documented losses

The formulas of the docstrings in /repo/crypten/nn/loss.py.
-/

namespace CrypTen.LossSpec

/-- The mean of the numbers `l` of all entries of a tensor of shape `s`. -/
noncomputable def meanOver (s : List ℕ) (l : List ℕ → ℝ) : ℝ := ((allIdx s).map l).sum / (allIdx s).length

/-- `σ` -/
noncomputable def logistic (x : ℝ) : ℝ := 1 / (1 + Real.exp (-x))

/-- `l_n` of the binary cross-entropy: prediction `p`, target `t`. -/
noncomputable def bceTerm (p t : ℝ) : ℝ := -(t * Real.log p + (1 - t) * Real.log (1 - p))

/-- `r` of the RAPPOR loss. -/
noncomputable def response (alpha p : ℝ) : ℝ := alpha * p + (1 - alpha) * (1 - p)

/-- The cross-entropy of the scores `x` of `C` classes if the class is `c`. -/
noncomputable def entropy (C : ℕ) (x : ℕ → ℝ) (c : ℕ) : ℝ := -x c + Real.log (∑ j ∈ Finset.range C, Real.exp (x j))

/-- The cross-entropy of scores `x[n, c, r]` for the classes `cls n r`, summed over the positions `r` and averaged over the `N` observations. -/
noncomputable def crossEntropyLoss (N C : ℕ) (rest : List ℕ) (x : List ℕ → ℝ) (cls : ℕ → List ℕ → ℕ) : ℝ :=
  (∑ n ∈ Finset.range N, ((allIdx rest).map fun r => entropy C (fun c => x (n :: c :: r)) (cls n r)).sum) / N

/-- The one-hot tensor of the classes `cls`: 1 at `[n, cls n r, r]`. -/
noncomputable def oneHot (cls : ℕ → List ℕ → ℕ) : List ℕ → ℝ
  | n :: c :: r => if c = cls n r then 1 else 0
  | _ => 0

/-- Every class is one of the `C` classes. -/
def Classes (N C : ℕ) (rest : List ℕ) (cls : ℕ → List ℕ → ℕ) : Prop := ∀ n r, n < N → ValidIdx rest r → cls n r < C

end CrypTen.LossSpec

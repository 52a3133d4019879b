import Mathlib.Data.Rat.Defs
import Mathlib.Algebra.BigOperators.Fin
import Mathlib.Analysis.SpecialFunctions.Log.Basic

/-! What randomised response and the loss should be. -/

namespace CrypTen.DP

/-- A label as a number. -/
def bit (b : Bool) : ℚ := if b then 1 else 0

/-- The XOR of a list of flips. -/
def flips : List Bool → Bool
  | [] => false
  | b :: l => xor b (flips l)

/-- Probability that a label is flipped after `k` independent flips, each with probability `q`. -/
def flippedProb (q : ℚ) (k : ℕ) : ℚ := ∑ m : Fin k → Bool, if flips (List.ofFn m) then ∏ i, (if m i then q else 1 - q) else 0

/-- Mean cross-entropy of labels `t` under predicted probabilities `q`. -/
noncomputable def meanLoss {ι : Type} [Fintype ι] (t q : ι → ℝ) : ℝ := -(∑ i, (t i * Real.log (q i) + (1 - t i) * Real.log (1 - q i))) / Fintype.card ι

/-- Probability that the model predicts for a reported label: with probability `1 - α` the report is the opposite of the label (documented RAPPOR correction). -/
noncomputable def reportProb {ι : Type} (alpha : Option ℝ) (z : ι → ℝ) : ι → ℝ :=
  match alpha with
  | none => fun i => 1 / (1 + Real.exp (-z i))
  | some α => fun i => α * (1 / (1 + Real.exp (-z i))) + (1 - α) * (1 - 1 / (1 + Real.exp (-z i)))

end CrypTen.DP

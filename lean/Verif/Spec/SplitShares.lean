import Verif.Spec.Privacy
import Verif.Spec.DPSplit
import Verif.Model.SplitShares
import Verif.Props.FixedPoint

/-! The gradient of the last layer that split training should reveal, with which error, and what it may depend on. -/

namespace CrypTen.Split
variable {n : ℕ} {ι : Type} {b o d : ℕ}

/-- Probability that the model gives to a reported label `1` if its prediction is `p`; with `rappor_prob = α`, a label is reported as it is with probability `α`. -/
def report (alpha : Option ℚ) (p : ℚ) : ℚ :=
  match alpha with
  | none => p
  | some α => α * p + (1 - α) * (1 - p)

/-- Factor of the derivative of the loss with respect to a logit, beside `report - label`. -/
def factor (alpha : Option ℚ) (p : ℚ) : ℚ :=
  match alpha with
  | none => 1
  | some α => (2 * α - 1) * (p * (1 - p)) / (report (some α) p * (1 - report (some α) p))

/-- Derivative of the mean loss with respect to the logits. -/
def dz (alpha : Option ℚ) (p t : Fin b × Fin o → ℚ) : Fin b × Fin o → ℚ := fun i => (report alpha (p i) - t i) / (b * o : ℕ) * factor alpha (p i)

/-- The gradient of the weight of the last layer with input `A`. -/
def gradient (alpha : Option ℚ) (p t : Fin b × Fin o → ℚ) (A : Fin b × Fin d → ℚ) : Fin o × Fin d → ℚ := fun q => ∑ i, dz alpha p t (i, q.1) * A (i, q.2)

/-- The labels are `t`, up to `e`. -/
inductive LabelsAre (k : ℕ) : Labels n ι → (ι → ℚ) → ℚ → Prop
  | plain (t : ι → ℚ) : LabelsAre k (.plain t) t (1 / 2 ^ k)
  | enc (x : AST n ι) (t : ι → ℚ) (e : ℚ) : 0 ≤ e → Near k x t e → LabelsAre k (.enc x) t e

/-- The noise is `z`, up to `e`: nothing; the numbers that a party other than party 0 draws, times the magnitude; or the numbers drawn jointly, times the magnitude. -/
inductive NoiseIs [NeZero n] (k : ℕ) (N : Noise n ι) : (ι → ℚ) → ℚ → Prop
  | none : N.magnitude = none ∨ N.magnitude = some 0 → NoiseIs k N (fun _ => 0) 0
  | drawn (m : ℚ) (r : Fin n) : N.magnitude = some m → m ≠ 0 → N.src = some r → r ≠ 0 → NoiseIs k N (fun i => N.drawn r i * m) (1 / 2 ^ k)
  | joint (m e J : ℚ) (v : ι → ℚ) : N.magnitude = some m → m ≠ 0 → N.src = Option.none ∨ N.src = some 0 → Near k N.joint v e → 0 ≤ e → 0 ≤ J → (∀ i, |v i| ≤ J) → 2 ^ k * |m| < (2 : ℚ) ^ 63 →
      2 ^ k * 2 ^ k * ((J + e) * (|m| + 1 / 2 ^ k)) < (2 : ℚ) ^ 63 → NoiseIs k N (fun i => v i * m) (e * |m| + J * (1 / 2 ^ k) + e * (1 / 2 ^ k) + n / 2 ^ k)

/-- Error of `report - label`, divided by the number of predictions; `e` is the error of the labels. -/
def diffErr (n k b o : ℕ) (e : ℚ) : ℚ := (1 / 2 ^ k + e) / (b * o : ℕ) + (3 * n + 2) / 2 ^ k

/-- Error of the derivative with respect to the logits. `T` bounds the labels, `C` the factors. -/
def dzErr (n k b o : ℕ) (e T C : ℚ) : ℚ := diffErr n k b o e * C + (1 + T) / (b * o : ℕ) * (1 / 2 ^ k) + diffErr n k b o e * (1 / 2 ^ k) + n / 2 ^ k

/-- Error of the gradient of the weight. `X` bounds the inputs of the last layer. -/
def gradErr (n k b o : ℕ) (e T C X : ℚ) : ℚ := b * (dzErr n k b o e T C * X + (1 + T) / (b * o : ℕ) * C * (1 / 2 ^ k) + dzErr n k b o e T C * (1 / 2 ^ k)) + n / 2 ^ k

/-- The numbers fit. `M` bounds the noise, `eN` its error. -/
structure Room (n k b o : ℕ) (e T C X M eN : ℚ) : Prop where
  k0 : 0 < k
  k62 : k ≤ 62
  parties : n < 2 ^ 60
  size0 : 0 < b * o
  size : b * o < 2 ^ 63
  T0 : 0 ≤ T
  C1 : 1 ≤ C
  X0 : 0 ≤ X
  diff : 2 ^ k * (1 + T + (1 / 2 ^ k + e)) < (2 : ℚ) ^ 63
  corr : 2 ^ k * 2 ^ k * (((1 + T) / (b * o : ℕ) + diffErr n k b o e) * (C + 1 / 2 ^ k)) < (2 : ℚ) ^ 63
  prod : 2 ^ k * 2 ^ k * (b * (((1 + T) / (b * o : ℕ) * C + dzErr n k b o e T C) * (X + 1 / 2 ^ k))) < (2 : ℚ) ^ 63
  sum : 2 ^ k * (b * ((1 + T) / (b * o : ℕ) * C * X) + M + (gradErr n k b o e T C X + eN)) < (2 : ℚ) ^ 63

/-- The logits: the last layer has weight `W` and bias `c`. -/
def logits (A : Fin b × Fin d → ℝ) (c : Fin o → ℝ) (W : Fin o × Fin d → ℝ) : Fin b × Fin o → ℝ := fun i => ∑ l, A (i.1, l) * W (i.2, l) + c i.2

/-- The labels differ at most in what party `h` knows of them. -/
def SameLabels (h label : Fin n) : Labels n ι → Labels n ι → Prop
  | .plain t, .plain t' => label ≠ h → t = t'
  | .enc t, .enc t' => Privacy.SameTensor h t t'
  | _, _ => False

/-- The noise differs at most in what party `h` knows of it. -/
def SameNoise (h : Fin n) (N N' : Noise n ι) : Prop :=
  N.magnitude = N'.magnitude ∧ N.src = N'.src ∧ (∀ r, r ≠ h → N.drawn r = N'.drawn r) ∧ Privacy.SameTensor h N.joint N'.joint

end CrypTen.Split

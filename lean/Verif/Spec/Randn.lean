import Verif.Model.Randn
import Mathlib.Probability.Distributions.Gaussian.Real
import Mathlib.MeasureTheory.Constructions.Pi

/-!
# Specification: normally distributed random numbers

The uniform and the normal distribution are Mathlib's. A call of `randn` for `N` numbers draws `N` uniform numbers, and one more if
`N` is odd.
-/

namespace CrypTen.Randn
open MeasureTheory Set ProbabilityTheory

/-- The uniform distribution on (0, 1). -/
noncomputable abbrev U : Measure ℝ := volume.restrict (Ioo 0 1)

/-- The standard normal distribution. -/
noncomputable abbrev N01 : Measure ℝ := gaussianReal 0 1

/-- The number of pairs that are made for `N` numbers. -/
def pairs (N : ℕ) : ℕ := (N + 1) / 2

/-- The draws as a sequence. -/
def seq {M : ℕ} (ω : Fin M → ℝ) (i : ℕ) : ℝ := if h : i < M then ω ⟨i, h⟩ else 0

/-- `randn` for `N` numbers from the uniform draws `ω`: the first `N` of them are the result of `rand(*sizes)`, one more is drawn if
`N` is odd. -/
noncomputable def sample (tau : ℝ) (N : ℕ) (ω : Fin (pairs N + pairs N) → ℝ) : Fin N → ℝ :=
  fun i => (randn tau ⟨N, seq ω⟩ ⟨1, fun i => seq ω (N + i)⟩).get i

/-- The numbers are independent and have the standard normal distribution. -/
noncomputable abbrev normals (N : ℕ) : Measure (Fin N → ℝ) := Measure.pi fun _ => N01

/-- The distribution of what `randn` returns for `N` numbers, if the draws are independent and uniform on (0, 1). -/
noncomputable def output (tau : ℝ) (N : ℕ) : Measure (Fin N → ℝ) :=
  (Measure.pi fun _ : Fin (pairs N + pairs N) => U).map (sample tau N)

end CrypTen.Randn

import Mathlib.Analysis.SpecialFunctions.Trigonometric.Basic

/-! The coefficients that `tanh` and `sigmoid` use with the method "chebyshev". -/

open Finset

namespace CrypTen

/-- Chebyshev coefficient `j` of `func` on `[-width, width]` (util.py:32-53 `chebyshev_series`); the code computes it in 32-bit floats, here it is exact. -/
noncomputable def chebyshevSeries (func : ℝ → ℝ) (width : ℝ) (terms j : ℕ) : ℝ :=
  2 / terms * ∑ k ∈ range terms, func (width * Real.cos ((k + 0.5) * Real.pi / terms)) * Real.cos (j * (k + 0.5) * Real.pi / terms)

end CrypTen

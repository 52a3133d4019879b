import Mathlib.Data.Rat.Floor

/-! Exact arithmetic the encrypted operations are compared with. -/

namespace CrypTen
variable {ι ι' κ : Type}

/-- The number fits a 64-bit word. -/
def Fits (v : ℚ) : Prop := -2 ^ 63 ≤ v ∧ v < 2 ^ 63

/-- Exact value of a bilinear function (`mul`, `matmul`, `conv…`), given by the index pairs whose products are summed into each entry. -/
def bilinearQ (B : κ → List (ι × ι')) (x : ι → ℚ) (y : ι' → ℚ) (k : κ) : ℚ := ((B k).map fun ij => x ij.1 * y ij.2).sum

end CrypTen

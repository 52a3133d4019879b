import Mathlib.Data.Fintype.BigOperators
import Mathlib.Algebra.BigOperators.Fin

/-! Sampling an index with given weights. -/

namespace CrypTen

/-- Total weight of the indices below `j`. -/
def below {m : ℕ} (W : Fin m → ℕ) (j : ℕ) : ℕ := ∑ i : Fin m, if i.val < j then W i else 0

/-- With the random number `R / N`, index `j` is chosen: `R / N * total` falls into the interval of length `W j` that belongs to `j`. -/
def Chosen {m : ℕ} (W : Fin m → ℕ) (N R : ℕ) (j : Fin m) : Prop :=
  N * below W j ≤ R * below W m ∧ R * below W m < N * below W (j + 1)

instance {m : ℕ} (W : Fin m → ℕ) (N R : ℕ) (j : Fin m) : Decidable (Chosen W N R j) := by unfold Chosen; infer_instance

/-- The number `r` falls into the interval that belongs to `j`; what lies below all intervals counts for the first. -/
def FallsInto {m : ℕ} (W : Fin m → ℕ) (r : ℤ) (j : Fin m) : Prop := r < below W (j + 1) ∧ (j.val = 0 ∨ (below W j : ℤ) ≤ r)

instance {m : ℕ} (W : Fin m → ℕ) (r : ℤ) (j : Fin m) : Decidable (FallsInto W r j) := by unfold FallsInto; infer_instance

end CrypTen

import Verif.Model.Validation

/-!
# What validation should do

Not change anything, let results pass that agree with torch's on the values the method was called with, and reject others.
-/

namespace CrypTen.Validation
variable {σ : Type}

/-- Two plain tensors agree: same size, and entry by entry equal up to `tolerance / 10`, or up to `tolerance` relative to the sum of the magnitudes. -/
def Agree (tolerance : ℚ) (r t : Plain) : Prop :=
  r.size = t.size ∧ ∀ q ∈ r.data.zip t.data, |q.1 - q.2| ≤ tolerance / 10 ∨ |q.1 - q.2| ≤ tolerance * (|q.1| + |q.2|)

end CrypTen.Validation

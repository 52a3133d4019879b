import Verif.Model.Division

/-! The numbers a divisor stands for. -/

namespace CrypTen
variable {κ : Type}

/-- All entries of the divisor are integers, namely `z`. -/
def Divisor.Integers (z : κ → ℤ) : Divisor κ → Prop
  | .int w => ∀ i, z i = w
  | .float (some q) => q.den = 1 ∧ ∀ i, (z i : ℚ) = q
  | .intTensor w => ∀ i, z i = w i
  | .floatTensor w => ∀ i, w i = some (z i : ℚ)
  | _ => False

/-- The divisor is a floating-point number that is no integer, or a tensor of such numbers not all of which are integers. -/
def Divisor.Fraction (y : κ → ℚ) : Divisor κ → Prop
  | .float (some q) => q.den ≠ 1 ∧ ∀ i, y i = q
  | .floatTensor w => (∀ i, w i = some (y i)) ∧ ∃ i, (y i).den ≠ 1
  | _ => False

/-- The reciprocals of the divisor are computed with relative error at most `ε` (for Python floats including the conversion to single precision). -/
def Divisor.Accurate (F : FloatUnit) (ε : ℚ) (y : κ → ℚ) : Divisor κ → Prop
  | .float _ => ∀ i, ∃ r, F.recip (F.single (y i)) = some r ∧ |r - 1 / y i| ≤ ε / |y i|
  | _ => ∀ i, ∃ r, F.recip (some (y i)) = some r ∧ |r - 1 / y i| ≤ ε / |y i|

/-- The tensor (of shape `s`) has at least one dimension if it is divided by a Python float; `div` has expanded it to the shape of a tensor divisor (of shape `t`). -/
def Divisor.FitsShape (s t : List ℕ) : Divisor κ → Prop
  | .float _ => s ≠ []
  | _ => inplaceFits s t = true

end CrypTen

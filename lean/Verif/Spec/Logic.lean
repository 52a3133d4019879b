import Verif.Model.Logic
import Verif.Spec.Value

/-! Exact meaning of the operands of a comparison. -/

namespace CrypTen
variable {n : ℕ} {ι : Type}

/-- Value of the second operand: of an encrypted tensor, its value; of public numbers, what they are rounded to when encoded at scale `s`. -/
def Operand.valueAt (s : ℕ) : Operand n ι → ι → ℚ
  | .enc y, i => y.value i
  | .pub y, i => (truncQ (s * y i) : ℚ) / s

/-- The scale at which two operands are compared. -/
def Operand.jointScale (s : ℕ) : Operand n ι → ℕ
  | .enc y => max s y.scale
  | .pub _ => s

/-- The scale is that of a result of a comparison (1) or the default scale. -/
def StdScale (D s : ℕ) : Prop := s = 1 ∨ s = D

/-- The scale of the operand, if encrypted, is standard. -/
def Operand.Std (D : ℕ) : Operand n ι → Prop
  | .enc y => StdScale D y.scale
  | .pub _ => True

end CrypTen

import Verif.Model.SequentialDict

/-!
# What a sequential model should compute
-/

namespace CrypTen.SequentialDict

variable {V : Type}

/-- Apply the functions one after the other, the first one first. -/
def compose : List (V → V) → V → V
  | [], x => x
  | f :: fs, x => compose fs (f x)

/-- A module with one input (with a value for no input, which does not occur). -/
def unary (default : V) (f : V → V) : List V → V := fun vs => f (vs.headD default)

end CrypTen.SequentialDict

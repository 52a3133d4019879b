import Verif.Model.Launch

/-!
# What a launch should return
-/

namespace CrypTen.Launch
variable {n : ℕ} {V : Type}

/-- The number of bytes that a process sends. -/
def Outcome.bytes : Outcome V → ℕ
  | .returns _ size => size
  | _ => 0

/-- The value that a process returns, if it can be sent. -/
def Outcome.value? : Outcome V → Option V
  | .returns v _ => some v
  | _ => none

/-- Whether a process fails. -/
def Outcome.fails : Outcome V → Bool
  | .raises => true
  | _ => false

/-- `None` if a process raised, else the return values (those that can be sent) in the order of the ranks. -/
def expected (outcome : Fin n → Outcome V) : Option (List V) :=
  if ∃ p, (outcome p).fails then none else some ((List.finRange n).filterMap fun p => (outcome p).value?)

end CrypTen.Launch

import Verif.Model.Proto

/-! What it means for a protocol to be correct. -/

namespace CrypTen
variable {n : ℕ} {α : Type}

/-- `Q` holds of the result whatever the provider hands out, provided no division of the run was spoilt by a wrap-around. -/
def Sat (m : Proto n α) (Q : α → Prop) : Prop := ∀ T : Tuples n, T.Valid → ∀ c, (m T c).good → Q (m T c).val

/-- `Q` holds of the result whatever the provider hands out. -/
def SatX (m : Proto n α) (Q : α → Prop) : Prop := ∀ T : Tuples n, T.Valid → ∀ c, (m T c).good ∧ Q (m T c).val

end CrypTen

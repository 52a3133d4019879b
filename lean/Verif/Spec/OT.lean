import Verif.Model.OT

/-! What an oblivious transfer should deliver. -/

namespace CrypTen.OT

/-- The chosen message. -/
def Transfer.chosen (t : Transfer) : List ℕ := if t.choice then t.m1 else t.m0

/-- The messages are not longer than a hash. -/
def Transfer.Short (t : Transfer) : Prop := t.m0.length ≤ 64 ∧ t.m1.length ≤ 64

end CrypTen.OT

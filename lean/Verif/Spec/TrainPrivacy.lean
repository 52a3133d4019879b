import Verif.Spec.Privacy
import Verif.Model.Training

/-! What a coalition sees of gradients and of training. -/

namespace CrypTen.Privacy
variable {n : ℕ} {sh : ℕ → Type}

/-- The recorded computations differ at most in the numbers that party `h` enters. -/
def SameTape (h : Fin n) (t t' : Backprop.Tape n sh) : Prop :=
  List.Forall₂ (fun c c' => c = c' ∨ ∃ d x x', c = ⟨d, .leaf h x⟩ ∧ c' = ⟨d, .leaf h x'⟩) t t'

/-- The lists of tensors to encrypt differ at most in the numbers of party `h`. -/
def SameData (h : Fin n) (l l' : List (Σ r, Fin n × (sh r → ℚ))) : Prop :=
  List.Forall₂ (fun a a' => a = a' ∨ ∃ r x x', a = ⟨r, h, x⟩ ∧ a' = ⟨r, h, x'⟩) l l'

/-- Every party except `h` holds the same gradients (or velocities), of the same tensors. -/
def SameGrads (h : Fin n) (G G' : Backprop.Grads n sh) : Prop :=
  ∀ r, (G r = none ∧ G' r = none) ∨ ∃ g g', G r = some g ∧ G' r = some g' ∧ SameTensor h g g'

/-- Every party except `h` holds the same values and the same gradients. -/
def SameState (h : Fin n) (s s' : Program.Regs n sh × Backprop.Grads n sh) : Prop := SameRegs h s.1 s'.1 ∧ SameGrads h s.2 s'.2

end CrypTen.Privacy

import Verif.Model.GradBuffers

/-!
# What the gradient of a leaf should be

The sum of the gradients that have arrived since it was last dropped, each with the value that the caller gave to the tensor.
-/

namespace CrypTen.GradBuffers
variable {G : Type} [AddCommGroup G]

/-- The value of an arriving gradient. -/
def Message.value (inputs : ℕ → G) : Message G → G
  | .computed g => g
  | .callers b => inputs b

/-- What one event makes of the gradient of leaf `w`. -/
def Event.effect (inputs : ℕ → G) (w : ℕ) (total : Option G) : Event G → Option G
  | .arrive v m => if v = w then some (total.getD 0 + m.value inputs) else total
  | .reset v => if v = w then none else total
  | .clear v => if v = w then total.map fun _ => 0 else total

/-- The gradient of leaf `w` after all events. -/
def expected (inputs : ℕ → G) (w : ℕ) (l : List (Event G)) : Option G := l.foldl (Event.effect inputs w) none

/-- In history `l` the caller's tensor `b` arrived at a leaf that had no gradient, and so became the gradient of that leaf. -/
def Adopted (inputs : ℕ → G) (l : List (Event G)) (b : ℕ) : Prop :=
  ∃ l₁ w l₂, l = l₁ ++ .arrive w (.callers b) :: l₂ ∧ expected inputs w l₁ = none

/-- The caller does not use a tensor as gradient input any more once it has become the gradient of a leaf. -/
def Careful (inputs : ℕ → G) (l : List (Event G)) : Prop :=
  ∀ l₁ w b l₂, l = l₁ ++ .arrive w (.callers b) :: l₂ → ¬ Adopted inputs l₁ b

end CrypTen.GradBuffers

import Verif.Model.Autograd

/-!
# What back-propagation should compute
-/

namespace CrypTen
variable {G : Type} [AddCommGroup G]

/-- The gradient with respect to `w` of gradient `g` at `v`: follow every path from `v` to `w` separately, applying the local derivatives on the way, and add up. `children` is the
graph; the first argument bounds the length of the paths. -/
def sumOverPaths (children : ℕ → List (ℕ × Option (G →+ G))) (w : ℕ) : ℕ → ℕ → G → G
  | 0, _, _ => 0
  | len + 1, v, g =>
    if v = w then g
    else ((children v).map fun c => match c.2 with
      | some J => sumOverPaths children w len c.1 (J g)
      | none => 0).sum

/-- A graph as recorded by forward computations: children are older than their parent, a tensor with children requires gradients, and only tensors without children are
marked as not differentiable. -/
structure Recorded (requiresGrad : ℕ → Bool) (children : ℕ → List (ℕ × Option (G →+ G))) : Prop where
  older : ∀ v, ∀ c ∈ children v, c.1 < v
  requires : ∀ v, children v ≠ [] → requiresGrad v = true
  leaf : ∀ v, ∀ c ∈ children v, c.2 = none → children c.1 = []

end CrypTen

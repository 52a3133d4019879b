import Mathlib.Algebra.Group.Hom.Defs
import Mathlib.Algebra.Group.Int.Defs
import Mathlib.Logic.Function.Basic

/-!
# The autograd engine

Models `CrypTensor._identify_required_grads` and `CrypTensor.backward` (/repo/crypten/cryptensor.py:207-272). Tensors are numbered in the order of their creation, so the
children of a tensor have smaller numbers. Gradients are elements of an abelian group `G` (one group for all shapes). An edge carries the part of `grad_fn.backward` that
computes the gradient of that child, an additive function of the gradient of the parent, or `none` if `ctx.is_differentiable` is false for the child. The arithmetic of
gradients is exact here. The gradient input is given; `backward()` without one is the case of a single element with gradient 1.
-/

namespace CrypTen

/-- The mutable attributes of all tensors. `log` is a ghost: the tensors that have called their `grad_fn.backward`, last one first. -/
structure Tape (G : Type) [AddCommGroup G] where
  grad : ℕ → Option G
  expected : ℕ → ℕ
  received : ℕ → ℕ
  children : ℕ → List (ℕ × Option (G →+ G))
  log : List ℕ := []

namespace Tape
variable {G : Type} [AddCommGroup G] (requiresGrad : ℕ → Bool)

/-- `_identify_required_grads` (cryptensor.py:207-212). The first argument bounds the depth of the recursion. -/
def identify : ℕ → Tape G → ℕ → Tape G
  | 0, s, _ => s
  | f + 1, s, v =>
    let s := { s with expected := Function.update s.expected v (s.expected v + 1) }
    if s.expected v = 1 then (s.children v).foldl (fun s c => identify f s c.1) s else s

/-- `self.grad_received += 1` and storing or accumulating the gradient (cryptensor.py:234-239). -/
def receive (s : Tape G) (v : ℕ) (g : G) : Tape G :=
  { s with
    received := Function.update s.received v (s.received v + 1)
    grad := Function.update s.grad v (some (match s.grad v with
      | none => g
      | some h => h + g)) }

/-- `grad_fn.backward` and the differentiable children (cryptensor.py:249-263): what is sent to whom. -/
def messages (cs : List (ℕ × Option (G →+ G))) (g : G) : List (ℕ × G) := cs.filterMap fun c => c.2.map fun J => (c.1, J g)

/-- The end of `backward` (cryptensor.py:265-272). -/
def cleanUp (s : Tape G) (v : ℕ) (any : Bool) : Tape G :=
  { s with
    grad := if any then Function.update s.grad v none else s.grad
    children := Function.update s.children v []
    expected := Function.update s.expected v 0
    received := Function.update s.received v 0 }

/-- `backward(grad_input, top_node=False)` (cryptensor.py:214-272). -/
def backwardRec : ℕ → Tape G → ℕ → G → Tape G
  | 0, s, _, _ => s
  | f + 1, s, v, g =>
    if requiresGrad v then
      let s := s.receive v g
      if s.children v = [] ∨ s.received v < s.expected v then s
      else
        let out := messages (s.children v) ((s.grad v).getD 0)
        let s := { s with log := v :: s.log }
        let s := out.foldl (fun s m => backwardRec f s m.1 m.2) s
        s.cleanUp v (!out.isEmpty)
    else s

/-- `backward(grad_input)` (cryptensor.py:214-272). -/
def backward (s : Tape G) (v : ℕ) (g : G) : Tape G :=
  if requiresGrad v then backwardRec requiresGrad (v + 1) (identify (v + 1) s v) v g else s

end Tape
end CrypTen

import Mathlib.Algebra.Group.Basic
import Mathlib.Logic.Function.Basic

/-!
# Gradient accumulation in shared storage

`CrypTensor.backward` (/repo/crypten/cryptensor.py:233-239) stores the tensor it is given (`self.grad = grad_input`) and adds later gradients to that tensor in place. This file
models what arrives at leaves. The gradient that arrives is a new tensor if an operation on the way computed one, and the storage of the `grad_input` of the caller if the leaf itself was
called or if only views lie between: `t`, `transpose`, `permute`, `view`, `reshape`, `flatten`, `squeeze`, `unsqueeze`, `dropout` in evaluation mode, `sum` and `mean` of a single
number return `grad_output` or a view of it (/repo/crypten/gradients.py:160-285, 425-452, 524-526, 1154, 1212). Views are identified with the storage that they show, and tensors with their
values, elements of a group.
-/

namespace CrypTen.GradBuffers
variable {G : Type} [AddCommGroup G]

/-- A tensor: number `b` of those that the caller made, or number `k` of those that backward passes computed. -/
inductive Ref where
  | callers (b : ℕ)
  | computed (k : ℕ)
deriving DecidableEq

/-- A gradient that arrives at a leaf: a tensor that the backward pass has just computed, or the caller's tensor number `b`. -/
inductive Message (G : Type) where
  | computed (g : G)
  | callers (b : ℕ)

/-- What happens to gradients: one arrives at leaf `w`; the gradient of `w` is dropped (`zero_grad()`, /repo/crypten/optim/optimizer.py:86-89, /repo/crypten/nn/module.py:312-315);
it is subtracted from itself (`zero_grad(set_to_none=False)`, optimizer.py:90-94). -/
inductive Event (G : Type) where
  | arrive (w : ℕ) (m : Message G)
  | reset (w : ℕ)
  | clear (w : ℕ)

/-- `read r`: the value that tensor `r` has. `next`: how many tensors have been computed. `grad w`: the tensor that is the gradient of leaf `w`. -/
structure State (G : Type) where
  read : Ref → G
  next : ℕ
  grad : ℕ → Option Ref

/-- The tensor that arrives (gradients.py: the result of the last backward function on the way). -/
def State.receive (s : State G) : Message G → State G × Ref
  | .computed g => ({ s with read := Function.update s.read (.computed s.next) g, next := s.next + 1 }, .computed s.next)
  | .callers b => (s, .callers b)

/-- Process a gradient input (cryptensor.py:234-239): `self.grad = grad_input` if there is none, else `self.grad.add_(grad_input)`, which computes the sum and writes it to the storage
of `self.grad` (cryptensor.py:397-414, mpc.py:94-98, arithmetic.py:206-209). -/
def State.accumulate (s : State G) (w : ℕ) (r : Ref) : State G :=
  match s.grad w with
  | none => { s with grad := Function.update s.grad w (some r) }
  | some a => { s with read := Function.update s.read a (s.read a + s.read r) }

/-- One event. `param.grad -= param.grad` writes in place as well (cryptensor.py:397-414; optimizer.py:93-94). -/
def State.step (s : State G) : Event G → State G
  | .arrive w m => (s.receive m).1.accumulate w (s.receive m).2
  | .reset w => { s with grad := Function.update s.grad w none }
  | .clear w =>
    match s.grad w with
    | none => s
    | some a => { s with read := Function.update s.read a (s.read a - s.read a) }

/-- All events in turn. -/
def State.run (s : State G) (l : List (Event G)) : State G := l.foldl State.step s

/-- The caller has made the tensors `inputs`; no leaf has a gradient (cryptensor.py:198-205). -/
def State.init (inputs : ℕ → G) : State G := ⟨fun r => match r with | .callers b => inputs b | .computed _ => 0, 0, fun _ => none⟩

/-- The value of `w.grad`, if there is one. -/
def State.gradient (s : State G) (w : ℕ) : Option G := (s.grad w).map s.read

end CrypTen.GradBuffers

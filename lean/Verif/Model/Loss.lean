import Verif.Model.Shape
import Mathlib.Analysis.SpecialFunctions.Log.Basic

/-!
# Loss functions

/repo/crypten/nn/loss.py with the functions it calls in /repo/crypten/gradients.py:1901-2033, in exact arithmetic (encoding and approximation errors are elsewhere). Of a tensor without entries the mean is taken as 0.
-/

namespace CrypTen.Loss
open NdTensor

/-- An argument of a loss: a plain tensor, one for each party, or an encrypted tensor. -/
inductive Arg (n : ℕ) where
  | torch (x : Fin n → NdTensor ℝ)
  | crypt (x : NdTensor ℝ)

/-- `isinstance(arg, crypten.CrypTensor)` -/
def Arg.isCrypt {n : ℕ} : Arg n → Bool
  | .torch _ => false
  | .crypt _ => true

/-- `crypten.cryptensor(arg)`: the source is party 0 (/repo/crypten/mpc/mpc.py:29, default `src=0`). -/
def Arg.encrypt {n : ℕ} [NeZero n] : Arg n → Arg n
  | .torch x => .crypt (x 0)
  | .crypt x => .crypt x

/-- The arguments `forward` gets (/repo/crypten/nn/loss.py:32-46): plain tensors are encrypted if the loss or any argument is encrypted. -/
def prepare {n : ℕ} [NeZero n] (encrypted : Bool) (x y : Arg n) : Arg n × Arg n :=
  if encrypted || x.isCrypt || y.isCrypt then (x.encrypt, y.encrypt) else (x, y)

/-- `t.mean()` -/
noncomputable def mean (t : NdTensor ℝ) : ℝ := sumEntries t.shape t.data / t.shape.prod

/-- Entry by entry, for tensors of the same shape. -/
def zipWith (f : ℝ → ℝ → ℝ) (x y : NdTensor ℝ) : NdTensor ℝ := ⟨x.shape, fun i => f (x.data i) (y.data i)⟩

/-- `sigmoid` -/
noncomputable def sigmoid (x : ℝ) : ℝ := 1 / (1 + Real.exp (-x))

/-- `MSELoss.forward` (loss.py:65-67) -/
noncomputable def mse (x y : NdTensor ℝ) : Option ℝ := if x.shape = y.shape then some (mean (zipWith (fun a b => (a - b) ^ 2) x y)) else none

/-- `L1Loss.forward` (loss.py:85-87) -/
noncomputable def l1 (x y : NdTensor ℝ) : Option ℝ := if x.shape = y.shape then some (mean (zipWith (fun a b => |a - b|) x y)) else none

/-- `AutogradBinaryCrossEntropy.forward` without the assertion (gradients.py:1903-1914) -/
noncomputable def bceValue (pred target : NdTensor ℝ) : ℝ := -mean (zipWith (fun p t => t * Real.log p + (1 - t) * Real.log (1 - p)) pred target)

/-- `BCELoss.forward` (loss.py:109-111) -/
noncomputable def bce (skip : Bool) (x y : NdTensor ℝ) : Option ℝ := if x.shape = y.shape then some (if skip then 0 else bceValue x y) else none

/-- `BCEWithLogitsLoss.forward` (loss.py:167-169, gradients.py:1929-1948) -/
noncomputable def bceWithLogits (skip : Bool) (x y : NdTensor ℝ) : Option ℝ :=
  if x.shape = y.shape then some (if skip then 0 else bceValue ⟨x.shape, fun i => sigmoid (x.data i)⟩ y) else none

/-- `RAPPORLoss.forward` (loss.py:198-200, gradients.py:1957-1985) -/
noncomputable def rappor (alpha : ℝ) (skip : Bool) (x y : NdTensor ℝ) : Option ℝ :=
  if x.shape = y.shape then
    let pred := fun i => sigmoid (x.data i)
    let normalized := fun i => if alpha = 0 then pred i else alpha * pred i + (1 - alpha) * (1 - pred i)
    some (if skip then 0 else bceValue ⟨x.shape, normalized⟩ y)
  else none

/-- `x.softmax(dim)` (/repo/crypten/common/functions/approximations.py:409-424), exact. -/
noncomputable def softmax (dim : ℕ) (x : NdTensor ℝ) : NdTensor ℝ := ⟨x.shape, fun i => Real.exp (x.data i) / ∑ k ∈ Finset.range (x.shape.getD dim 0), Real.exp (x.data (i.set dim k))⟩

/-- `AutogradCrossEntropy.forward` (gradients.py:2004-2021). A tensor without dimensions has no `size(0)`. -/
noncomputable def crossEntropyValue (skip : Bool) (pred target : NdTensor ℝ) : Option ℝ :=
  if pred.shape = target.shape then
    let dim := if pred.shape.length > 1 then 1 else 0
    let s := softmax dim pred
    if skip then some 0
    else
      match target.shape with
      | [] => none
      | size0 :: _ => some (sumEntries s.shape (fun i => -(Real.log (s.data i) * target.data i)) / size0)
  else none

/-- `AutogradCrossEntropy.backward` (gradients.py:2023-2027), the gradient with respect to `pred`. -/
noncomputable def crossEntropyGrad (pred target : NdTensor ℝ) (grad : ℝ) : NdTensor ℝ :=
  let dim := if pred.shape.length > 1 then 1 else 0
  let s := softmax dim pred
  ⟨s.shape, fun i => (s.data i - target.data i) / (target.shape.headD 0) * grad⟩

/-- `CrossEntropyLoss.forward` (loss.py:143-147) -/
noncomputable def crossEntropy (skip : Bool) (x y : NdTensor ℝ) : Option ℝ := crossEntropyValue skip x.squeezeAll y.squeezeAll

/-- Which loss. -/
inductive Kind where
  | mse | l1 | bce | bceWithLogits | crossEntropy
  | rappor (alpha : ℝ)

/-- `forward` on tensors of one kind. -/
noncomputable def Kind.value (skip : Bool) : Kind → NdTensor ℝ → NdTensor ℝ → Option ℝ
  | .mse => Loss.mse
  | .l1 => Loss.l1
  | .bce => Loss.bce skip
  | .bceWithLogits => Loss.bceWithLogits skip
  | .crossEntropy => Loss.crossEntropy skip
  | .rappor alpha => Loss.rappor alpha skip

/-- Which losses also work on plain tensors: `torch.Tensor` has `square`, `abs` and `mean`, but no `binary_cross_entropy`, `binary_cross_entropy_with_logits`, `rappor_loss` or `cross_entropy`. -/
def Kind.plain : Kind → Bool
  | .mse | .l1 => true
  | _ => false

/-- Calling a loss (loss.py:30-46), made with `reduction="mean"` (any other is refused, loss.py:21-22), with positional arguments: the value at every party; `none` if an exception is raised. -/
noncomputable def call {n : ℕ} [NeZero n] (encrypted skip : Bool) (k : Kind) (x y : Arg n) : Option (Fin n → ℝ) :=
  match prepare encrypted x y with
  | (.crypt x, .crypt y) => (k.value skip x y).map fun v _ => v
  | (.torch x, .torch y) => if k.plain ∧ ∀ p, (k.value skip (x p) (y p)).isSome then some fun p => (k.value skip (x p) (y p)).getD 0 else none
  | _ => none

end CrypTen.Loss

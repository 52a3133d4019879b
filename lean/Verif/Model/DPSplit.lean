import Verif.Model.Maximum
import Verif.Model.Gradients
import Mathlib.Data.Matrix.Mul

/-!
# Split training with private labels

Models /repo/crypten/nn/privacy/dp_split.py: the treatment of the labels, of the noise, the protocol `layer_estimation` of the backward pass,
and the protocol `full_jacobian`.
`p` is `cfg.encoder.precision_bits`. Plaintext tensors hold exact numbers. The cache of tensor sizes is in `SplitSession`.
-/

namespace CrypTen.DP
open CrypTen CrypTen.Grad
variable {n : ℕ} {ι : Type}

/-- /repo/crypten/nn/privacy/dp_split.py:140-149, `__init__`: accepted values of `randomized_response_prob` and `rappor_prob`. -/
def accepted (rr alpha : Option ℚ) : Bool :=
  (match rr with
    | none => true
    | some q => decide (0 < q ∧ q < 1 / 2)) &&
  (match alpha with
    | none => true
    | some a => decide (0 ≤ a ∧ a ≤ 1))

/-- `crypten.bernoulli(flip_probs)` (/repo/crypten/__init__.py:505-511): `rand < flip_probs`. -/
def bernoulliPub [NeZero n] (p : ℕ) (q : ι → ℚ) : Proto n (AST n ι) := do
  let r ← mpcRand p ι
  r.lt (2 ^ p) (.pub q)

/-- dp_split.py:269-273, `_process_targets` for encrypted labels: `targets + flip_probs - 2 * flip_mask * targets`. -/
def processEnc [NeZero n] (p : ℕ) (rr : Option ℚ) (t : AST n ι) : Proto n (AST n ι) :=
  match rr with
  | none => pure t
  | some q => do
    let m ← bernoulliPub p fun _ => q
    let mt ← AST.mul (elementwise ι) (m.mulInt 2) t
    (t.addPub fun _ => q).sub mt

/-- dp_split.py:274-281, `_process_targets` for plaintext labels: the contents of the caller's tensor afterwards (`+=` works in place), which are then encrypted by the label source;
`none`: the tensor holds integers, to which floating-point numbers cannot be added in place. -/
def processPlain (rr : Option ℚ) (isLabelSrc isFloat : Bool) (mask t : ι → ℚ) : Option (ι → ℚ) :=
  if rr.isSome && isLabelSrc then
    if isFloat then some fun i => t i + (mask i - 2 * t i * mask i) else none
  else some t

/-- The labels encrypted in successive calls of `compute_loss` with one and the same plaintext tensor (an epoch each): every call starts from what the last one left in the tensor. -/
def epochs (rr : Option ℚ) : List (ι → ℚ) → (ι → ℚ) → Option (List (ι → ℚ))
  | [], _ => some []
  | m :: ms, t => do
    let t' ← processPlain rr true true m t
    let rest ← epochs rr ms t'
    pure (t' :: rest)

/-- dp_split.py:339-360, `_add_dp_if_necessary`: `joint` is the noise drawn by all parties together (`crypten.randn`), `drawn r` the one of party `r` (`torch.randn`); `if self.noise_src` is false for rank 0. -/
def addNoise {K : Type} [Field K] [DecidableEq K] (magnitude : Option K) (noiseSrc : Option ℕ) (joint : ι → K) (drawn : ℕ → ι → K) (grad : ι → K) : ι → K :=
  match magnitude with
  | none => grad
  | some m =>
    if m = 0 then grad
    else
      match noiseSrc with
      | some (r + 1) => fun i => grad i + drawn (r + 1) i * m
      | _ => fun i => grad i + joint i * m

/-! ## The backward pass -/

/-- dp_split.py:289-291, `compute_loss`: `preds_rappor`. -/
noncomputable def predsRappor (α : ℝ) (z : ι → ℝ) : ι → ℝ := fun i => α * sigmoid (z i) + (1 - α) * (1 - sigmoid (z i))

/-- dp_split.py:486-500, `_compute_last_layer_grad`: `dLdZ` from the logits, the (processed) labels and `rappor_prob`. -/
noncomputable def dLdZ [Fintype ι] (alpha : Option ℝ) (t z : ι → ℝ) : ι → ℝ :=
  match alpha with
  | none => fun i => (sigmoid (z i) - t i) / Fintype.card ι
  | some α => fun i => (predsRappor α z i - t i) / Fintype.card ι *
      ((2 * α - 1) * (sigmoid (z i) * (1 - sigmoid (z i))) / (predsRappor α z i * (1 - predsRappor α z i)))

/-- dp_split.py:303-313, the value of the loss if it is computed: without `rappor_prob`, cross-entropy; with it, `rappor_loss`. -/
noncomputable def lossValue [Fintype ι] (alpha : Option ℝ) (t z : ι → ℝ) : Unit → ℝ :=
  match alpha with
  | none => bceLogitsF t z
  | some α => rapporF α t z

/-- dp_split.py:519, `_compute_last_layer_grad`: `dLdW`, rows are outputs; `A` is the input of the last layer, one row per sample. -/
def dLdW {b o d : Type} [Fintype b] (dz : Matrix b o ℝ) (A : Matrix b d ℝ) : Matrix o d ℝ := dz.transpose * A

/-- dp_split.py:476-484, `_solve_dLdZ`: what `torch.linalg.lstsq(A.t(), B.t())` promises: a minimiser of the sum of squares of `A.t() X - B.t()`. -/
def IsLstsq {b o d : Type} [Fintype b] [Fintype o] [Fintype d] (A : Matrix b d ℝ) (B : Matrix o d ℝ) (X : Matrix b o ℝ) : Prop :=
  ∀ Y : Matrix b o ℝ, ∑ i, ∑ j, ((A.transpose * X - B.transpose) i j) ^ 2 ≤ ∑ i, ∑ j, ((A.transpose * Y - B.transpose) i j) ^ 2

/-- Back-propagation of `X` through the last layer `z = A Wᵀ + b` (`self.logits.backward(dLdZ)`, dp_split.py:533): gradient of the weight. -/
def weightGrad {b o d : Type} [Fintype b] (X : Matrix b o ℝ) (A : Matrix b d ℝ) : Matrix o d ℝ := X.transpose * A

/-- The same (dp_split.py:533): gradient of the bias. -/
def biasGrad {b o : Type} [Fintype b] (X : Matrix b o ℝ) : o → ℝ := fun j => ∑ i, X i j

/-! ## The protocol `full_jacobian` -/

section
variable {b c p : Type} [Fintype b] [Fintype c] [DecidableEq c]

/-- dp_split.py:369-400, `_compute_model_jacobians`: for each column `j` of the logits, `z.backward(torch.ones(z.size()))` and the gradient of every parameter. `back` is what
back-propagation of a gradient of the logits (samples by classes) through the plaintext model gives the parameters, all in one vector (lines 411-414). -/
def modelJacobians (back : (b × c → ℝ) → p → ℝ) : p → c → ℝ := fun i j => back (fun q => if q.2 = j then 1 else 0) i

/-- dp_split.py:402-434, `_compute_param_grads`: the product of the Jacobian with `dLdZ`, a row of parameters for each sample (422-425), to which noise is added (426); then the
sum over the samples (429-430). Exact numbers. -/
noncomputable def fullJacobian [DecidableEq ℝ] (magnitude : Option ℝ) (noiseSrc : Option ℕ) (joint : b × p → ℝ) (drawn : ℕ → b × p → ℝ) (back : (b × c → ℝ) → p → ℝ) (dz : b × c → ℝ) : p → ℝ :=
  fun i => ∑ s, addNoise magnitude noiseSrc joint drawn (fun q : b × p => ∑ j, modelJacobians back q.2 j * dz (q.1, j)) (s, i)

end

/-- How `backward` ends. -/
inductive BackwardEnd
  | done
  | notImplementedError
  | valueError
  deriving DecidableEq

/-- dp_split.py:535-548, `backward`: how it ends and what `param.grad` holds afterwards at the feature source; `full` and `layer` are what the two protocols write, `old` what was there. -/
def backward {G : Type} (protocol : String) (full layer old : G) : BackwardEnd × G :=
  if protocol = "full_jacobian" then (.notImplementedError, full)
  else if protocol = "layer_estimation" then (.done, layer)
  else (.valueError, old)

end CrypTen.DP

import Verif.Model.DPSplit
import Verif.Model.Regression

/-!
# Split training: the gradient of the last layer on shares

Models /repo/crypten/nn/privacy/dp_split.py for the protocol `layer_estimation`: encryption of the predictions and of the labels, and the gradient of the last layer computed on shares
that is revealed to the feature source. `k` is `cfg.encoder.precision_bits`. Plaintext tensors hold exact numbers; `b`, `o` and `d` are the number of samples, of outputs and of inputs of the
last layer. The cache of tensor sizes is in `SplitSession`; the flips of the labels (`_process_targets`) and what the feature source does with the gradient are in `DPSplit`.
-/

namespace CrypTen.Split
open CrypTen
variable {n : ℕ} {ι : Type} {b o d : ℕ}

/-- `crypten.cryptensor(x, src=src)` (/repo/crypten/mpc/mpc.py:46-58, arithmetic.py:59-107). -/
def enter [NeZero n] (k : ℕ) (src : Fin n) (x : ι → ℚ) : Proto n (AST n ι) := do
  let s ← Proto.encryptA src (encodePublic (2 ^ k) x)
  pure ⟨s, 2 ^ k⟩

/-- Labels, after the flips: numbers of the label source, or an encrypted tensor. -/
inductive Labels (n : ℕ) (ι : Type)
  | plain (t : ι → ℚ)
  | enc (t : AST n ι)

/-- dp_split.py:264-283, `_process_targets`, the encryption. -/
def Labels.encrypt [NeZero n] (k : ℕ) (label : Fin n) : Labels n ι → Proto n (AST n ι)
  | .plain t => enter k label t
  | .enc t => pure t

/-- dp_split.py:289-302, `compute_loss`: the numbers that are encrypted for the predictions `p` (the sigmoids of the logits). -/
def reported (alpha : Option ℚ) (p : ι → ℚ) : ι → ℚ :=
  match alpha with
  | none => p
  | some α => fun i => α * p i + (1 - α) * (1 - p i)

/-- dp_split.py:492-494, `_compute_last_layer_grad`: the correction for RAPPOR. -/
def correction (α : ℚ) (p : ι → ℚ) : ι → ℚ := fun i => (2 * α - 1) * (p i * (1 - p i)) / (reported (some α) p i * (1 - reported (some α) p i))

/-- `dLdZ.t().matmul(last_input)` as a bilinear function: entry `(j, l)` is the sum over the samples `i` of the products of the entries `(i, j)` and `(i, l)`. -/
def transMat (b o d : ℕ) : BilinearOp (Fin b × Fin o) (Fin b × Fin d) (Fin o × Fin d) := fun q => (List.finRange b).map fun i => ((i, q.1), (i, q.2))

/-- The random numbers: `drawn r` are those of `torch.randn` at party `r`, `joint` is the result of `crypten.randn`. -/
structure Noise (n : ℕ) (ι : Type) where
  magnitude : Option ℚ
  src : Option (Fin n)
  drawn : Fin n → ι → ℚ
  joint : AST n ι

/-- dp_split.py:339-360, `_generate_noise_no_src`, `_generate_noise_from_src` and `_add_dp_if_necessary`; `if self.noise_src` is false for rank 0. A magnitude given as an integer is treated like the float
of the same value. -/
def addNoise [NeZero n] (k : ℕ) (N : Noise n ι) (grad : AST n ι) : Proto n (AST n ι) :=
  match N.magnitude with
  | none => pure grad
  | some m =>
    if m = 0 then pure grad
    else
      match N.src with
      | none => do
        let z ← AST.mulPub (elementwise ι) N.joint fun _ => m
        grad.add z
      | some r =>
        if r = 0 then do
          let z ← AST.mulPub (elementwise ι) N.joint fun _ => m
          grad.add z
        else do
          let z ← enter k r fun i => N.drawn r i * m
          grad.add z

/-- dp_split.py:490-502, the correction for RAPPOR, encrypted by the feature source (`self.is_feature_src` is the method, which is always true). -/
def correct [NeZero n] (k : ℕ) (feature : Fin n) (alpha : Option ℚ) (p : ι → ℚ) (dz : AST n ι) : Proto n (AST n ι) :=
  match alpha with
  | none => pure dz
  | some α => do
    let c ← enter k feature (correction α p)
    AST.mul (elementwise ι) dz c

/-- dp_split.py:285-302 (`compute_loss`, encryption of predictions and labels; the value of the loss is in `DPSplit`) and 486-524 (`_compute_last_layer_grad`): the encrypted gradient, which
`get_plain_text(dst=self.feature_src)` then reveals to the feature source. -/
def lastLayerGrad [NeZero n] (k : ℕ) (feature label : Fin n) (alpha : Option ℚ) (p : Fin b × Fin o → ℚ) (labels : Labels n (Fin b × Fin o)) (input : Fin b × Fin d → ℚ) (N : Noise n (Fin o × Fin d)) :
    Proto n (AST n (Fin o × Fin d)) := do
  let preds ← enter k feature (reported alpha p)
  let targets ← labels.encrypt k label
  let diff ← preds.sub targets
  let dz ← diff.divInt fun _ => (b * o : ℕ)
  let dz ← correct k feature alpha p dz
  let a ← enter k feature input
  let dw ← AST.mul (transMat b o d) dz a
  addNoise k N dw

end CrypTen.Split

import Verif.Model.Logic

/-!
# The example `mpc_linear_svm`

Models `train_linear_svm` and `evaluate_linear_svm` (/repo/examples/mpc_linear_svm/mpc_linear_svm.py:18-67) on encrypted tensors. Features are a matrix with a row for each of the `F` features and a
column for each of the `N` examples; labels, predictions and gradients are rows of `N` numbers (the first dimension, of size 1, is left out). `k` is `cfg.encoder.precision_bits`. Printing and
the measuring of time are left out; the accuracies that are printed are part of the result.
-/

namespace CrypTen.Svm
variable {n : ℕ} {F N : ℕ}

/-- `w.matmul(features)` (line 29). -/
def vecMat (F N : ℕ) : BilinearOp (Fin F) (Fin F × Fin N) (Fin N) := fun i => (List.finRange F).map fun f => (f, (f, i))

/-- `loss_grad.matmul(features.t())` (line 46). -/
def gradMat (F N : ℕ) : BilinearOp (Fin N) (Fin F × Fin N) (Fin F) := fun f => (List.finRange N).map fun i => (i, (f, i))

/-- `w.matmul(features).add(b).sign()` (lines 29, 63). -/
def predict [NeZero n] (k : ℕ) (x : AST n (Fin F × Fin N)) (w : AST n (Fin F)) (b : AST n Unit) : Proto n (AST n (Fin N)) := do
  let z ← AST.mul (vecMat F N) w x
  let z ← z.add (b.reindex fun _ => ())
  z.sign (2 ^ k)

/-- `mean()` of a row (/repo/crypten/common/functions/regular.py:151-161). -/
def meanRow [NeZero n] (x : AST n (Fin N)) : Proto n (AST n Unit) := (x.reindex (κ := Fin N × Unit) Prod.fst).sumFirst.divInt fun _ => N

/-- `correct.add(1).div(2).mean()` (lines 33, 65). -/
def accuracy [NeZero n] (correct : AST n (Fin N)) : Proto n (AST n Unit) := do
  let h ← (correct.addPub fun _ => 1).divInt fun _ => 2
  meanRow h

/-- `-labels * (1 - correct) * 0.5` (line 44). -/
def lossGrad [NeZero n] (labels correct : AST n (Fin N)) : Proto n (AST n (Fin N)) := do
  let g ← AST.mul (elementwise (Fin N)) labels.neg correct.oneMinus
  AST.mulPub (elementwise (Fin N)) g fun _ => 1 / 2

/-- The weights, the bias and the accuracy printed in the epoch. -/
structure Result (n F : ℕ) where
  w : AST n (Fin F)
  b : AST n Unit
  acc : List (AST n Unit)

/-- The body of the loop (lines 28-50). `lr` is a floating-point number. -/
def epoch [NeZero n] (k : ℕ) (lr : ℚ) (x : AST n (Fin F × Fin N)) (labels : AST n (Fin N)) (r : Result n F) : Proto n (Result n F) := do
  let predictions ← predict k x r.w r.b
  let correct ← AST.mul (elementwise (Fin N)) predictions labels
  let acc ← accuracy correct
  let g ← lossGrad labels correct
  let bGrad ← meanRow g
  let wGrad ← AST.mul (gradMat F N) g x
  let wGrad ← wGrad.divInt fun _ => N
  let wStep ← AST.mulPub (elementwise (Fin F)) wGrad fun _ => lr
  let w ← r.w.sub wStep
  let bStep ← AST.mulPub (elementwise Unit) bGrad fun _ => lr
  let b ← r.b.sub bStep
  pure ⟨w, b, r.acc ++ [acc]⟩

/-- The loop (lines 27-56). -/
def train [NeZero n] (k : ℕ) (lr : ℚ) (x : AST n (Fin F × Fin N)) (labels : AST n (Fin N)) : ℕ → Result n F → Proto n (Result n F)
  | 0, r => pure r
  | epochs + 1, r => do
    let r ← epoch k lr x labels r
    train k lr x labels epochs r

/-- `crypten.cryptensor(x)` and `features.new(x)`: party 0 is the source (lines 20-21, 92-93). -/
def encrypt [NeZero n] {ι : Type} (k : ℕ) (x : ι → ℚ) : Proto n (AST n ι) := do
  let s ← Proto.encryptA 0 (encodePublic (2 ^ k) x)
  pure ⟨s, 2 ^ k⟩

/-- Encryption of the data and `train_linear_svm(x, y, epochs, lr)` (lines 18-58, 92-98); `w0` and `b0` are the random numbers that party 0 draws. -/
def run [NeZero n] (k epochs : ℕ) (lr : ℚ) (x : Fin F × Fin N → ℚ) (labels : Fin N → ℚ) (w0 : Fin F → ℚ) (b0 : ℚ) : Proto n (Result n F) := do
  let x ← encrypt k x
  let labels ← encrypt k labels
  let w ← encrypt k w0
  let b ← encrypt k fun _ => b0
  train k lr x labels epochs ⟨w, b, []⟩

/-- `evaluate_linear_svm` (lines 61-67). -/
def evaluate [NeZero n] (k : ℕ) (x : AST n (Fin F × Fin N)) (labels : AST n (Fin N)) (w : AST n (Fin F)) (b : AST n Unit) : Proto n (AST n Unit) := do
  let predictions ← predict k x w b
  let correct ← AST.mul (elementwise (Fin N)) predictions labels
  accuracy correct

end CrypTen.Svm

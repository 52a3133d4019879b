import Verif.Model.Svm

/-!
# Training a linear model on encrypted data

The standard training loop of CrypTen (documented in /repo/tutorials/Tutorial_7_Training_an_Encrypted_Neural_Network.ipynb) for the model `crypten.nn.Linear(F, 1)`, the loss
`crypten.nn.MSELoss()` and the optimizer `crypten.optim.SGD(model.parameters(), lr)` without momentum, weight decay and threshold:

    loss = criterion(model(x), y); model.zero_grad(); loss.backward(); optimizer.step()

It is the list of operations on shares that the calls of `forward` and `backward` of the recorded functions make, in their order. Dimensions of size 1 are left out. `k` is the precision.
-/

namespace CrypTen.Regression
variable {n : ℕ} {F N : ℕ}

/-- `x.matmul(self.weight.t())` (/repo/crypten/nn/module.py:1895; AutogradMatMul.forward, gradients.py:731-734). -/
def matVec (F N : ℕ) : BilinearOp (Fin N × Fin F) (Fin F) (Fin N) := fun i => (List.finRange F).map fun f => ((i, f), f)

/-- `self_.transpose(-2, -1).matmul(grad_output)` (gradients.py:756). -/
def transVec (F N : ℕ) : BilinearOp (Fin N × Fin F) (Fin N) (Fin F) := fun f => (List.finRange N).map fun i => ((i, f), i)

/-- `grad_output.matmul(other.transpose(-2, -1))` (gradients.py:755). -/
def outer (F N : ℕ) : BilinearOp (Fin N) (Fin F) (Fin N × Fin F) := fun p => [(p.1, p.2)]

/-- The product of a tensor without dimensions and a tensor of `N` elements (broadcasting). -/
def scalarTimes (N : ℕ) : BilinearOp Unit (Fin N) (Fin N) := fun i => [((), i)]

/-- The parameters of the model. -/
structure Params (n F : ℕ) where
  w : AST n (Fin F)
  b : AST n Unit

/-- `model(x) - y`: `Linear.forward` (module.py:1894-1898) and the difference in `MSELoss.forward` (/repo/crypten/nn/loss.py:67); AutogradAdd, AutogradSub (gradients.py:656-682). -/
def residual [NeZero n] (x : AST n (Fin N × Fin F)) (y : AST n (Fin N)) (q : Params n F) : Proto n (AST n (Fin N)) := do
  let o ← AST.mul (matVec F N) x q.w
  let o ← o.add (q.b.reindex fun _ => ())
  o.sub y

/-- `.square().mean()` in `MSELoss.forward` (loss.py:67). -/
def lossOf [NeZero n] (d : AST n (Fin N)) : Proto n (AST n Unit) := do
  let s ← d.square
  Svm.meanRow s

/-- The gradient that reaches `model(x)`: `backward` starts with an encrypted one (/repo/crypten/cryptensor.py:226-228); AutogradMean.backward multiplies it by a tensor with entries `1 / N`
(gradients.py:1206-1221); AutogradSquare.backward multiplies by `input.mul(2.0)` (gradients.py:892-895); AutogradSub.backward and AutogradAdd.backward pass it on (gradients.py:684-690, 666-672). -/
def outGrad [NeZero n] (k : ℕ) (d : AST n (Fin N)) : Proto n (AST n (Fin N)) := do
  let one ← Svm.encrypt k fun _ : Unit => 1
  let m ← AST.mulPub (scalarTimes N) one fun _ => 1 / (N : ℚ)
  let d2 ← AST.mulPub (elementwise (Fin N)) d fun _ => 2
  AST.mul (elementwise (Fin N)) m d2

/-- `p.sub_(d_p.mul(lr))` (/repo/crypten/optim/sgd.py:137). -/
def update [NeZero n] {ι : Type} (lr : ℚ) (p g : AST n ι) : Proto n (AST n ι) := do
  let s ← AST.mulPub (elementwise ι) g fun _ => lr
  p.sub s

/-- One pass of the loop, with the loss. AutogradAdd.backward adds up the gradient of the bias (`_inverse_broadcast`, gradients.py:58-76); AutogradMatMul.backward computes the gradients of both
factors (gradients.py:754-756), of which that of the data is dropped. -/
def epoch [NeZero n] (k : ℕ) (lr : ℚ) (x : AST n (Fin N × Fin F)) (y : AST n (Fin N)) (q : Params n F) : Proto n (Params n F × AST n Unit) := do
  let d ← residual x y q
  let loss ← lossOf d
  let g ← outGrad k d
  let _ ← AST.mul (outer F N) g q.w
  let gw ← AST.mul (transVec F N) x g
  let gb := (g.reindex (κ := Fin N × Unit) Prod.fst).sumFirst
  let w ← update lr q.w gw
  let b ← update lr q.b gb
  pure (⟨w, b⟩, loss)

/-- `T` passes. -/
def train [NeZero n] (k : ℕ) (lr : ℚ) (x : AST n (Fin N × Fin F)) (y : AST n (Fin N)) : ℕ → Params n F → Proto n (Params n F)
  | 0, q => pure q
  | T + 1, q => do
    let r ← epoch k lr x y q
    train k lr x y T r.1

/-- Encryption of the data and the model by party 0, and training. -/
def run [NeZero n] (k T : ℕ) (lr : ℚ) (x : Fin N × Fin F → ℚ) (y : Fin N → ℚ) (w0 : Fin F → ℚ) (b0 : ℚ) : Proto n (Params n F) := do
  let x ← Svm.encrypt k x
  let y ← Svm.encrypt k y
  let w ← Svm.encrypt k w0
  let b ← Svm.encrypt k fun _ => b0
  train k lr x y T ⟨w, b⟩

end CrypTen.Regression

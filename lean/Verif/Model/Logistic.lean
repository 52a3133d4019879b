import Verif.Model.Regression
import Verif.Model.Functions

/-!
# Training a logistic regression on encrypted data

The training loop of `Regression` for the model `crypten.nn.Linear(F, 1)`, the loss `crypten.nn.BCEWithLogitsLoss(skip_forward)` and the optimizer `crypten.optim.SGD(model.parameters(), lr)` without
momentum, weight decay and threshold. It is the list of operations on shares that the calls of `forward` and `backward` of the recorded functions make, in their order. Dimensions of size 1 are left out. `k` is the precision, `c`
the configuration of the functions.
-/

namespace CrypTen.Logistic
open Regression (matVec transVec outer Params update)
variable {n : ℕ} {F N : ℕ}

/-- `Linear.forward` (/repo/crypten/nn/module.py:1894-1898). -/
def logits [NeZero n] (x : AST n (Fin N × Fin F)) (q : Params n F) : Proto n (AST n (Fin N)) := do
  let o ← AST.mul (matVec F N) x q.w
  o.add (q.b.reindex fun _ => ())

/-- The value of the loss (AutogradBinaryCrossEntropyWithLogits.forward, /repo/crypten/gradients.py:1937-1947); `none` for `skip_forward`, which returns an encryption of 0 that nothing reads. -/
def lossOf [NeZero n] (k : ℕ) (method : MaxMethod) (c : FunCfg) (skip : Bool) (s y : AST n (Fin N)) : Proto n (Option (AST n Unit)) :=
  if skip then pure none
  else do
    let O := mpcOps n k method
    let l ← O.logIn01 c (O.stack 2 fun j => if j = 0 then s else O.rsubNum 1 s)
    let a ← AST.mul (elementwise (Fin N)) y (l.reindex fun i => (0, i))
    let b ← AST.mul (elementwise (Fin N)) (O.rsubNum 1 y) (l.reindex fun i => (1, i))
    let t ← a.add b
    let m ← Svm.meanRow t
    pure (some m.neg)

/-- A row times a tensor without dimensions. -/
def timesScalar (N : ℕ) : BilinearOp (Fin N) Unit (Fin N) := fun i => [(i, ())]

/-- The gradient that reaches `model(x)`: `backward` starts with an encrypted one (/repo/crypten/cryptensor.py:226-228); AutogradBinaryCrossEntropyWithLogits.backward is
`(sigmoid_out - target).div(target.nelement()).mul_(grad_output)` (gradients.py:1949-1951). -/
def outGrad [NeZero n] (k : ℕ) (s y : AST n (Fin N)) : Proto n (AST n (Fin N)) := do
  let one ← Svm.encrypt k fun _ : Unit => 1
  let d ← s.sub y
  let m ← d.divInt fun _ => N
  AST.mul (timesScalar N) m one

/-- One pass of the loop, with the loss; the rest of `backward` and the step of the optimizer are those of `Regression.epoch`. -/
def epoch [NeZero n] (k : ℕ) (method : MaxMethod) (c : FunCfg) (coeffs : ℕ → ℚ) (skip : Bool) (lr : ℚ) (x : AST n (Fin N × Fin F)) (y : AST n (Fin N)) (q : Params n F) : Proto n (Params n F × Option (AST n Unit)) := do
  let z ← logits x q
  let s ← (mpcOps n k method).sigmoid c coeffs z
  let loss ← lossOf k method c skip s y
  let g ← outGrad k s y
  let _ ← AST.mul (outer F N) g q.w
  let gw ← AST.mul (transVec F N) x g
  let gb := (g.reindex (κ := Fin N × Unit) Prod.fst).sumFirst
  let w ← update lr q.w gw
  let b ← update lr q.b gb
  pure (⟨w, b⟩, loss)

/-- `T` passes. -/
def train [NeZero n] (k : ℕ) (method : MaxMethod) (c : FunCfg) (coeffs : ℕ → ℚ) (skip : Bool) (lr : ℚ) (x : AST n (Fin N × Fin F)) (y : AST n (Fin N)) : ℕ → Params n F → Proto n (Params n F)
  | 0, q => pure q
  | T + 1, q => do
    let r ← epoch k method c coeffs skip lr x y q
    train k method c coeffs skip lr x y T r.1

/-- Encryption of the data and the model by party 0, and training. -/
def run [NeZero n] (k : ℕ) (method : MaxMethod) (c : FunCfg) (coeffs : ℕ → ℚ) (skip : Bool) (T : ℕ) (lr : ℚ) (x : Fin N × Fin F → ℚ) (y : Fin N → ℚ) (w0 : Fin F → ℚ) (b0 : ℚ) : Proto n (Params n F) := do
  let x ← Svm.encrypt k x
  let y ← Svm.encrypt k y
  let w ← Svm.encrypt k w0
  let b ← Svm.encrypt k fun _ => b0
  train k method c coeffs skip lr x y T ⟨w, b⟩

end CrypTen.Logistic

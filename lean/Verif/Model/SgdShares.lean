import Verif.Model.Sgd
import Verif.Model.Logic

/-!
# The steps of SGD on shares

Models /repo/crypten/optim/sgd.py:111-137 for one parameter, with the methods of `MPCTensor` that are called there: products with Python
numbers (truncated for floats, exact for integers), sums and differences of encrypted tensors.
-/

namespace CrypTen.Sgd
variable {n : ℕ} {ι : Type}

/-- A Python number. -/
inductive Scalar where
  | int (z : ℤ)
  | float (q : ℚ)

/-- Its value. -/
def Scalar.val : Scalar → ℚ
  | .int z => z
  | .float q => q

/-- `1 - c` -/
def Scalar.oneSub : Scalar → Scalar
  | .int z => .int (1 - z)
  | .float q => .float (1 - q)

/-- `x.mul(c)` (/repo/crypten/mpc/primitives/arithmetic.py:341-402) -/
def scale [NeZero n] (x : AST n ι) : Scalar → Proto n (AST n ι)
  | .int z => pure (x.mulInt z)
  | .float q => AST.mulPub (elementwise ι) x fun _ => q

/-- The values of one entry of `param_groups` (sgd.py:77-83). -/
structure HyperS where
  lr : Scalar
  momentum : Scalar
  dampening : Scalar
  weightDecay : Scalar
  nesterov : Bool

/-- sgd.py:123-124: `d_p = d_p.add(p.mul(weight_decay))` -/
def decayShares [NeZero n] (h : HyperS) (p d : AST n ι) : Proto n (AST n ι) :=
  if h.weightDecay.val = 0 then pure d
  else do
    let w ← scale p h.weightDecay
    d.add w

/-- sgd.py:126-131: the new `momentum_buffer` -/
def bufferShares [NeZero n] (h : HyperS) (buf : Option (AST n ι)) (d : AST n ι) : Proto n (AST n ι) :=
  match buf with
  | none => pure d
  | some b => do
    let b ← scale b h.momentum
    let e ← scale d h.dampening.oneSub
    b.add e

/-- sgd.py:132-135: the direction -/
def directionShares [NeZero n] (h : HyperS) (d b : AST n ι) : Proto n (AST n ι) :=
  if h.nesterov then do
    let m ← scale b h.momentum
    d.add m
  else pure b

/-- sgd.py:137: `p.sub_(d_p.mul(group["lr"]))` -/
def descendShares [NeZero n] (h : HyperS) (p d : AST n ι) : Proto n (AST n ι) := do
  let u ← scale d h.lr
  p.sub u

/-- sgd.py:117-121: the gradient that is used, with `self.square_threshold` -/
def usedShares [NeZero n] (D : ℕ) (thr2 : Option ℚ) (g : AST n ι) : Proto n (AST n ι) :=
  match thr2 with
  | none => pure g
  | some t => thresholdShares D t g

/-- sgd.py:113-137 for one parameter `p` with gradient `g`; `buf` is its `momentum_buffer`. -/
def stepShares [NeZero n] (D : ℕ) (thr2 : Option ℚ) (h : HyperS) (s : AST n ι × Option (AST n ι)) (g : Option (AST n ι)) :
    Proto n (AST n ι × Option (AST n ι)) :=
  match g with
  | none => pure s
  | some g => do
    let d ← usedShares D thr2 g
    let d ← decayShares h s.1 d
    if h.momentum.val = 0 then do
      let p ← descendShares h s.1 d
      pure (p, s.2)
    else do
      let b ← bufferShares h s.2 d
      let d' ← directionShares h d b
      let p ← descendShares h s.1 d'
      pure (p, some b)

/-- A history of steps. -/
def runShares [NeZero n] (D : ℕ) (thr2 : Option ℚ) (h : HyperS) : List (Option (AST n ι)) → AST n ι × Option (AST n ι) → Proto n (AST n ι × Option (AST n ι))
  | [], s => pure s
  | g :: gs, s => do
    let s' ← stepShares D thr2 h s g
    runShares D thr2 h gs s'

end CrypTen.Sgd

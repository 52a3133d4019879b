import Verif.Model.Functions

/-!
# What a function computes while gradients are recorded

Without gradients a method of an encrypted tensor is the native one; if some operand requires a gradient, `autograd_forward` calls `grad_fn.forward` instead
(/repo/crypten/cryptensor.py:316-352, 416-441). This file models the `forward` functions of /repo/crypten/gradients.py that do not merely call the native method. They run with
autograd switched off, so the methods they call are the native ones.
-/

namespace CrypTen
universe u
variable {n : ℕ} {ι : Type}

/-- A Python number. -/
inductive PyNum where
  | int (z : ℤ)
  | float (q : ℚ)

/-- The number. -/
def PyNum.val : PyNum → ℚ
  | .int z => z
  | .float q => q

/-- `x.mul(c)` for a Python number, natively (/repo/crypten/mpc/primitives/arithmetic.py:422-428). -/
def AST.mulPy [NeZero n] (x : AST n ι) : PyNum → Proto n (AST n ι)
  | .int z => pure (x.mulInt z)
  | .float q => AST.mulPub (elementwise ι) x fun _ => q

/-- `x.mul(c)` for a Python number, recorded: `AutogradMul.forward` (gradients.py:714-718) makes the number a tensor (`_ensure_tensor`, gradients.py:49-55). -/
def AST.mulPyRec [NeZero n] (x : AST n ι) (c : PyNum) : Proto n (AST n ι) := AST.mulPub (elementwise ι) x fun _ => c.val

/-- `AutogradReLU.forward` (gradients.py:484-487). -/
def AST.reluRec [NeZero n] (D : ℕ) (x : AST n ι) : Proto n (AST n ι) := do
  let mask ← x.gt D (.pub fun _ => 0)
  AST.mul (elementwise ι) x mask

/-- `AutogradHardtanh.forward` (gradients.py:587-606). -/
def AST.hardtanhRec [NeZero n] (D : ℕ) (lo hi : PyNum) (x : AST n ι) : Proto n (AST n ι) :=
  if lo.val = hi.val then do
    let s ← Proto.encryptA 0 (encodePublic D fun _ : ι => 0)
    pure ((⟨s, D⟩ : AST n ι).addPub fun _ => lo.val)
  else do
    let inter ← ((x.subPub fun _ => lo.val).pair (AST.rsubPub (fun _ => hi.val) x)).gt D (.pub fun _ => 0)
    let grad := inter.sumFirst.subPub fun _ => 1
    let r ← AST.mul (elementwise ι) grad x
    let a ← (AST.oneMinus (inter.reindex fun i => (false, i))).mulPy lo
    let r ← r.add a
    let b ← (AST.oneMinus (inter.reindex fun i => (true, i))).mulPy hi
    r.add b

/-- `AutogradReLU6.forward` (gradients.py:641-648). There is no native `relu6`; without gradients the same function runs with a context that stores nothing
(cryptensor.py:299-314, 439-446). -/
def AST.relu6Rec [NeZero n] (D : ℕ) (x : AST n ι) : Proto n (AST n ι) := do
  let inter ← (x.pair (AST.rsubPub (fun _ => 6) x)).gt D (.pub fun _ => 0)
  let grad := inter.sumFirst.subPub fun _ => 1
  let r ← AST.mul (elementwise ι) grad x
  r.add ((AST.oneMinus (inter.reindex fun i => (true, i))).mulInt 6)

namespace Ops
variable {M : Type → Type u} [Monad M] {A : Type → Type} (O : Ops M A)

/-- `AutogradPow.forward` (gradients.py:852-856): one power less, times the input; `none` is the exception of `pow` (power.py:16-45). -/
def powRec (c : FunCfg) (x : A ι) (p : ℚ) : Option (M (A ι)) :=
  (O.pow c x (p - 1)).map fun run => do
    let g ← run
    O.mul g x

/-- `AutogradSqrt.forward` (gradients.py:901-904). -/
def sqrtRec (c : FunCfg) (x : A ι) : M (A ι) := do
  let r ← O.invSqrt c x
  O.mul r x

/-- `AutogradAbs.forward` (gradients.py:1067-1070). -/
def absRec (x : A ι) : M (A ι) := do
  let s ← O.sign x
  O.mul x s

end Ops

end CrypTen

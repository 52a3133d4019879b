import Verif.Model.ArithFunc

/-!
# Division of encrypted tensors

Models `div` and `div_` (/repo/crypten/mpc/primitives/arithmetic.py:437-482, /repo/crypten/mpc/mpc.py:276-305) with their distinction of divisors.
Only public values (type, shape and value of the divisor) decide which branch is taken and whether an exception is raised, so an operation is an `Except` that holds
the protocol to be run. The validation mode (arithmetic.py:455-459, 468-473) is in `Model/Validation.lean`. `floatTensor.long()` of integral values and the conversion of
Python integers to words are exact for numbers that fit 64 bits, which the theorems assume.
-/

namespace CrypTen
variable {n : ℕ} {ι ι' κ : Type}

/-- A floating-point number; `none` is infinite or NaN. -/
abbrev Fl := Option ℚ

/-- The floating-point operations used: `torch.tensor([y], dtype=torch.float)` of a Python float and `reciprocal()`; and the word that `.long()` makes of infinity. -/
structure FloatUnit where
  single : ℚ → Fl
  recip : Fl → Fl
  junk : I64

/-- The public divisors `div_` distinguishes. Tensors are given with their entries broadcast to the shape of the result. -/
inductive Divisor (κ : Type) where
  /-- Python `int` -/
  | int (z : ℤ)
  /-- Python `float` -/
  | float (y : Fl)
  | intTensor (y : κ → ℤ)
  | floatTensor (y : κ → Fl)
  /-- anything else that is not an encrypted tensor -/
  | other

/-- Exceptions: integer division by zero (`RuntimeError`), `int(y)` of a float that is not finite (`OverflowError`, `ValueError`), an in-place product whose result does not
fit the shape of the tensor (`RuntimeError`), the failed assertion. -/
inductive DivError where
  | zeroDivision
  | notFinite
  | shape
  | assertion
  deriving DecidableEq

/-- `y.frac().eq(0)` for one entry (arithmetic.py:451). -/
def Fl.integral : Fl → Bool
  | some q => q.den = 1
  | none => false

/-- A tensor of shape `s` can be multiplied in place by one of shape `t`: the broadcast shape is `s`. -/
def inplaceFits (s t : List ℕ) : Bool := t.length ≤ s.length && (s.reverse.zip t.reverse).all fun d => d.2 = 1 || d.2 = d.1

/-- `div_` by integers (arithmetic.py:454-475); torch raises if one of them is zero. -/
def AST.divIntegers [NeZero n] [Fintype κ] (x : AST n κ) (z : κ → ℤ) : Except DivError (Proto n (AST n κ)) :=
  if ∃ i, z i = 0 then .error .zeroDivision else .ok (x.divInt z)

/-- `encoder.encode(y.reciprocal())` (/repo/crypten/encoder.py:57-58). -/
def encodeReciprocals (F : FloatUnit) (scale : ℕ) (y : κ → Fl) : Tensor κ := fun i =>
  match F.recip (y i) with
  | some q => toLong (scale * q)
  | none => F.junk

/-- `self.mul_(y.reciprocal())` (arithmetic.py:482, 430-435, 362-372, 390-394); `s` and `t` are the shapes of `self` and of `y`. -/
def AST.mulReciprocal [NeZero n] (F : FloatUnit) (s t : List ℕ) (x : AST n κ) (y : κ → Fl) : Except DivError (Proto n (AST n κ)) :=
  if inplaceFits s t then .ok do
    let w := bilinearPublic (elementwise κ) x.share (encodeReciprocals F x.scale y)
    if x.scale > 1 then do
      let w' ← Proto.divInt w fun _ => (x.scale : ℤ)
      pure ⟨w', x.scale⟩
    else pure ⟨w, x.scale⟩
  else .error .shape

/-- `div_` (arithmetic.py:447-482) of a tensor of shape `s`; `t` is the shape of the divisor if that is a tensor. -/
def AST.divBy [NeZero n] [Fintype κ] (F : FloatUnit) (s t : List ℕ) (x : AST n κ) : Divisor κ → Except DivError (Proto n (AST n κ))
  | .int z => x.divIntegers fun _ => z
  | .float none => .error .notFinite
  | .float (some y) => if y.den = 1 then x.divIntegers fun _ => y.num else x.mulReciprocal F s [1] fun _ => F.single y
  | .intTensor y => x.divIntegers y
  | .floatTensor y =>
    if ∀ i, (y i).integral then x.divIntegers fun i => ((y i).getD 0).num else x.mulReciprocal F s t y
  | .other => .error .assertion

/-- `div` by something public (/repo/crypten/mpc/mpc.py:296-305, arithmetic.py:437-445): a copy is expanded to the common shape `s` (`g` says where its entries come
from) and divided in place. -/
def AST.div [NeZero n] [Fintype κ] (F : FloatUnit) (s t : List ℕ) (g : κ → ι) (x : AST n ι) (y : Divisor κ) : Except DivError (Proto n (AST n κ)) :=
  (x.reindex g).divBy F s t y

/-- `div` by an encrypted tensor (mpc.py:297-303): `result.mul(y.reciprocal())`, for whatever protocol `recip` computes reciprocals. -/
def AST.divEncrypted [NeZero n] (recip : AST n ι' → Proto n (AST n ι')) (g : κ → ι) (h : κ → ι') (x : AST n ι) (y : AST n ι') : Proto n (AST n κ) := do
  let r ← recip y
  AST.mul (Torch.mulOp id h) (x.reindex g) r

/-- `mean(0)` (/repo/crypten/common/functions/regular.py:151-161): `sum` divided by the number of summands, a Python integer. -/
def AST.meanFirst [NeZero n] [Fintype ι] (F : FloatUnit) (m : ℕ) (s : List ℕ) (x : AST n (Fin m × ι)) : Except DivError (Proto n (AST n ι)) :=
  x.sumFirst.divBy F s [] (.int m)

end CrypTen

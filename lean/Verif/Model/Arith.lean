import Verif.Model.Torch

/-!
# Local (non-interactive) operations of `ArithmeticSharedTensor`

Every definition gives the new shares of all parties.  Operands have equal scales here; scales are the subject of `Model/ArithFunc.lean`.
Public operands are given already encoded.
-/

namespace CrypTen
variable {n : ℕ} {ι ι' κ : Type}

/-- A torch function applied by each party to its own share
(`_add_regular_function`, /repo/crypten/common/functions/regular.py:285-297). -/
def mapShares (f : Tensor ι → Tensor κ) (s : Shares n ι) : Shares n κ := fun p => f (s p)

/-- `add` of an encrypted tensor, equal scales: `result.share.add(y.share)` (/repo/crypten/mpc/primitives/arithmetic.py:380). -/
def addShares (s t : Shares n ι) : Shares n ι := fun p => s p + t p

/-- `sub` of an encrypted tensor, equal scales (/repo/crypten/mpc/primitives/arithmetic.py:380). -/
def subShares (s t : Shares n ι) : Shares n ι := fun p => s p - t p

/-- `add` of a public tensor: only rank 0 adds (/repo/crypten/mpc/primitives/arithmetic.py:364-368). -/
def addPublic [NeZero n] (s : Shares n ι) (y : Tensor ι) : Shares n ι := fun p => if p = 0 then s p + y else s p

/-- `sub` of a public tensor: only rank 0 subtracts (/repo/crypten/mpc/primitives/arithmetic.py:364-368). -/
def subPublic [NeZero n] (s : Shares n ι) (y : Tensor ι) : Shares n ι := fun p => if p = 0 then s p - y else s p

/-- `neg` (/repo/crypten/mpc/primitives/arithmetic.py:588-595). -/
def negShares (s : Shares n ι) : Shares n ι := fun p => -s p

/-- `__rsub__`: `-self + tensor` (/repo/crypten/mpc/primitives/arithmetic.py:662-664). -/
def rsubPublic [NeZero n] (s : Shares n ι) (y : Tensor ι) : Shares n ι := addPublic (negShares s) y

/-- `mul` by a Python integer: `self.share * y` (/repo/crypten/mpc/primitives/arithmetic.py:424-427), and `mul_` by an integer or integer
tensor (lines 432-434): every party multiplies. -/
def mulInt (s : Shares n ι) (y : Tensor ι) : Shares n ι := fun p => s p * y

/-- `mul` / `matmul` / `conv` with an encoded public tensor, before rescaling (/repo/crypten/mpc/primitives/arithmetic.py:369-372). -/
def bilinearPublic (T : BilinearOp ι ι' κ) (s : Shares n ι) (y : Tensor ι') : Shares n κ := fun p => T.apply (s p) y

/-- `pad` with a public value: rank 0 pads with the encoded value, the others with 0 (/repo/crypten/mpc/primitives/arithmetic.py:240-249). -/
def padPublic [NeZero n] (g : κ → Option ι) (s : Shares n ι) (v : I64) : Shares n κ :=
  fun p => Torch.pad g (s p) (if p = 0 then v else 0)

/-- `pad` with an encrypted 0-dimensional value (/repo/crypten/mpc/primitives/arithmetic.py:250-257). -/
def padPrivate (g : κ → Option ι) (s : Shares n ι) (v : Fin n → I64) : Shares n κ := fun p => Torch.pad g (s p) (v p)

/-- `index_add_` / `scatter_add_` of a public tensor: rank 0 only (/repo/crypten/mpc/primitives/arithmetic.py:515-518, 543-545). -/
def indexAddPublic [NeZero n] [DecidableEq ι] (entries : List κ) (tgt : κ → ι) (s : Shares n ι) (t : Tensor κ) : Shares n ι :=
  fun p => if p = 0 then Torch.indexAdd entries tgt (s p) t else s p

/-- `index_add_` / `scatter_add_` of an encrypted tensor (/repo/crypten/mpc/primitives/arithmetic.py:519-520, 546-547). -/
def indexAddPrivate [DecidableEq ι] (entries : List κ) (tgt : κ → ι) (s : Shares n ι) (t : Shares n κ) : Shares n ι :=
  fun p => Torch.indexAdd entries tgt (s p) (t p)

/-- `scatter_` / `__setitem__` with an encrypted tensor (/repo/crypten/mpc/primitives/arithmetic.py:221-229, 625-637). -/
def overwritePrivate (pick : ι → Option κ) (s : Shares n ι) (t : Shares n κ) : Shares n ι :=
  fun p => Torch.overwrite pick (s p) (t p)

/-! ## Programs of local operations on named registers

Tensors are flat (`ℕ`-indexed); shapes are public and enter through the index functions. -/

/-- One statement `dst = op(srcs)`. -/
inductive LinOp where
  | add (dst a b : ℕ)
  | sub (dst a b : ℕ)
  | addPub (dst a : ℕ) (y : Tensor ℕ)
  | subPub (dst a : ℕ) (y : Tensor ℕ)
  | rsubPub (dst a : ℕ) (y : Tensor ℕ)
  | neg (dst a : ℕ)
  | mulPub (dst a : ℕ) (y : Tensor ℕ)
  | bilinearPub (dst a : ℕ) (T : BilinearOp ℕ ℕ ℕ) (y : Tensor ℕ)
  | reindex (dst a : ℕ) (g : ℕ → ℕ)
  | sums (dst a : ℕ) (src : ℕ → List ℕ)
  | padPub (dst a : ℕ) (g : ℕ → Option ℕ) (v : I64)
  | indexAddPub (dst a : ℕ) (entries : List ℕ) (tgt : ℕ → ℕ) (t : Tensor ℕ)
  | indexAdd (dst a b : ℕ) (entries : List ℕ) (tgt : ℕ → ℕ)
  | overwrite (dst a b : ℕ) (pick : ℕ → Option ℕ)

/-- Effect of a statement on encrypted registers. -/
def LinOp.stepShared [NeZero n] (ρ : ℕ → Shares n ℕ) : LinOp → ℕ → Shares n ℕ
  | .add d a b => Function.update ρ d (addShares (ρ a) (ρ b))
  | .sub d a b => Function.update ρ d (subShares (ρ a) (ρ b))
  | .addPub d a y => Function.update ρ d (addPublic (ρ a) y)
  | .subPub d a y => Function.update ρ d (subPublic (ρ a) y)
  | .rsubPub d a y => Function.update ρ d (rsubPublic (ρ a) y)
  | .neg d a => Function.update ρ d (negShares (ρ a))
  | .mulPub d a y => Function.update ρ d (mulInt (ρ a) y)
  | .bilinearPub d a T y => Function.update ρ d (bilinearPublic T (ρ a) y)
  | .reindex d a g => Function.update ρ d (mapShares (Torch.reindex g) (ρ a))
  | .sums d a src => Function.update ρ d (mapShares (Torch.sums src) (ρ a))
  | .padPub d a g v => Function.update ρ d (padPublic g (ρ a) v)
  | .indexAddPub d a e tgt t => Function.update ρ d (indexAddPublic e tgt (ρ a) t)
  | .indexAdd d a b e tgt => Function.update ρ d (indexAddPrivate e tgt (ρ a) (ρ b))
  | .overwrite d a b pick => Function.update ρ d (overwritePrivate pick (ρ a) (ρ b))

end CrypTen

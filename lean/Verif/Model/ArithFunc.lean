import Verif.Model.Convert

/-!
# Tensors with a scale

`ArithmeticSharedTensor` as the user sees it: shares together with the scale of the encoder. Operations that may truncate or interact are `Proto`s.
Operands have the same index set; broadcasting is an `expand` (local reindexing) of the operands before the operation.
That some of these operations also change their operand in place is the subject of `Model/Heap.lean`.
-/

namespace CrypTen
variable {n : ℕ} {ι ι' κ : Type}

/-- Shares and `encoder.scale` of an `ArithmeticSharedTensor`. -/
structure AST (n : ℕ) (ι : Type) where
  share : Shares n ι
  scale : ℕ

/-- The number an entry stands for: revealed word over scale (what `get_plain_text` aims at; see C06 for the decoder). -/
def AST.value (x : AST n ι) (i : ι) : ℚ := ((reveal x.share i).toInt : ℚ) / x.scale

/-- `encoder.encode(y)` of public numbers (/repo/crypten/encoder.py:41-66; float tensors and Python numbers in range, see `encode`). -/
def encodePublic (scale : ℕ) (y : ι → ℚ) : Tensor ι := fun i => toLong (scale * y i)

/-- `encode_` (/repo/crypten/mpc/primitives/arithmetic.py:311-322). -/
def AST.encodeTo [NeZero n] (newScale : ℕ) (x : AST n ι) : Proto n (AST n ι) :=
  if x.scale = newScale then pure x
  else if x.scale < newScale then
    pure ⟨mulInt x.share fun _ => BitVec.ofNat 64 (newScale / x.scale), newScale⟩
  else do
    let s ← Proto.divInt x.share fun _ => (x.scale / newScale : ℕ)
    pure ⟨s, newScale⟩

/-- `add` of an encrypted tensor (/repo/crypten/mpc/primitives/arithmetic.py:373-380): the operand with the smaller scale is re-encoded first. -/
def AST.add [NeZero n] (x y : AST n ι) : Proto n (AST n ι) :=
  if x.scale > y.scale then do
    let y' ← y.encodeTo x.scale
    pure ⟨addShares x.share y'.share, x.scale⟩
  else if x.scale < y.scale then do
    let x' ← x.encodeTo y.scale
    pure ⟨addShares x'.share y.share, y.scale⟩
  else pure ⟨addShares x.share y.share, x.scale⟩

/-- `sub` of an encrypted tensor (same lines). -/
def AST.sub [NeZero n] (x y : AST n ι) : Proto n (AST n ι) :=
  if x.scale > y.scale then do
    let y' ← y.encodeTo x.scale
    pure ⟨subShares x.share y'.share, x.scale⟩
  else if x.scale < y.scale then do
    let x' ← x.encodeTo y.scale
    pure ⟨subShares x'.share y.share, y.scale⟩
  else pure ⟨subShares x.share y.share, x.scale⟩

/-- `add` of public numbers (/repo/crypten/mpc/primitives/arithmetic.py:361-368). -/
def AST.addPub [NeZero n] (x : AST n ι) (y : ι → ℚ) : AST n ι := ⟨addPublic x.share (encodePublic x.scale y), x.scale⟩

/-- `sub` of public numbers (same lines). -/
def AST.subPub [NeZero n] (x : AST n ι) (y : ι → ℚ) : AST n ι := ⟨subPublic x.share (encodePublic x.scale y), x.scale⟩

/-- `neg` (/repo/crypten/mpc/primitives/arithmetic.py:588-595). -/
def AST.neg (x : AST n ι) : AST n ι := ⟨negShares x.share, x.scale⟩

/-- `__rsub__`: `-self + y` (/repo/crypten/mpc/primitives/arithmetic.py:662-664, /repo/crypten/cryptensor.py). -/
def AST.rsubPub [NeZero n] (y : ι → ℚ) (x : AST n ι) : AST n ι := x.neg.addPub y

/-- `mul` by a Python integer (/repo/crypten/mpc/primitives/arithmetic.py:424-428). -/
def AST.mulInt (x : AST n ι) (z : ℤ) : AST n ι := ⟨CrypTen.mulInt x.share fun _ => BitVec.ofInt 64 z, x.scale⟩

/-- `mul_` by an integer tensor, lines 432-436. -/
def AST.mulIntTensor (x : AST n ι) (z : Tensor ι) : AST n ι := ⟨CrypTen.mulInt x.share z, x.scale⟩

/-- `div_` by a Python integer or integer tensor (lines 447-475). -/
def AST.divInt [NeZero n] (x : AST n ι) (y : ι → ℤ) : Proto n (AST n ι) := do
  let s ← Proto.divInt x.share y
  pure ⟨s, x.scale⟩

/-- `mul`, `matmul`, `conv…` with an encrypted tensor (lines 380-402): rescaled by the first operand's scale if both scales exceed 1. -/
def AST.mul [NeZero n] (B : BilinearOp ι ι' κ) (x : AST n ι) (y : AST n ι') : Proto n (AST n κ) := do
  let s ← Proto.mul B x.share y.share
  if x.scale > 1 ∧ y.scale > 1 then do
    let s' ← Proto.divInt s fun _ => (x.scale : ℤ)
    pure ⟨s', x.scale⟩
  else if x.scale > 1 then pure ⟨s, x.scale⟩
  else pure ⟨s, y.scale⟩

/-- `mul`, `matmul`, `conv…` with public numbers (lines 369-372, 390-394). -/
def AST.mulPub [NeZero n] (B : BilinearOp ι ι' κ) (x : AST n ι) (y : ι' → ℚ) : Proto n (AST n κ) := do
  let s := bilinearPublic B x.share (encodePublic x.scale y)
  if x.scale > 1 then do
    let s' ← Proto.divInt s fun _ => (x.scale : ℤ)
    pure ⟨s', x.scale⟩
  else pure ⟨s, x.scale⟩

/-- `square` (lines 597-603): always rescaled, also when the scale is 1. -/
def AST.square [NeZero n] (x : AST n ι) : Proto n (AST n ι) := do
  let s ← Proto.square x.share
  let s' ← Proto.divInt s fun _ => (x.scale : ℤ)
  pure ⟨s', x.scale⟩

/-- Elementwise `mul` without broadcasting. -/
abbrev elementwise (ι : Type) : BilinearOp ι ι ι := Torch.mulOp id id

/-- Functions that move entries around (/repo/crypten/common/functions/regular.py:285-297). -/
def AST.reindex (g : κ → ι) (x : AST n ι) : AST n κ := ⟨fun p k => x.share p (g k), x.scale⟩

/-- `stack` / `cat` of two tensors: the shares are concatenated, the encoder is the first tensor's (regular.py:246-281). -/
def AST.pair (x y : AST n ι) : AST n (Bool × ι) := ⟨fun p k => if k.1 then y.share p k.2 else x.share p k.2, x.scale⟩

/-- `sum(0)`. -/
def AST.sumFirst [Fintype κ] (x : AST n (κ × ι)) : AST n ι := ⟨fun p i => ∑ k, x.share p (k, i), x.scale⟩

end CrypTen

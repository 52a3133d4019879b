import Mathlib.Data.BitVec
import Mathlib.Algebra.BigOperators.Fin
import Mathlib.Algebra.BigOperators.Group.Finset.Basic
import Mathlib.Data.Rat.Floor

/-!
# The ring of 64-bit integers, tensors and parties

`torch.int64` values are `BitVec 64` (wrap-around arithmetic, two's complement `toInt`).
A tensor with index set `ι` is a function `ι → I64`; elementwise operations are the pointwise
operations.  The state of one secret-shared tensor over `n` parties is a function
`Fin n → ι → I64` (party ↦ its local `_tensor`).
-/

namespace CrypTen

/-- A `torch.int64` scalar. -/
abbrev I64 := BitVec 64

/-- A `torch.LongTensor` whose entries are indexed by `ι`. -/
abbrev Tensor (ι : Type) := ι → I64

/-- The local shares of all `n` parties for one secret-shared tensor. -/
abbrev Shares (n : ℕ) (ι : Type) := Fin n → Tensor ι

/-- `tensor.div(y, rounding_mode="trunc")` on `int64` (C division, rounds toward zero).
Used by /repo/crypten/mpc/primitives/arithmetic.py:466 and beaver.py:162. Division by zero
(which raises in torch) is not used: every theorem assumes a positive divisor. -/
def tdivI64 (x y : I64) : I64 := BitVec.ofInt 64 (x.toInt.tdiv y.toInt)

/-- Conversion of an exact number to `int64` by dropping the fraction (`tensor.long()`), rounding toward zero. -/
def truncQ (x : ℚ) : ℤ := if 0 ≤ x then ⌊x⌋ else ⌈x⌉

/-- `ArithmeticSharedTensor.reveal` (/repo/crypten/mpc/primitives/arithmetic.py:296-302): `all_reduce` with SUM of
the clones of all parties' shares; every party gets the same tensor. -/
def reveal {n : ℕ} {ι : Type} (s : Shares n ι) : Tensor ι := ∑ p, s p

/-- XOR of a list of words. -/
def xorList : List I64 → I64
  | [] => 0
  | a :: l => a ^^^ xorList l

/-- `BinarySharedTensor.reveal` (/repo/crypten/mpc/primitives/binary.py:386-392): `all_reduce` with BXOR. -/
def revealX {n : ℕ} {ι : Type} (s : Shares n ι) : Tensor ι :=
  fun i => xorList (List.ofFn (fun p => s p i))

end CrypTen

import Verif.Model.Torch

/-!
# Local operations of `BinarySharedTensor`

Models /repo/crypten/mpc/primitives/binary.py.  Shares of all parties; the secret is the XOR of the shares.
-/

namespace CrypTen
variable {n : ℕ} {ι : Type}

/-- `__xor__` / `__ixor__` of two shared tensors (binary.py:219-220). -/
def xorShares (s t : Shares n ι) : Shares n ι := fun p i => s p i ^^^ t p i

/-- `__xor__` / `__ixor__` with a public tensor: rank 0 only (binary.py:216-218). -/
def xorPublic [NeZero n] (s : Shares n ι) (y : Tensor ι) : Shares n ι := fun p i => if p = 0 then s p i ^^^ y i else s p i

/-- `__and__` / `__iand__` with a public tensor: every party (binary.py:238-239). -/
def andPublic (s : Shares n ι) (y : Tensor ι) : Shares n ι := fun p i => s p i &&& y i

/-- `__invert__`: rank 0 XORs with -1 (binary.py:267-272). -/
def notShares [NeZero n] (s : Shares n ι) : Shares n ι := fun p i => if p = 0 then s p i ^^^ (-1#64) else s p i

/-- `lshift` by a Python integer (binary.py:274-282). -/
def lshiftShares (s : Shares n ι) (k : ℕ) : Shares n ι := fun p i => s p i <<< k

/-- `rshift`: torch's `>>` on `int64` is an arithmetic shift (binary.py:284-292). -/
def rshiftShares (s : Shares n ι) (k : ℕ) : Shares n ι := fun p i => (s p i).sshiftRight k

end CrypTen

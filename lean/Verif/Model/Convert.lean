import Verif.Model.Circuit

/-!
# Conversion between arithmetic and XOR shares

Models /repo/crypten/mpc/primitives/converters.py and `BinarySharedTensor.sum`
(/repo/crypten/mpc/primitives/binary.py:339-362). The stacked tensor is a list of rows; rows that are added together go through one addition.
-/

namespace CrypTen
variable {n : ℕ} {ι : Type}

/-- `torch_stack` of a list of rows. -/
def stackRows (l : List (Shares n ι)) : Shares n (Fin l.length × ι) := fun p k => l[k.1] p k.2

/-- The first `h` rows (`default` is never used when `h ≤ l.length`). -/
def takeRows (h off : ℕ) (l : List (Shares n ι)) : Shares n (Fin h × ι) := fun p k => (l.getD (off + k.1) fun _ _ => 0#64) p k.2

/-- The rows of a stacked tensor. -/
def unstackRows {h : ℕ} (x : Shares n (Fin h × ι)) : List (Shares n ι) := List.ofFn fun k => fun p i => x p (k, i)

/-- The loop of `BinarySharedTensor.sum` (binary.py:347-356): with an odd number of rows the first is set aside; the first and the second half of the
others are added, and the row set aside is appended. The first argument bounds the number of iterations (`Props` shows it is never reached). -/
def sumXLoop [NeZero n] : ℕ → List (Shares n ι) → Proto n (List (Shares n ι))
  | 0, l => pure l
  | fuel + 1, l =>
    if l.length > 1 then do
      let extra := if l.length % 2 = 1 then l.take 1 else []
      let x := if l.length % 2 = 1 then l.drop 1 else l
      let h := x.length / 2
      let y ← addX (takeRows h 0 x) (takeRows h h x)
      sumXLoop fuel (unstackRows y ++ extra)
    else pure l

/-- `sum(dim=0)`: the only row left is squeezed. -/
def sumX [NeZero n] (l : List (Shares n ι)) : Proto n (Shares n ι) := do
  let r ← sumXLoop l.length l
  pure (r.headD fun _ _ => 0#64)

/-- `[BinarySharedTensor(share, src=i) for i in ...]` (converters.py:20-26): party `i` is the source of row `i`, and gives its own share. -/
def shareRows (x : Shares n ι) : List (Fin n) → Proto n (List (Shares n ι))
  | [] => pure []
  | i :: rest => do
    let r ← Proto.encryptX i (x i)
    let rs ← shareRows x rest
    pure (r :: rs)

/-- `_A2B` (converters.py:18-38), first implementation. -/
def a2b [NeZero n] (x : Shares n ι) : Proto n (Shares n ι) := do
  let rows ← shareRows x (List.finRange n)
  sumX rows

/-- The loop of the second implementation of `_A2B`, which runs if the first raises `RuntimeError` (converters.py:31-34). -/
def a2bSeqLoop [NeZero n] (x : Shares n ι) (acc : Shares n ι) : List (Fin n) → Proto n (Shares n ι)
  | [] => pure acc
  | i :: rest => do
    let r ← Proto.encryptX i (x i)
    let acc ← addX acc r
    a2bSeqLoop x acc rest

/-- Second implementation of `_A2B`. -/
def a2bSeq [NeZero n] (x : Shares n ι) : Proto n (Shares n ι) := do
  match List.finRange n with
  | [] => pure fun _ _ => 0#64
  | i :: rest => do
    let acc ← Proto.encryptX i (x i)
    a2bSeqLoop x acc rest

/-- First part of `_B2A` (converters.py:48-64): the lowest `bits` bits as one number. -/
def b2aBits [NeZero n] (bits : ℕ) (x : Shares n ι) : Proto n (Shares n ι) :=
  if bits = 1 then
    Proto.b2aBit (andPublic x fun _ => 1)
  else do
    let binaryBits : Shares n (Fin bits × ι) := fun p k => rshiftShares x k.1 p k.2
    let arithmeticBits ← Proto.b2aBit (andPublic binaryBits fun _ => 1)
    let scaled := mulInt arithmeticBits fun k => 1#64 <<< k.1.val
    pure fun p i => ∑ k : Fin bits, scaled p (k, i)

/-- `_B2A` (converters.py:41-69). `newScale` is the scale of `FixedPointEncoder(precision_bits=precision)`, `oldScale` that of the binary tensor's encoder. -/
def b2a [NeZero n] (bits newScale oldScale : ℕ) (x : Shares n ι) : Proto n (Shares n ι) := do
  let a ← b2aBits bits x
  let scale : ℕ := newScale / oldScale
  pure (mulInt a fun _ => BitVec.ofNat 64 scale)

end CrypTen

import Verif.Model.Proto

/-!
# Circuits on XOR shares

Models /repo/crypten/mpc/primitives/circuit.py and the operators of `BinarySharedTensor` built on it
(/repo/crypten/mpc/primitives/binary.py). `stack([S, P])` is a tensor with index set `Bool × ι` (`false` is row 0, `S`).
-/

namespace CrypTen
variable {n : ℕ} {ι : Type}

/-- `__MASKS` (circuit.py:29-40); entry `i` for `i < 6`. -/
def spkMask (i : ℕ) : I64 :=
  match i with
  | 0 => 6148914691236517205#64
  | 1 => 2459565876494606882#64
  | 2 => 578721382704613384#64
  | 3 => 36029346783166592#64
  | 4 => 140737488388096#64
  | _ => 2147483648#64

/-- `__MULTIPLIERS` (circuit.py:42-44): `(1 << (2**i + 1)) - 2`. -/
def spkMult (i : ℕ) : I64 := BitVec.ofInt 64 ((1 <<< (2 ^ i + 1) : ℕ) - 2)

/-- `__OUT_MASKS` (circuit.py:45). -/
def spkOutMask (i : ℕ) : I64 := spkMask i * spkMult i

/-- `stack([S, P])`. -/
def stackSP (S P : Shares n ι) : Shares n (Bool × ι) := fun p k => if k.1 then P p k.2 else S p k.2

/-- `SP[0]` / `SP[1]`. -/
def rowSP (b : Bool) (SP : Shares n (Bool × ι)) : Shares n ι := fun p i => SP p (b, i)

/-- One iteration of the loop of `__SPK_circuit` (circuit.py:72-86). The AND broadcasts `P0` over the two rows. -/
def spkStage [NeZero n] (i : ℕ) (SP : Shares n (Bool × ι)) : Proto n (Shares n (Bool × ι)) := do
  let inMask := spkMask i
  let outMask := spkOutMask i
  let notOutMask := outMask ^^^ (-1)
  let P0 := andPublic (rowSP true SP) (fun _ => outMask)
  let S1P1 := andPublic SP (fun _ => inMask)
  let S1P1 : Shares n (Bool × ι) := fun p k => S1P1 p k * spkMult i
  let update ← Proto.and (fun p k => P0 p k.2) S1P1
  let SP : Shares n (Bool × ι) := fun p k => if k.1 then SP p k &&& notOutMask else SP p k
  pure (xorShares SP update)

/-- Iterations `i, i+1, ...` (`m` of them). -/
def spkLoop [NeZero n] : (m i : ℕ) → Shares n (Bool × ι) → Proto n (Shares n (Bool × ι))
  | 0, _, SP => pure SP
  | m + 1, i, SP => do
    let SP ← spkStage i SP
    spkLoop m (i + 1) SP

/-- `__SPK_circuit` (circuit.py:50-87), `__LOG_BITS = 6`. -/
def spkCircuit [NeZero n] (S P : Shares n ι) : Proto n (Shares n ι × Shares n ι) := do
  let SP ← spkLoop 6 0 (stackSP S P)
  pure (rowSP false SP, rowSP true SP)

/-- The loop of `__P_circuit` (circuit.py:101-105): `m` iterations from `shift`. -/
def pLoop [NeZero n] : (m shift : ℕ) → Shares n ι → Proto n (Shares n ι)
  | 0, _, P => pure P
  | m + 1, shift, P => do
    let P ← Proto.and P (lshiftShares P shift)
    pLoop m (shift / 2) P

/-- `__P_circuit` (circuit.py:90-105). -/
def pCircuit [NeZero n] (P : Shares n ι) : Proto n (Shares n ι) := pLoop 6 32 P

/-- `__flip_sign_bit` (circuit.py:108-109). -/
def flipSignBit [NeZero n] (x : Shares n ι) : Shares n ι := xorPublic x (fun _ => BitVec.ofInt 64 (-(2 ^ 63)))

/-- `__get_sign_bit` (circuit.py:112-122): arithmetic shift, then compare each share with -1. -/
def getSignBit (x : Shares n ι) : Shares n ι :=
  let y := rshiftShares x 63
  fun p i => boolI64 (y p i == -1#64)

/-- `add` (circuit.py:125-130). -/
def addX [NeZero n] (x y : Shares n ι) : Proto n (Shares n ι) := do
  let S ← Proto.and x y
  let P := xorShares x y
  let (carry, _) ← spkCircuit S P
  pure (xorShares P (lshiftShares carry 1))

/-- `add` with a public tensor (circuit.py:125-130 with `y` public). -/
def addXPublic [NeZero n] (x : Shares n ι) (y : Tensor ι) : Proto n (Shares n ι) := do
  let S := andPublic x y
  let P := xorPublic x y
  let (carry, _) ← spkCircuit S P
  pure (xorShares P (lshiftShares carry 1))

/-- `eq` (circuit.py:133-137). -/
def eqX [NeZero n] (x y : Shares n ι) : Proto n (Shares n ι) := do
  let bitwiseEqual := notShares (xorShares x y)
  let P ← pCircuit bitwiseEqual
  pure (getSignBit P)

/-- `ne` (/repo/crypten/mpc/primitives/binary.py:302-303): `self.eq(y) ^ 1`. -/
def neX [NeZero n] (x y : Shares n ι) : Proto n (Shares n ι) := do
  let e ← eqX x y
  pure (xorPublic e fun _ => 1)

/-- `lt` (circuit.py:140-147). -/
def ltX [NeZero n] (x y : Shares n ι) : Proto n (Shares n ι) := do
  let (x, y) := (flipSignBit x, flipSignBit y)
  let S ← Proto.and y (notShares x)
  let P := notShares (xorShares x y)
  let (S, _) ← spkCircuit S P
  pure (getSignBit S)

/-- `le` (circuit.py:150-157). -/
def leX [NeZero n] (x y : Shares n ι) : Proto n (Shares n ι) := do
  let (x, y) := (flipSignBit x, flipSignBit y)
  let S ← Proto.and y (notShares x)
  let P := notShares (xorShares x y)
  let (S, P) ← spkCircuit S P
  pure (getSignBit (xorShares S P))

/-- `gt` (circuit.py:160-167). -/
def gtX [NeZero n] (x y : Shares n ι) : Proto n (Shares n ι) := do
  let (x, y) := (flipSignBit x, flipSignBit y)
  let S ← Proto.and x (notShares y)
  let P := notShares (xorShares x y)
  let (S, _) ← spkCircuit S P
  pure (getSignBit S)

/-- `ge` (circuit.py:170-177). -/
def geX [NeZero n] (x y : Shares n ι) : Proto n (Shares n ι) := do
  let (x, y) := (flipSignBit x, flipSignBit y)
  let S ← Proto.and x (notShares y)
  let P := notShares (xorShares x y)
  let (S, P) ← spkCircuit S P
  pure (getSignBit (xorShares S P))

/-- `where` with an encrypted condition (/repo/crypten/mpc/primitives/binary.py:401-429): bit 0 of the condition is spread over the word, on each share.
`__and__`, `__invert__` and `__xor__` as elsewhere. -/
def whereX [NeZero n] (x cond y : Shares n ι) : Proto n (Shares n ι) := do
  let condExpanded : Shares n ι := fun p i => -(cond p i &&& 1)
  let yMasked ← Proto.and (notShares condExpanded) y
  let xMasked ← Proto.and x condExpanded
  pure (xorShares xMasked yMasked)

end CrypTen

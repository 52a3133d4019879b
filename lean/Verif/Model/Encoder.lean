import Verif.Model.Ring

/-!
# Fixed-point encoding

Models /repo/crypten/encoder.py. Floating-point numbers are exact rationals: rounding of the float product
`scale * x` and of the float division in `decode` is not modelled.  Everything is elementwise, so the functions are on one element.
-/

namespace CrypTen

/-- `tensor.div(y, rounding_mode="floor")` on `int64`. -/
def fdivI64 (x y : I64) : I64 := BitVec.ofInt 64 (x.toInt.fdiv y.toInt)

/-- `tensor % y` on `int64` (result has the sign of the divisor). -/
def fmodI64 (x y : I64) : I64 := BitVec.ofInt 64 (x.toInt.fmod y.toInt)

/-- `cond.long()`. -/
def boolI64 (b : Bool) : I64 := if b then 1#64 else 0#64

/-- `tensor.sign()` on `int64`. -/
def signI64 (x : I64) : I64 := if x.toInt < 0 then -1#64 else if x = 0#64 then 0#64 else 1#64

/-- /repo/crypten/encoder.py:18-29 `nearest_integer_division`, one element; `none` is the failed assertion of line 20. The divisor is a
Python integer; torch converts it to `int64` (`ofInt`), which the theorems keep in range. -/
def nearestIntegerDivision (tensor : I64) (integer : ℤ) : Option I64 :=
  if integer > 0 then
    let d := BitVec.ofInt 64 integer
    let lez := boolI64 (tensor.toInt < 0)
    let posRemainder := fmodI64 ((1#64 - lez) * tensor) d
    let negRemainder := lez * fmodI64 (d - tensor) d
    let remainder := posRemainder + negRemainder
    let quotient := tdivI64 tensor d
    let correction := boolI64 ((2#64 * remainder).toInt > d.toInt)
    some (quotient + signI64 tensor * correction)
  else none

/-- What `FixedPointEncoder.encode` distinguishes about its argument (one element of it). -/
inductive PlainInput where
  /-- Python `int` -/
  | pyInt (z : ℤ)
  /-- Python `float` -/
  | pyFloat (x : ℚ)
  /-- element of a Python list (converted to a float tensor) -/
  | listElem (x : ℚ)
  /-- element of a floating-point tensor -/
  | floatTensor (x : ℚ)
  /-- element of an integer tensor -/
  | intTensor (z : I64)
  /-- element of a numpy array (integer arrays hold integers, float arrays hold rationals) -/
  | ndarray (x : ℚ)
  /-- tensor of another dtype (complex, bool, ...) -/
  | otherTensor
  /-- anything else -/
  | other

/-- Exceptions raised by `encode`. -/
inductive EncodeError where
  | overflow
  | typeError
  deriving DecidableEq

/-- `torch.tensor([v], dtype=torch.long)`: truncates toward zero, raises on overflow. -/
def toLongChecked (v : ℚ) : Except EncodeError I64 :=
  if -2 ^ 63 ≤ truncQ v ∧ truncQ v < 2 ^ 63 then .ok (BitVec.ofInt 64 (truncQ v)) else .error .overflow

/-- `floatTensor.long()`: truncates toward zero (out of range: unspecified in C; the theorems assume the range). -/
def toLong (v : ℚ) : I64 := BitVec.ofInt 64 (truncQ v)

/-- /repo/crypten/encoder.py:41-66 `FixedPointEncoder.encode` with `_scale = scale`, one element. The branch returning a `CrypTensor`
unchanged (line 43) is not an encoding and is left out. -/
def encode (scale : ℕ) : PlainInput → Except EncodeError I64
  | .pyInt z => toLongChecked (scale * z)
  | .pyFloat x => toLongChecked (scale * x)
  | .listElem x => .ok (toLong (x * scale))
  | .floatTensor x => .ok (toLong (scale * x))
  | .intTensor z => .ok (BitVec.ofNat 64 scale * z)
  | .ndarray x => .ok (BitVec.ofNat 64 scale * toLong x)
  | .otherTensor => .error .typeError
  | .other => .error .typeError

/-- /repo/crypten/encoder.py:68-83 `FixedPointEncoder.decode` with `_scale = scale`, one element, in exact arithmetic
(the `float()` conversions and the division of line 79 do not round).  In the branch `_scale <= 1` the assertion inside
`nearest_integer_division` fails for scale 0 (`none`). -/
def decode (scale : ℕ) (tensor : I64) : Option ℚ :=
  if scale > 1 then
    let s := BitVec.ofNat 64 scale
    let correction := boolI64 (tensor.toInt < 0)
    let dividend := fdivI64 tensor (s - correction)
    let remainder := fmodI64 tensor s
    let remainder := remainder + boolI64 (remainder = 0#64) * s * correction
    some ((dividend.toInt : ℚ) + (remainder.toInt : ℚ) / scale)
  else
    (nearestIntegerDivision tensor scale).map fun t => (t.toInt : ℚ)

/-- The two attributes of a `FixedPointEncoder`. -/
structure EncoderState where
  precisionBits : ℕ
  scale : ℕ

/-- /repo/crypten/encoder.py:35-39 `__init__`. -/
def EncoderState.init (precisionBits : ℕ) : EncoderState := { precisionBits, scale := 2 ^ precisionBits }

/-- Assignments to the attributes. -/
inductive EncoderAssign where
  | setPrecision (bits : ℕ)
  | setScale (scale : ℕ)

/-- /repo/crypten/encoder.py:85-90 `__setattr__`: assigning one attribute updates the other; `int(math.log2(v))` is the
integer part of the logarithm. -/
def EncoderState.assign (_e : EncoderState) : EncoderAssign → EncoderState
  | .setPrecision b => { precisionBits := b, scale := 2 ^ b }
  | .setScale s => { precisionBits := Nat.log2 s, scale := s }

end CrypTen

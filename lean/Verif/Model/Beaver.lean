import Verif.Model.Arith
import Verif.Model.Binary
import Verif.Model.Encoder

/-!
# Beaver protocols

Models /repo/crypten/mpc/primitives/beaver.py. The protocols take the tuple they obtained from the provider as an argument; what a tuple
must satisfy is `Valid`, which `Props/Providers.lean` proves of the providers' output.
-/

namespace CrypTen
variable {n : ℕ} {ι ι' κ : Type}

/-- Shares of a multiplication triple (`generate_additive_triple`). -/
structure MulTriple (n : ℕ) (ι ι' κ : Type) where
  a : Shares n ι
  b : Shares n ι'
  c : Shares n κ

/-- The triple is a triple for the bilinear function `T`. -/
def MulTriple.Valid (t : MulTriple n ι ι' κ) (T : BilinearOp ι ι' κ) : Prop :=
  reveal t.c = T.apply (reveal t.a) (reveal t.b)

/-- Shares of a square pair (`square`). -/
structure SquarePair (n : ℕ) (ι : Type) where
  r : Shares n ι
  r2 : Shares n ι

/-- The second component is the square of the first. -/
def SquarePair.Valid (t : SquarePair n ι) : Prop := ∀ i, reveal t.r2 i = reveal t.r i * reveal t.r i

/-- XOR shares of a binary triple (`generate_binary_triple`). -/
structure BinTriple (n : ℕ) (ι : Type) where
  a : Shares n ι
  b : Shares n ι
  c : Shares n ι

/-- `c` is the bitwise AND of `a` and `b`. -/
def BinTriple.Valid (t : BinTriple n ι) : Prop := ∀ i, revealX t.c i = revealX t.a i &&& revealX t.b i

/-- Arithmetic and binary shares of one random bit (`B2A_rng`). -/
structure B2APair (n : ℕ) (ι : Type) where
  rA : Shares n ι
  rB : Shares n ι

/-- Both components share the same bit. -/
def B2APair.Valid (t : B2APair n ι) : Prop := ∀ i, ∃ bit : Bool, reveal t.rA i = boolI64 bit ∧ revealX t.rB i = boolI64 bit

/-- Public values `epsilon`, `delta` opened by `__beaver_protocol` (beaver.py:78-79), scales forced to 1. -/
def beaverOpen (t : MulTriple n ι ι' κ) (x : Shares n ι) (y : Shares n ι') : Tensor ι × Tensor ι' :=
  (reveal (subShares x t.a), reveal (subShares y t.b))

/-- `__beaver_protocol` (beaver.py:31-86) for the bilinear function `T`, passive security. -/
def beaverProduct [NeZero n] (T : BilinearOp ι ι' κ) (t : MulTriple n ι ι' κ) (x : Shares n ι) (y : Shares n ι') :
    Shares n κ :=
  let (epsilon, delta) := beaverOpen t x y
  let c : Shares n κ := fun p => t.c p + T.apply epsilon (t.b p)
  let c : Shares n κ := fun p => c p + T.apply (t.a p) delta
  addPublic c (T.apply epsilon delta)

/-- Public value opened by `square` (beaver.py:124-125). -/
def squareOpen (t : SquarePair n ι) (x : Shares n ι) : Tensor ι := reveal (subShares x t.r)

/-- `square` (beaver.py:113-126): `r2 + 2 * r * epsilon + epsilon * epsilon`. -/
def beaverSquare [NeZero n] (t : SquarePair n ι) (x : Shares n ι) : Shares n ι :=
  let epsilon := squareOpen t x
  addPublic (addShares t.r2 (mulInt (mulInt t.r (fun _ => 2)) epsilon)) (epsilon * epsilon)

/-- The value checked by active security (beaver.py:58-72), for operands of one shape. `t` is the revealed random scale, converted to an
integer by the encoder of `a` (scale 1) when multiplied; elementwise products throughout, whatever `op` is. -/
def activeCheck [NeZero n] (t : Tensor ι) (u v : MulTriple n ι ι ι) : Tensor ι :=
  let rho := reveal (subShares (mulInt u.a t) v.a)
  let sigma := reveal (subShares u.b v.b)
  reveal (subPublic (subShares (subShares (subShares (mulInt u.c t) v.c) (mulInt v.a sigma)) (mulInt v.b rho)) (rho * sigma))

/-- Result of the active-security check (beaver.py:74-75): `error` is the `ValueError`. -/
def activeVerify [NeZero n] (t : Tensor ι) (u v : MulTriple n ι ι ι) : Prop := ∀ i, activeCheck t u v i = 0

/-- Public values opened by `AND` (beaver.py:182-188). -/
def andOpen (t : BinTriple n ι) (x y : Shares n ι) : Tensor ι × Tensor ι :=
  (revealX (xorShares x t.a), revealX (xorShares y t.b))

/-- `AND` (beaver.py:171-190): `(b & epsilon) ^ (a & delta) ^ (epsilon & delta) ^ c`. -/
def beaverAnd [NeZero n] (t : BinTriple n ι) (x y : Shares n ι) : Shares n ι :=
  let (epsilon, delta) := andOpen t x y
  xorShares (xorPublic (xorShares (andPublic t.b epsilon) (andPublic t.a delta)) (fun i => epsilon i &&& delta i)) t.c

/-- `__or__` of shared tensors (binary.py:263-265): `self.__and__(y) ^ self ^ y`. -/
def beaverOr [NeZero n] (t : BinTriple n ι) (x y : Shares n ι) : Shares n ι :=
  xorShares (xorShares (beaverAnd t x y) x) y

/-- `__or__` with a public tensor (binary.py:263-265). -/
def orPublic [NeZero n] (x : Shares n ι) (y : Tensor ι) : Shares n ι := xorPublic (xorShares (andPublic x y) x) y

/-- `__ior__` of shared tensors (binary.py:258-261): `xor_result = self ^ y; self.__iand__(y).__ixor__(xor_result)`. -/
def beaverIOr [NeZero n] (t : BinTriple n ι) (x y : Shares n ι) : Shares n ι :=
  let xorResult := xorShares x y
  xorShares (beaverAnd t x y) xorResult

/-- Public value opened by `B2A_single_bit` (beaver.py:211). -/
def b2aOpen (t : B2APair n ι) (xB : Shares n ι) : Tensor ι := revealX (xorShares xB t.rB)

/-- `B2A_single_bit` (beaver.py:193-213). With one party it re-encrypts the bit (line 202), which adds that party's zero-share; the zero-share
of a single party is 0 (C02) and is left out. -/
def b2aSingleBit [NeZero n] (t : B2APair n ι) (xB : Shares n ι) : Shares n ι :=
  if n < 2 then xB
  else
    let z := b2aOpen t xB
    addPublic (mulInt t.rA (fun i => 1 - 2 * z i)) z

end CrypTen

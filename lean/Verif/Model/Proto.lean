import Verif.Spec.Truncate

/-!
# Interactive protocols

All parties run the same program in lock step. A protocol asks the provider for correlated randomness in a fixed order; `Tuples` is the stream of what the
provider hands out, an arbitrary function of the number of requests made so far and of the shape requested. `good` is a ghost component that collects the
no-wrap conditions of the divisions performed (`DivGood`); the program does not look at it.
-/

namespace CrypTen
variable {n : ℕ}

/-- Everything the provider (and the zero-share generators) will hand out. -/
structure Tuples (n : ℕ) where
  /-- `generate_additive_triple` -/
  mul : ℕ → {ι ι' κ : Type} → BilinearOp ι ι' κ → MulTriple n ι ι' κ
  /-- `square` -/
  square : ℕ → (ι : Type) → SquarePair n ι
  /-- `generate_binary_triple` -/
  bin : ℕ → (ι : Type) → BinTriple n ι
  /-- `B2A_rng` -/
  b2a : ℕ → (ι : Type) → B2APair n ι
  /-- `wrap_rng` -/
  wrap : ℕ → (ι : Type) → WrapPair n ι
  /-- `ArithmeticSharedTensor.PRZS` -/
  zeroA : ℕ → (ι : Type) → Shares n ι
  /-- `BinarySharedTensor.PRZS` -/
  zeroX : ℕ → (ι : Type) → Shares n ι
  /-- `generate_kbit_random_tensor(size, bitlength=bits)` from every party's own generator (`BinarySharedTensor.rand`) -/
  kbit : ℕ → (bits : ℕ) → (ι : Type) → Shares n ι

/-- What the providers and generators guarantee (`Props/Providers.lean`; C02 for the zero-shares; the range of `torch.randint` for `kbit`). -/
structure Tuples.Valid (T : Tuples n) : Prop where
  mul : ∀ k {ι ι' κ : Type} (B : BilinearOp ι ι' κ), (T.mul k B).Valid B
  square : ∀ k ι, (T.square k ι).Valid
  bin : ∀ k ι, (T.bin k ι).Valid
  b2a : ∀ k ι, (T.b2a k ι).Valid
  wrap : ∀ k ι, (T.wrap k ι).Valid
  zeroA : ∀ k ι i, reveal (T.zeroA k ι) i = 0
  zeroX : ∀ k ι i, revealX (T.zeroX k ι) i = 0
  kbit : ∀ k bits ι p i, (T.kbit k bits ι p i).toNat < 2 ^ bits

/-- What the parties tell each other when a tuple is used: every party's contribution to the values that are opened (`reveal`, `reveal_batch`,
/repo/crypten/mpc/primitives/arithmetic.py:281-300, /repo/crypten/mpc/primitives/binary.py:370-392) or gathered (`wraps`,
/repo/crypten/mpc/primitives/beaver.py:149). -/
inductive Event (n : ℕ) : Type 1 where
  /-- a product (/repo/crypten/mpc/primitives/beaver.py:78-79) -/
  | mul {ι ι' κ : Type} (B : BilinearOp ι ι' κ) (epsilon : Shares n ι) (delta : Shares n ι')
  /-- a square (beaver.py:124-125) -/
  | square {ι : Type} (epsilon : Shares n ι)
  /-- an AND (beaver.py:182-188) -/
  | bin {ι : Type} (epsilon delta : Shares n ι)
  /-- a single-bit conversion (beaver.py:211) -/
  | b2a {ι : Type} (z : Shares n ι)
  /-- counting wraps (beaver.py:149) -/
  | wrap {ι : Type} (z : Shares n ι)

/-- What a protocol run returns: the result, the number of tuples requested so far, the ghost condition, and for every request what was sent. -/
structure Run (n : ℕ) (α : Type) : Type 1 where
  val : α
  ctr : ℕ
  good : Prop
  seen : ℕ → Option (Event n)

/-- The transcript of one request. -/
def seenAt (c : ℕ) (e : Event n) : ℕ → Option (Event n) := fun k => if k = c then some e else none

/-- A protocol run by all parties, with result in `α`; the argument is the number of tuples requested before. -/
def Proto (n : ℕ) (α : Type) : Type 1 := Tuples n → ℕ → Run n α

instance : Monad (Proto n) where
  pure a := fun _ c => ⟨a, c, True, fun _ => none⟩
  bind m f := fun T c =>
    let r := m T c
    let r' := f r.val T r.ctr
    ⟨r'.val, r'.ctr, r.good ∧ r'.good, fun k => if k < r.ctr then r.seen k else r'.seen k⟩

variable {ι ι' κ : Type}

/-- Product of two encrypted tensors at the ring level (/repo/crypten/mpc/primitives/beaver.py:31-86). -/
def Proto.mul [NeZero n] (B : BilinearOp ι ι' κ) (x : Shares n ι) (y : Shares n ι') : Proto n (Shares n κ) :=
  fun T c => ⟨beaverProduct B (T.mul c B) x y, c + 1, True, seenAt c (.mul B (subShares x (T.mul c B).a) (subShares y (T.mul c B).b))⟩

/-- Square at the ring level (/repo/crypten/mpc/primitives/beaver.py:113-126). -/
def Proto.square [NeZero n] (x : Shares n ι) : Proto n (Shares n ι) :=
  fun T c => ⟨beaverSquare (T.square c ι) x, c + 1, True, seenAt c (.square (subShares x (T.square c ι).r))⟩

/-- AND of two XOR-shared tensors (/repo/crypten/mpc/primitives/binary.py:236-244, `beaver.AND`). -/
def Proto.and [NeZero n] (x y : Shares n ι) : Proto n (Shares n ι) :=
  fun T c => ⟨beaverAnd (T.bin c ι) x y, c + 1, True, seenAt c (.bin (xorShares x (T.bin c ι).a) (xorShares y (T.bin c ι).b))⟩

/-- `beaver.B2A_single_bit` (/repo/crypten/mpc/primitives/beaver.py:193-213). -/
def Proto.b2aBit [NeZero n] (x : Shares n ι) : Proto n (Shares n ι) :=
  fun T c => ⟨b2aSingleBit (T.b2a c ι) x, c + 1, True, seenAt c (.b2a (xorShares x (T.b2a c ι).rB))⟩

/-- `div_` by positive integers (/repo/crypten/mpc/primitives/arithmetic.py:446-475); records in `good` that no wrap-around spoilt it. -/
def Proto.divInt [NeZero n] (x : Shares n ι) (y : ι → ℤ) : Proto n (Shares n ι) :=
  fun T c => ⟨CrypTen.divInt (T.wrap c ι) x y, c + 1, ∀ i, DivGood (T.wrap c ι) x i,
    if n > 2 then seenAt c (.wrap (addShares x (T.wrap c ι).r)) else fun _ => none⟩

/-- Encryption by party `src` of an encoded tensor (/repo/crypten/mpc/primitives/arithmetic.py:101-104). `x` is the tensor at the source; what the other
parties pass is ignored. -/
def Proto.encryptA (src : Fin n) (x : Tensor ι) : Proto n (Shares n ι) :=
  fun T c => ⟨fun p => if p = src then T.zeroA c ι p + x else T.zeroA c ι p, c + 1, True, fun _ => none⟩

/-- Encryption into XOR shares (/repo/crypten/mpc/primitives/binary.py:90-93). -/
def Proto.encryptX (src : Fin n) (x : Tensor ι) : Proto n (Shares n ι) :=
  fun T c => ⟨fun p => if p = src then fun i => T.zeroX c ι p i ^^^ x i else T.zeroX c ι p, c + 1, True, fun _ => none⟩

/-- `BinarySharedTensor.rand` (/repo/crypten/mpc/primitives/binary.py:135-144): each party draws `bits` random bits of its own. -/
def Proto.kbit (bits : ℕ) (ι : Type) : Proto n (Shares n ι) := fun T c => ⟨T.kbit c bits ι, c + 1, True, fun _ => none⟩

end CrypTen

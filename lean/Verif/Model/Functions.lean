import Mathlib.Algebra.Order.Field.Basic
import Mathlib.Data.Finset.Lattice.Fold
import Mathlib.Algebra.BigOperators.Fin
import Verif.Model.Maximum

/-!
# Functions built from the primitives

Models /repo/crypten/common/functions/power.py, approximations.py, `mean` and `var` of regular.py and dropout.py.
The Python functions are written against the methods of a tensor type (`add`, `mul`, `square`, `div`, …), and so is the model: each function takes an `Ops`,
the record of these methods. `mpcOps` are the encrypted tensors of the other modules; `exactOps K` are tensors of numbers of an ordered field `K`, which give
the meaning of the same program text in exact arithmetic.

A dimension `dim` that a function works along is the first index. Number literals and floating-point coefficients are rationals (the rounding of a Python
float is not modelled). In-place methods (`mul_`, `+=`) act on tensors the function has just created, so they are modelled by the out-of-place ones; the
exception is a tensor given in `cfg.functions.reciprocal_initial` or `sqrt_nr_initial`, which is not modelled.
-/

namespace CrypTen
universe u

/-- The methods of a tensor type that the functions below call. -/
structure Ops (M : Type → Type u) (A : Type → Type) where
  /-- `x + y`, both encrypted -/
  add : {ι : Type} → A ι → A ι → M (A ι)
  /-- `x - y` -/
  sub : {ι : Type} → A ι → A ι → M (A ι)
  /-- `x * y` -/
  mul : {ι : Type} → A ι → A ι → M (A ι)
  /-- `x.square()` -/
  square : {ι : Type} → A ι → M (A ι)
  /-- `x.neg()` -/
  neg : {ι : Type} → A ι → A ι
  /-- `x + c` for a Python number -/
  addNum : {ι : Type} → A ι → ℚ → A ι
  /-- `x - c` for a Python number -/
  subNum : {ι : Type} → A ι → ℚ → A ι
  /-- `x * z` for a Python integer -/
  mulInt : {ι : Type} → A ι → ℤ → A ι
  /-- `x * c` for a public floating-point tensor or number (a number is the constant tensor) -/
  mulPub : {ι : Type} → A ι → (ι → ℚ) → M (A ι)
  /-- `x.div(z)` for a Python integer -/
  divInt : {ι : Type} → A ι → ℤ → M (A ι)
  /-- `x._ltz()` -/
  ltz : {ι : Type} → A ι → M (A ι)
  /-- `x.new(torch.full(...))`: a fresh encryption of a constant tensor -/
  const : (ι : Type) → ℚ → M (A ι)
  /-- indexing, broadcasting, transposition -/
  reindex : {ι κ : Type} → (κ → ι) → A ι → A κ
  /-- `cat` of two tensors along the first dimension -/
  cat : {ι : Type} → {a b : ℕ} → A (Fin a × ι) → A (Fin b × ι) → A (Fin (a + b) × ι)
  /-- `stack` of a list -/
  stack : {ι : Type} → (m : ℕ) → (Fin m → A ι) → A (Fin m × ι)
  /-- `x.sum(0)` -/
  sum : {ι : Type} → {m : ℕ} → A (Fin m × ι) → A ι
  /-- `x.max(0)[0]` -/
  max : {ι : Type} → {m : ℕ} → A (Fin m × ι) → M (A ι)
  /-- the rows multiplied by public coefficients and summed, with one rescaling (`matmul` with a vector) -/
  dotPub : {ι : Type} → {m : ℕ} → A (Fin m × ι) → (Fin m → ℚ) → M (A ι)

/-- `f` applied `k` times. -/
def iterM {M : Type → Type u} [Monad M] {α : Type} (f : α → M α) : ℕ → α → M α
  | 0, a => pure a
  | k + 1, a => f a >>= iterM f k

/-- Values of `cfg.functions.reciprocal_method`. -/
inductive RecipMethod where
  | nr
  | log

/-- Values of `cfg.functions.sigmoid_tanh_method`. -/
inductive SigmoidMethod where
  | reciprocal
  | chebyshev

/-- `cfg.functions` (/repo/configs/default.yaml:8-38); `reciprocal_initial` is a Python number or `None`, `sqrt_nr_initial` is `None`. -/
structure FunCfg where
  expIterations : ℕ := 8
  recipMethod : RecipMethod := .nr
  recipNrIters : ℕ := 10
  recipLogIters : ℕ := 1
  recipAllPos : Bool := false
  recipInitial : Option ℚ := none
  sqrtNrIters : ℕ := 3
  sigmoidMethod : SigmoidMethod := .reciprocal
  sigmoidTerms : ℕ := 32
  logIterations : ℕ := 2
  logExpIterations : ℕ := 8
  logOrder : ℕ := 8
  trigIterations : ℕ := 10
  erfIterations : ℕ := 8

namespace Ops
variable {M : Type → Type u} [Monad M] {A : Type → Type} (O : Ops M A) {ι : Type}

/-- `c - x` (`__rsub__`, /repo/crypten/cryptensor.py: `-self + tensor`). -/
def rsubNum (c : ℚ) (x : A ι) : A ι := O.addNum (O.neg x) c

/-- `x * c` for a Python float (converted to a tensor, /repo/crypten/mpc/primitives/arithmetic.py:361-362). -/
def mulNum (x : A ι) (c : ℚ) : M (A ι) := O.mulPub x fun _ => c

/-- `sign` (logic.py:73-75). -/
def sign (x : A ι) : M (A ι) := do
  let l ← O.ltz x
  pure (O.rsubNum 1 (O.mulInt l 2))

/-- `abs` (logic.py:78-80). -/
def abs (x : A ι) : M (A ι) := do
  let s ← O.sign x
  O.mul x s

/-- `relu` (logic.py:83-85), `ge(0)` is `1 - (self - 0)._ltz()`. -/
def relu (x : A ι) : M (A ι) := do
  let l ← O.ltz (O.subNum x 0)
  O.mul x (O.rsubNum 1 l)

/-- `hardtanh` (logic.py:88-109). -/
def hardtanh (lo hi : ℚ) (x : A ι) : M (A ι) := do
  let st := O.stack 2 fun j => if j = 0 then O.subNum x lo else O.subNum x hi
  let r ← O.relu st
  let d ← O.sub (O.reindex (fun i => (0, i)) r) (O.reindex (fun i => (1, i)) r)
  pure (O.addNum d lo)

/-- `where` with an encrypted condition and alternative (logic.py:112-130). -/
def whereEnc (x c y : A ι) : M (A ι) := do
  let ym ← O.mul (O.rsubNum 1 c) y
  let xm ← O.mul x c
  O.add xm ym

/-- `pow` for a positive exponent (power.py:37-45); exponent 0 is not used. -/
def powPos (x : A ι) (p : ℕ) : M (A ι) :=
  if h1 : p ≤ 1 then pure x
  else if p = 2 then O.square x
  else if p % 2 = 0 then do
    let y ← O.square x
    powPos y (p / 2)
  else do
    let s ← O.square x
    let y ← O.mul s x
    powPos y ((p - 1) / 2)
termination_by p
decreasing_by all_goals omega

/-- The loop of `polynomial` (power.py:84-89): `terms` holds the powers 1 to `m + 1`. The first argument bounds the number of iterations. -/
def polyGrow (len : ℕ) : ℕ → (m : ℕ) → A (Fin (m + 1) × ι) → M (Σ m, A (Fin (m + 1) × ι))
  | 0, m, t => pure ⟨m, t⟩
  | fuel + 1, m, t =>
    if m + 1 < len then do
      let highest := O.reindex (fun ji : Fin (m + 1) × ι => (Fin.last m, ji.2)) t
      let new ← O.mul t highest
      polyGrow len fuel (m + 1 + m) (O.cat (a := m + 1) (b := m + 1) t new)
    else pure ⟨m, t⟩

/-- The powers 1 to `len` (power.py:83-92). -/
def polyTerms (x : A ι) (len : ℕ) : M (A (Fin len × ι)) := do
  let sq ← O.square x
  let t := O.stack 2 fun j => if j = 0 then x else sq
  let ⟨m, t⟩ ← O.polyGrow len len 1 t
  pure (O.reindex (fun ji : Fin len × ι => (⟨min ji.1 m, by omega⟩, ji.2)) t)

/-- `polynomial` with a list of coefficients (power.py:63-97). -/
def polynomial (x : A ι) (coeffs : List ℚ) : M (A ι) :=
  if coeffs.length = 1 then O.mulNum x (coeffs.getD 0 0)
  else do
    let t ← O.polyTerms x coeffs.length
    let y ← O.mulPub t fun ji => coeffs.getD ji.1 0
    pure (O.sum y)

/-- `polynomial` with a 1-D encrypted tensor of coefficients. -/
def polynomialEnc {len : ℕ} (x : A ι) (coeffs : A (Fin len)) : M (A ι) :=
  if h : len = 1 then O.mul x (O.reindex (fun _ => ⟨0, by omega⟩) coeffs)
  else do
    let t ← O.polyTerms x len
    let y ← O.mul t (O.reindex Prod.fst coeffs)
    pure (O.sum y)

/-- `exp` (approximations.py:34-52). -/
def exp (iters : ℕ) (x : A ι) : M (A ι) := do
  let y ← O.divInt x (2 ^ iters)
  iterM O.square iters (O.addNum y 1)

/-- One Householder iteration of `log` (approximations.py:102-103). -/
def logStep (expIters order : ℕ) (x y : A ι) : M (A ι) := do
  let e ← O.exp expIters (O.neg y)
  let xe ← O.mul x e
  let h := O.rsubNum 1 xe
  let d ← O.polynomial h ((List.range order).map fun i : ℕ => 1 / ((i : ℚ) + 1))
  O.sub y d

/-- The initial value of `log` (approximations.py:95-97). -/
def logInit (c : FunCfg) (x : A ι) : M (A ι) := do
  let term1 ← O.divInt x 120
  let e ← O.exp c.expIterations (O.neg (O.addNum (O.mulInt x 2) 1))
  let term2 := O.mulInt e 20
  let d ← O.sub term1 term2
  pure (O.addNum d 3)

/-- `log` (approximations.py:55-104). -/
def log (c : FunCfg) (x : A ι) : M (A ι) := do
  let y ← O.logInit c x
  iterM (O.logStep c.logExpIterations c.logOrder x) c.logIterations y

/-- `log(input_in_01=True)` (approximations.py:86-87). -/
def logIn01 (c : FunCfg) (x : A ι) : M (A ι) := do
  let y ← O.log c (O.mulInt x 100)
  pure (O.subNum y 4.605170)

/-- One Newton iteration of the reciprocal on an encrypted iterate (approximations.py:165-166): `result += result - result.square().mul_(self)`. -/
def recipStep (x r : A ι) : M (A ι) := do
  let sq ← O.square r
  let t ← O.mul sq x
  let d ← O.sub r t
  O.add r d

/-- Newton iterations starting from a Python number (approximations.py:162-169): the first one is `2 * result - result * result * self`.
With no iterations the code returns the number itself, the model an encryption of it. -/
def recipFromNum (iters : ℕ) (x : A ι) (q : ℚ) : M (A ι) :=
  match iters with
  | 0 => O.const ι q
  | k + 1 => do
    let t ← O.mulNum x (q * q)
    iterM (O.recipStep x) k (O.rsubNum (2 * q) t)

/-- The initial value of the Newton iteration (approximations.py:158-161). -/
def recipInit (c : FunCfg) (x : A ι) : M (A ι) := do
  let e ← O.exp c.expIterations (O.rsubNum 1 (O.mulInt x 2))
  pure (O.addNum (O.mulInt e 3) 0.003)

/-- `reciprocal` of positive numbers (approximations.py:156-173). `reciprocal_log_iters` is assigned to a key that nothing reads. -/
def recipPos (c : FunCfg) (x : A ι) : M (A ι) :=
  match c.recipMethod with
  | .nr =>
    match c.recipInitial with
    | none => do
      let r ← O.recipInit c x
      iterM (O.recipStep x) c.recipNrIters r
    | some q => O.recipFromNum c.recipNrIters x q
  | .log => do
    let l ← O.log c x
    O.exp c.expIterations (O.neg l)

/-- `reciprocal` (approximations.py:107-175). -/
def reciprocal (c : FunCfg) (x : A ι) : M (A ι) :=
  if c.recipAllPos then O.recipPos c x
  else do
    let s ← O.sign x
    let pos ← O.mul s x
    let r ← O.recipPos c pos
    O.mul s r

/-- `reciprocal(input_in_01=True)` (approximations.py:140-143). -/
def reciprocalIn01 (c : FunCfg) (x : A ι) : M (A ι) := do
  let r ← O.recipPos c (O.mulInt x 64)
  pure (O.mulInt r 64)

/-- `pow` (power.py:16-45); `none` is the `TypeError` for a non-integral exponent. -/
def pow (c : FunCfg) (x : A ι) (p : ℚ) : Option (M (A ι)) :=
  if p.den ≠ 1 then none
  else if p.num < -1 then some do
    let r ← O.reciprocal c x
    O.powPos r (-p.num).toNat
  else if p.num = -1 then some (O.reciprocal c x)
  else if p.num = 0 then some (O.const ι 1)
  else some (O.powPos x p.num.toNat)

/-- `pos_pow` with a number (power.py:48-60). -/
def posPow (c : FunCfg) (x : A ι) (p : ℚ) : M (A ι) :=
  match O.pow c x p with
  | some r => r
  | none => do
    let l ← O.log c x
    let y ← O.mulNum l p
    O.exp c.expIterations y

/-- One Newton iteration of the inverse square root (approximations.py:202-203). -/
def invSqrtStep (x y : A ι) : M (A ι) := do
  let sq ← O.square y
  let t ← O.mul x sq
  let z ← O.mul y (O.rsubNum 3 t)
  O.divInt z 2

/-- The initial value of the inverse square root (approximations.py:194-197). -/
def invSqrtInit (c : FunCfg) (x : A ι) : M (A ι) := do
  let h ← O.divInt x 2
  let e ← O.exp c.expIterations (O.neg (O.addNum h 0.2))
  let y ← O.mulNum e 2.2
  let d ← O.divInt x 1024
  O.sub (O.addNum y 0.2) d

/-- `inv_sqrt` (approximations.py:178-204). -/
def invSqrt (c : FunCfg) (x : A ι) : M (A ι) := do
  let y ← O.invSqrtInit c x
  iterM (O.invSqrtStep x) c.sqrtNrIters y

/-- `sqrt` (approximations.py:207-221). -/
def sqrt (c : FunCfg) (x : A ι) : M (A ι) := do
  let y ← O.invSqrt c x
  O.mul y x

/-- One squaring of `_eix` (approximations.py:238-243). -/
def eixStep (z : A ι × A ι) : M (A ι × A ι) := do
  let a2 ← O.square z.1
  let b2 ← O.square z.2
  let ab ← O.mul z.2 z.1
  let re ← O.sub a2 b2
  pure (re, O.mulInt ab 2)

/-- `_eix` (approximations.py:224-245): real and imaginary part. -/
def eix (iters : ℕ) (x : A ι) : M (A ι × A ι) := do
  let im ← O.divInt x (2 ^ iters)
  let sq ← O.square im
  iterM O.eixStep (iters - 1) (O.rsubNum 1 sq, O.mulInt im 2)

/-- `_chebyshev_polynomials` (approximations.py:365-392): `k` more polynomials after the two last ones. -/
def chebyshevLoop (y : A ι) : ℕ → A ι → A ι → M (List (A ι))
  | 0, _, _ => pure []
  | k + 1, p2, p1 => do
    let t ← O.mul y p1
    let p0 ← O.sub t p2
    let rest ← chebyshevLoop y k p1 p0
    pure (p0 :: rest)

/-- `_chebyshev_polynomials`; `terms` even and at least 6 (otherwise the code raises). -/
def chebyshev (terms : ℕ) (x : A ι) : M (List (A ι)) := do
  let sq ← O.square x
  let y := O.subNum (O.mulInt sq 4) 2
  let z := O.subNum y 1
  let p1 ← O.mul z x
  let rest ← O.chebyshevLoop y (terms / 2 - 2) x p1
  pure (x :: p1 :: rest)

/-- `tanh` by Chebyshev polynomials (approximations.py:350-360), given the series coefficients of odd index. -/
def tanhChebyshev (c : FunCfg) (coeffs : ℕ → ℚ) (x : A ι) : M (A ι) := do
  let l ← O.chebyshev c.sigmoidTerms x
  let st := O.stack l.length l.get
  let out ← O.dotPub st fun j => coeffs j
  O.hardtanh (-1) 1 out

/-- `sigmoid` with the "reciprocal" method (approximations.py:300-321). -/
def sigmoidReciprocal (c : FunCfg) (x : A ι) : M (A ι) := do
  let ltz ← O.ltz x
  let sign := O.rsubNum 1 (O.mulInt ltz 2)
  let pos ← O.mul x sign
  let e ← O.exp c.expIterations (O.neg pos)
  let denominator := O.addNum e 1
  let out ← O.reciprocal { c with expIterations := 9, recipNrIters := 3, recipAllPos := true, recipInitial := some 0.75 } denominator
  O.whereEnc out (O.rsubNum 1 ltz) (O.rsubNum 1 out)

/-- `sigmoid` (approximations.py:276-323). -/
def sigmoid (c : FunCfg) (coeffs : ℕ → ℚ) (x : A ι) : M (A ι) :=
  match c.sigmoidMethod with
  | .chebyshev => do
    let h ← O.divInt x 2
    let t ← O.tanhChebyshev c coeffs h
    let r ← O.divInt t 2
    pure (O.addNum r 0.5)
  | .reciprocal => O.sigmoidReciprocal c x

/-- `tanh` (approximations.py:326-362). -/
def tanh (c : FunCfg) (coeffs : ℕ → ℚ) (x : A ι) : M (A ι) :=
  match c.sigmoidMethod with
  | .chebyshev => O.tanhChebyshev c coeffs x
  | .reciprocal => do
    let s ← O.sigmoidReciprocal c (O.mulInt x 2)
    pure (O.subNum (O.mulInt s 2) 1)

/-- The loop of `erf` (approximations.py:402-404), from `n` on for `k` more terms. -/
def erfLoop (x : A ι) : ℕ → ℕ → A ι → M (A ι)
  | 0, _, out => pure out
  | k + 1, n, out => do
    let y ← O.powPos x (2 * n + 1)
    let t ← O.mulNum y ((-1) ^ n / ((n.factorial : ℚ) * (2 * n + 1)))
    let out ← O.add out t
    erfLoop x k (n + 1) out

/-- `erf` (approximations.py:395-405); `s` is the number `2.0 / math.sqrt(math.pi)`. -/
def erf (c : FunCfg) (s : ℚ) (x : A ι) : M (A ι) := do
  let out ← O.erfLoop x c.erfIterations 1 x
  O.mulNum out s

/-- `softmax` along a dimension of size `m` (approximations.py:409-424). -/
def softmax (c : FunCfg) {m : ℕ} (x : A (Fin m × ι)) : M (A (Fin m × ι)) :=
  if m = 1 then O.const _ 1
  else do
    let mx ← O.max x
    let logits ← O.sub x (O.reindex Prod.snd mx)
    let num ← O.exp c.expIterations logits
    let inv ← O.reciprocal { c with recipAllPos := true } (O.sum num)
    O.mul num (O.reindex Prod.snd inv)

/-- `log_softmax` (approximations.py:427-445). -/
def logSoftmax (c : FunCfg) {m : ℕ} (x : A (Fin m × ι)) : M (A (Fin m × ι)) :=
  if m = 1 then O.const _ 0
  else do
    let mx ← O.max x
    let logits ← O.sub x (O.reindex Prod.snd mx)
    let e ← O.exp c.expIterations logits
    let l ← O.log c (O.sum e)
    O.sub logits (O.reindex Prod.snd l)

/-- `mean(dim)` over a dimension of size `m` (regular.py:151-161). -/
def mean {m : ℕ} (x : A (Fin m × ι)) : M (A ι) := O.divInt (O.sum x) m

/-- `var(dim, unbiased)` over a dimension of size `m` (regular.py:164-199). -/
def var {m : ℕ} (unbiased : Bool) (x : A (Fin m × ι)) : M (A ι) := do
  let mu ← O.mean x
  let d ← O.sub x (O.reindex Prod.snd mu)
  let sq ← O.square d
  let result := O.sum sq
  let divisor : ℤ := if unbiased then m else m - 1
  if divisor = 0 ∨ divisor = 1 then pure result
  else O.divInt result divisor

/-- `norm(p=1, dim)` and `norm(p=2, dim)` (power.py:107-114). -/
def norm1 {m : ℕ} (x : A (Fin m × ι)) : M (A ι) := do
  let a ← O.abs x
  pure (O.sum a)

/-- see `norm1` -/
def norm2 (c : FunCfg) {m : ℕ} (x : A (Fin m × ι)) : M (A ι) := do
  let s ← O.square x
  O.sqrt c (O.sum s)

/-- `norm(p=inf, dim)` (power.py:115-118). -/
def normInf {m : ℕ} (x : A (Fin m × ι)) : M (A ι) := do
  let a ← O.abs x
  O.max a

end Ops

/-- Encrypted tensors with `n` parties; `p` is `cfg.encoder.precision_bits`. -/
def mpcOps (n : ℕ) [NeZero n] (p : ℕ) (method : MaxMethod) : Ops (Proto n) (AST n) where
  add x y := x.add y
  sub x y := x.sub y
  mul x y := AST.mul (elementwise _) x y
  square x := x.square
  neg x := x.neg
  addNum x c := x.addPub fun _ => c
  subNum x c := x.subPub fun _ => c
  mulInt x z := x.mulInt z
  mulPub x c := AST.mulPub (elementwise _) x c
  divInt x z := x.divInt fun _ => z
  ltz x := x.ltz (2 ^ p)
  const ι c := do
    let s ← Proto.encryptA 0 (encodePublic (2 ^ p) fun _ : ι => c)
    pure ⟨s, 2 ^ p⟩
  reindex g x := x.reindex g
  cat {_ a b} x y := ⟨fun q k => Fin.addCases (motive := fun _ => I64) (fun j : Fin a => x.share q (j, k.2)) (fun j : Fin b => y.share q (j, k.2)) k.1, x.scale⟩
  stack m x := ⟨fun q k => (x k.1).share q k.2, if h : 0 < m then (x ⟨0, h⟩).scale else 2 ^ p⟩
  sum x := x.sumFirst
  max x := x.maxFirst p method
  dotPub {_ m} x c := AST.mulPub (fun i => List.ofFn fun j : Fin m => ((j, i), j)) x c

/-- Tensors of numbers, computed with exactly. -/
def exactOps (K : Type) [Field K] [LinearOrder K] : Ops Id (fun ι => ι → K) where
  add x y := fun i => x i + y i
  sub x y := fun i => x i - y i
  mul x y := fun i => x i * y i
  square x := fun i => x i * x i
  neg x := fun i => -x i
  addNum x c := fun i => x i + c
  subNum x c := fun i => x i - c
  mulInt x z := fun i => x i * z
  mulPub x c := fun i => x i * c i
  divInt x z := fun i => x i / z
  ltz x := fun i => if x i < 0 then 1 else 0
  const _ c := fun _ => (c : K)
  reindex g x := fun k => x (g k)
  cat {_ a b} x y := fun k => Fin.addCases (motive := fun _ => K) (fun j : Fin a => x (j, k.2)) (fun j : Fin b => y (j, k.2)) k.1
  stack m x := fun k => x k.1 k.2
  sum x := fun i => ∑ j, x (j, i)
  max x := fun i => if h : (Finset.univ : Finset (Fin _)).Nonempty then Finset.univ.sup' h fun j => x (j, i) else 0
  dotPub x c := fun i => ∑ j, x (j, i) * c j

end CrypTen

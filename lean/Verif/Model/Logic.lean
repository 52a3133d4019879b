import Verif.Model.ArithFunc

/-!
# Comparisons and what is built on them

Models `MPCTensor._ltz`, `eq`, `ne`, `_eqz_2PC` (/repo/crypten/mpc/mpc.py:233-274) and /repo/crypten/common/functions/logic.py.
`D` is the scale of `FixedPointEncoder(precision_bits=None)`, i.e. `2 ** cfg.encoder.precision_bits`.
-/

namespace CrypTen
variable {n : ℕ} {ι : Type}

/-- `_ltz` (mpc.py:233-242): the sign bit, converted to an arithmetic sharing; the scale label of the result is overwritten by 1. -/
def AST.ltz [NeZero n] (D : ℕ) (x : AST n ι) : Proto n (AST n ι) := do
  let newScale := if x.scale = 1 then 1 else D
  let b ← a2b x.share
  let b := rshiftShares b 63
  let a ← b2a 1 newScale x.scale b
  pure ⟨a, 1⟩

/-- `_eqz_2PC` (mpc.py:260-274): party 0 encrypts its share, party 1 the negative of its own; equality of the two is tested on XOR shares.
Only called with two parties. -/
def AST.eqz2PC (D : ℕ) (x : AST 2 ι) : Proto 2 (AST 2 ι) := do
  let x0 ← Proto.encryptX 0 (x.share 0)
  let x1 ← Proto.encryptX 1 (-x.share 1)
  let e ← eqX x0 x1
  let a ← b2a 1 D x.scale e
  pure ⟨a, 1⟩

/-- Second operand of a comparison or of `where`. -/
inductive Operand (n : ℕ) (ι : Type) where
  | enc (y : AST n ι)
  | pub (y : ι → ℚ)

/-- `self - y`. -/
def AST.subOp [NeZero n] (x : AST n ι) : Operand n ι → Proto n (AST n ι)
  | .enc y => x.sub y
  | .pub y => pure (x.subPub y)

/-- `self + y`. -/
def AST.addOp [NeZero n] (x : AST n ι) : Operand n ι → Proto n (AST n ι)
  | .enc y => x.add y
  | .pub y => pure (x.addPub y)

/-- `1 - x`. -/
def AST.oneMinus [NeZero n] (x : AST n ι) : AST n ι := AST.rsubPub (fun _ => 1) x

/-- logic.py:48-50 -/
def AST.lt [NeZero n] (D : ℕ) (x : AST n ι) (y : Operand n ι) : Proto n (AST n ι) := do
  let d ← x.subOp y
  d.ltz D

/-- logic.py:38-40 -/
def AST.gt [NeZero n] (D : ℕ) (x : AST n ι) (y : Operand n ι) : Proto n (AST n ι) := do
  let d ← x.neg.addOp y
  d.ltz D

/-- logic.py:33-35 -/
def AST.ge [NeZero n] (D : ℕ) (x : AST n ι) (y : Operand n ι) : Proto n (AST n ι) := do
  let r ← x.lt D y
  pure r.oneMinus

/-- logic.py:43-45 -/
def AST.le [NeZero n] (D : ℕ) (x : AST n ι) (y : Operand n ι) : Proto n (AST n ι) := do
  let r ← x.gt D y
  pure r.oneMinus

/-- `ne` with a number of parties other than two (mpc.py:256-258); the same as logic.py:58-62. -/
def AST.neGen [NeZero n] (D : ℕ) (x : AST n ι) (y : Operand n ι) : Proto n (AST n ι) := do
  let d ← x.subOp y
  let r ← (d.pair d.neg).ltz D
  pure r.sumFirst

/-- `eq` with a number of parties other than two (mpc.py:249). -/
def AST.eqGen [NeZero n] (D : ℕ) (x : AST n ι) (y : Operand n ι) : Proto n (AST n ι) := do
  let r ← x.neGen D y
  pure r.oneMinus

/-- `eq` with two parties (mpc.py:246-247). -/
def AST.eq2 (D : ℕ) (x : AST 2 ι) (y : Operand 2 ι) : Proto 2 (AST 2 ι) := do
  let d ← x.subOp y
  d.eqz2PC D

/-- `ne` with two parties (mpc.py:253-254). -/
def AST.ne2 (D : ℕ) (x : AST 2 ι) (y : Operand 2 ι) : Proto 2 (AST 2 ι) := do
  let r ← x.eq2 D y
  pure r.oneMinus

/-- `eq` (mpc.py:244-249). -/
def AST.eq [NeZero n] (D : ℕ) (x : AST n ι) (y : Operand n ι) : Proto n (AST n ι) :=
  if h : n = 2 then by subst h; exact x.eq2 D y else x.eqGen D y

/-- `ne` (mpc.py:251-258). -/
def AST.ne [NeZero n] (D : ℕ) (x : AST n ι) (y : Operand n ι) : Proto n (AST n ι) :=
  if h : n = 2 then by subst h; exact x.ne2 D y else x.neGen D y

/-- `sign` (logic.py:73-75) -/
def AST.sign [NeZero n] (D : ℕ) (x : AST n ι) : Proto n (AST n ι) := do
  let r ← x.ltz D
  pure (r.mulInt 2).oneMinus

/-- `abs` (logic.py:78-80) -/
def AST.abs [NeZero n] (D : ℕ) (x : AST n ι) : Proto n (AST n ι) := do
  let s ← x.sign D
  AST.mul (elementwise ι) x s

/-- `relu` (logic.py:83-85) -/
def AST.relu [NeZero n] (D : ℕ) (x : AST n ι) : Proto n (AST n ι) := do
  let g ← x.ge D (.pub fun _ => 0)
  AST.mul (elementwise ι) x g

/-- `hardtanh` (logic.py:88-109) -/
def AST.hardtanh [NeZero n] (D : ℕ) (lo hi : ℚ) (x : AST n ι) : Proto n (AST n ι) := do
  let st := (x.subPub fun _ => lo).pair (x.subPub fun _ => hi)
  let r ← st.relu D
  let d ← (r.reindex fun i => (false, i)).sub (r.reindex fun i => (true, i))
  pure (d.addPub fun _ => lo)

/-- `where` with an encrypted condition and an encrypted alternative (logic.py:112-130; arithmetic.py:605-623 is the same). -/
def AST.whereEnc [NeZero n] (x c y : AST n ι) : Proto n (AST n ι) := do
  let ym ← AST.mul (elementwise ι) c.oneMinus y
  let xm ← AST.mul (elementwise ι) x c
  xm.add ym

/-- `where` with an encrypted condition and a public alternative. -/
def AST.whereEncPub [NeZero n] (x c : AST n ι) (y : ι → ℚ) : Proto n (AST n ι) := do
  let ym ← AST.mulPub (elementwise ι) c.oneMinus y
  let xm ← AST.mul (elementwise ι) x c
  xm.add ym

/-- `where` with a public condition and an encrypted alternative. -/
def AST.wherePub [NeZero n] (x : AST n ι) (c : ι → Bool) (y : AST n ι) : Proto n (AST n ι) := do
  let ym ← AST.mulPub (elementwise ι) y fun i => if c i then 0 else 1
  let xm ← AST.mulPub (elementwise ι) x fun i => if c i then 1 else 0
  xm.add ym

/-- `where` with a public condition and a public alternative: `y * (1 - condition)` is a plain tensor. -/
def AST.wherePubPub [NeZero n] (x : AST n ι) (c : ι → Bool) (y : ι → ℚ) : Proto n (AST n ι) := do
  let xm ← AST.mulPub (elementwise ι) x fun i => if c i then 1 else 0
  pure (xm.addPub fun i => y i * if c i then 0 else 1)

end CrypTen

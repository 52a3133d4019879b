import Verif.Model.Beaver

/-!
# Division by public integers: local truncation, wrap counting, wrap-corrected truncation, replicated truncation

Models /repo/crypten/common/util.py:15-28, /repo/crypten/mpc/primitives/beaver.py:129-168,
/repo/crypten/mpc/primitives/arithmetic.py:447-482 and /repo/crypten/mpc/primitives/replicated.py.
Divisors are integers given per entry (a Python integer is the constant function); they must be positive.
-/

namespace CrypTen
variable {n : ℕ} {ι ι' κ : Type}

/-- The loop of `count_wraps` (/repo/crypten/common/util.py:23-27) on one entry: `prev` and `result` are the loop variables. -/
def countWrapsLoop : (prev result : I64) → List I64 → I64
  | _, result, [] => result
  | prev, result, cur :: rest =>
    let next := cur + prev
    let result := result - boolI64 (prev.toInt < 0 && cur.toInt < 0 && next.toInt > 0)
    let result := result + boolI64 (prev.toInt > 0 && cur.toInt > 0 && next.toInt < 0)
    countWrapsLoop next result rest

/-- `count_wraps` (/repo/crypten/common/util.py:15-28) on one entry; the empty list raises in Python (`share_list[0]`), here 0. -/
def countWraps : List I64 → I64
  | [] => 0#64
  | first :: rest => countWrapsLoop first 0#64 rest

/-- Shares `r` and a sharing of the number of wraps of `r` (`wrap_rng`). -/
structure WrapPair (n : ℕ) (ι : Type) where
  r : Shares n ι
  theta : Shares n ι

/-- `theta` shares `count_wraps` of the list of the parties' shares of `r`. -/
def WrapPair.Valid (t : WrapPair n ι) : Prop := ∀ i, reveal t.theta i = countWraps (List.ofFn fun p => t.r p i)

/-- `wraps` (/repo/crypten/mpc/primitives/beaver.py:129-156): rank 0 gathers the masked shares and adds their wrap count. -/
def wrapsProtocol [NeZero n] (t : WrapPair n ι) (x : Shares n ι) : Shares n ι :=
  let beta : Shares n ι := fun p i => countWraps [x p i, t.r p i]
  let z := addShares x t.r
  let thetaX := subShares beta t.theta
  fun p i => if p = 0 then thetaX p i + countWraps (List.ofFn fun q => z q i) else thetaX p i

/-- Every party divides its own share (/repo/crypten/mpc/primitives/arithmetic.py:466). -/
def truncLocal (x : Shares n ι) (y : ι → ℤ) : Shares n ι := fun p i => tdivI64 (x p i) (BitVec.ofInt 64 (y i))

/-- `truncate` of the Beaver protocol (/repo/crypten/mpc/primitives/beaver.py:159-168); `//` is floor division. -/
def truncateBeaver [NeZero n] (t : WrapPair n ι) (x : Shares n ι) (y : ι → ℤ) : Shares n ι :=
  let wrapCount := wrapsProtocol t x
  let q := truncLocal x y
  let correction := mulInt (mulInt wrapCount (fun _ => 4)) (fun i => BitVec.ofInt 64 ((2 ^ 62 : ℤ).fdiv (y i)))
  subShares q correction

/-- `div_` by positive integers (/repo/crypten/mpc/primitives/arithmetic.py:446-475) under the Beaver protocol. -/
def divInt [NeZero n] (t : WrapPair n ι) (x : Shares n ι) (y : ι → ℤ) : Shares n ι :=
  if n > 2 then truncateBeaver t x y else truncLocal x y

/-! ## Replicated sharing -/

/-- `prev_rank = (rank - 1) % world_size` (/repo/crypten/mpc/primitives/replicated.py:20). -/
def repPrev [NeZero n] (p : Fin n) : Fin n := ⟨(p.val + n - 1) % n, Nat.mod_lt _ (NeZero.pos n)⟩

/-- `replicate_shares` (/repo/crypten/mpc/primitives/replicated.py:15-39): own share and the predecessor's; `none` is the `ValueError`
for fewer than three parties. -/
def replicateShares [NeZero n] (x : Shares n ι) : Option (Fin n → Tensor ι × Tensor ι) :=
  if n < 3 then none else some fun p => (x p, x (repPrev p))

/-- `__replicated_secret_sharing_protocol` (/repo/crypten/mpc/primitives/replicated.py:42-67). -/
def replicatedProduct [NeZero n] (T : BilinearOp ι ι' κ) (x : Shares n ι) (y : Shares n ι') : Option (Shares n κ) := do
  let xs ← replicateShares x
  let ys ← replicateShares y
  some fun p => T.apply (xs p).1 (ys p).1 + T.apply (xs p).1 (ys p).2 + T.apply (xs p).2 (ys p).1

/-- `square` (/repo/crypten/mpc/primitives/replicated.py:94-102): `x1**2 + 2 * x1 * x2`. -/
def replicatedSquare [NeZero n] (x : Shares n ι) : Option (Shares n ι) := do
  let xs ← replicateShares x
  some fun p i => (xs p).1 i * (xs p).1 i + 2 * (xs p).1 i * (xs p).2 i

/-- `AND` (/repo/crypten/mpc/primitives/replicated.py:135-151). -/
def replicatedAnd [NeZero n] (x y : Shares n ι) : Option (Shares n ι) := do
  let xs ← replicateShares x
  let ys ← replicateShares y
  some fun p i => ((xs p).1 i &&& (ys p).1 i) ^^^ ((xs p).2 i &&& (ys p).1 i) ^^^ ((xs p).1 i &&& (ys p).2 i)

/-- `truncate` (/repo/crypten/mpc/primitives/replicated.py:105-132); `z` is the zero-share added at the end, `none` is the
`NotImplementedError`. -/
def replicatedTruncate [NeZero n] (z : Shares n ι) (x : Shares n ι) (y : ι → ℤ) : Option (Shares n ι) :=
  if h : n = 3 then
    some fun p i =>
      (if p.val = 0 then tdivI64 (x p i) (BitVec.ofInt 64 (y i))
       else if p.val = 1 then tdivI64 (x p i + x ⟨2, by omega⟩ i) (BitVec.ofInt 64 (y i))
       else x p i - x p i) + z p i
  else none

end CrypTen

import Verif.Model.Truncate

/-!
# Which shares make a division come out right

Properties of the shares and of the random masks, used as hypotheses of the truncation theorems; the theorems `C14_bad_first_shares` and
`C15_bad_masks` count how many shares violate them.
-/

namespace CrypTen
variable {n : ℕ} {ι : Type}

/-- Number of steps of the loop at which the running sum and the next word are both `-2^63`. -/
def minCollisionsFrom : I64 → List I64 → ℕ
  | _, [] => 0
  | prev, cur :: rest =>
    (if prev.toInt = -2 ^ 63 ∧ cur.toInt = -2 ^ 63 then 1 else 0) + minCollisionsFrom (cur + prev) rest

/-- Number of prefixes whose (wrapped) sum is `-2^63` and that are followed by `-2^63`. -/
def minCollisions : List I64 → ℕ
  | [] => 0
  | first :: rest => minCollisionsFrom first rest

/-- No use of `count_wraps` in the truncation of entry `i` meets two `-2^63` in a row. -/
def NoMinCollision (t : WrapPair n ι) (x : Shares n ι) (i : ι) : Prop :=
  (∀ p, minCollisions [x p i, t.r p i] = 0) ∧ minCollisions (List.ofFn fun p => t.r p i) = 0 ∧
    minCollisions (List.ofFn fun p => x p i + t.r p i) = 0

/-- No wrap-around spoils the division of entry `i`: with at most two parties the shares add up to the secret over the integers; with more,
secret plus mask does not wrap and `count_wraps` is exact. -/
def DivGood (t : WrapPair n ι) (x : Shares n ι) (i : ι) : Prop :=
  if n > 2 then NoMinCollision t x i ∧ (reveal x i).toInt + (reveal t.r i).toInt = (reveal x i + reveal t.r i).toInt
  else ∑ p, (x p i).toInt = (reveal x i).toInt

end CrypTen

import Verif.Model.CommStats
import Mathlib.Algebra.BigOperators.Fin
import Mathlib.Data.Fintype.BigOperators

/-!
# What communication statistics should say

A communication step of the whole system, the bytes that travel from each party to each other in it, and the call each party makes in it.
-/

namespace CrypTen.Stats

/-- A communication step among `n` parties; a tensor has 8 bytes per element. -/
inductive Step (n : ℕ) where
  | barrier
  | send (src dst : Fin n) (nelement : ℕ)
  | sendObj (src dst : Fin n) (nbytes : ℕ)
  | scatter (src : Fin n) (sizes : Fin n → ℕ)
  | broadcast (src : Fin n) (nelements : List ℕ)
  | collect (dst : Fin n) (nelements : List ℕ)
  | allGather (nelement : ℕ)
  | allReduce (nelements : List ℕ)

/-- The bytes that travel from party `i` to party `j`. `collect` is `gather` and `reduce`. `all_reduce` passes each tensor around a ring once. -/
def traffic {n : ℕ} [NeZero n] : Step n → Fin n → Fin n → ℕ
  | .barrier, _, _ => 0
  | .send src dst m, i, j => if i = src ∧ j = dst then 8 * m else 0
  | .sendObj src dst b, i, j => if i = src ∧ j = dst then b else 0
  | .scatter src sizes, i, j => if i = src ∧ j ≠ src then 8 * sizes j else 0
  | .broadcast src ms, i, j => if i = src ∧ j ≠ src then 8 * ms.sum else 0
  | .collect dst ms, i, j => if j = dst ∧ i ≠ dst then 8 * ms.sum else 0
  | .allGather m, i, j => if i ≠ j then 8 * m else 0
  | .allReduce ms, i, j => if j = i + 1 then 8 * ms.sum else 0

/-- What party `r` sends and receives. -/
def share {n : ℕ} [NeZero n] (c : Step n) (r : Fin n) : ℕ := ∑ j, (traffic c r j + traffic c j r)

/-- The call party `r` makes in the step, with `src` and `dst` given by position and `batched` by keyword. Parties that take no part make none. -/
def callOf {n : ℕ} : Step n → Fin n → Option Call
  | .barrier, _ => some .barrier
  | .send src dst m, r => if r = src ∨ r = dst then some (.pointToPoint m) else none
  | .sendObj src dst b, r => if r = src then some (.sendObj b) else if r = dst then some (.recvObj b) else none
  | .scatter src sizes, r => some (.scatter (.pos src) (List.ofFn sizes) (sizes r))
  | .broadcast src ms, _ => some (.rooted (.pos src) (.batched ms))
  | .collect dst ms, _ => some (.rooted (.pos dst) (.batched ms))
  | .allGather m, _ => some (.allGather m)
  | .allReduce ms, _ => some (.allReduce (.batched ms))

/-- Sender and receiver of a message are different parties. -/
def Step.Proper {n : ℕ} : Step n → Prop
  | .send src dst _ | .sendObj src dst _ => src ≠ dst
  | _ => True

end CrypTen.Stats

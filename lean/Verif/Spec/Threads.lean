import Verif.Model.Threads

/-!
# What collective calls should return

No mailboxes and no schedule: the result of a call is a function of what the ranks passed to that same call.
-/

namespace CrypTen.Threads
variable {α : Type} [AddCommMonoid α]

/-- The result of a call at rank `r`, from what each rank passed to this call. -/
def specResult (n : ℕ) (op : Op) (r : ℕ) (args : ℕ → Arg α) : Res α :=
  match op with
  | .allGather => .list ((List.range n).map fun s => (args s).tensor)
  | .allReduce => .tensor ((List.range n).map fun s => (args s).tensor).sum
  | .gather dst => if r = dst then .list ((List.range n).map fun s => (args s).tensor) else .none
  | .reduce dst => if r = dst then .tensor ((List.range n).map fun s => (args s).tensor).sum else .none
  | .scatter src => .tensor ((args src).scatterList r)
  | .broadcast src => .tensor (args src).tensor
  | .shift => .tensor (args ((r + n - 1) % n)).tensor

/-- The results each rank should have seen after the first `k` calls. -/
def specHistory (n : ℕ) (p : Program α) : ℕ → ℕ → List (Res α)
  | 0, _ => []
  | k + 1, r => specHistory n p k r ++ [specResult n (p.ops.getD k .allGather) r fun s => p.arg s (specHistory n p k s)]

/-- Roots and destinations are ranks. -/
def ValidOp (n : ℕ) : Op → Prop
  | .gather d | .reduce d | .scatter d | .broadcast d => d < n
  | _ => True

end CrypTen.Threads

import Mathlib.Data.Rat.Defs
import Mathlib.Data.Finset.Card
import Mathlib.Data.List.Count

/-!
# What top-k accuracy is

The target of a sample counts when fewer than `k` classes have a larger score. With equal scores this is open: the target surely counts when at most `k` classes have a score at least as large as its own, and possibly counts when fewer
than `k` have a larger one.
-/

namespace CrypTen.Meters

/-- What `torch.topk(k, largest=True, sorted=True)` promises for one row of scores: `k` different positions, in order of falling scores, and no larger score elsewhere. -/
structure IsTopk (row : List ℚ) (k : ℕ) (idx : List ℕ) : Prop where
  length : idx.length = k
  nodup : idx.Nodup
  range : ∀ i ∈ idx, i < row.length
  sorted : idx.Pairwise fun i j => row.getD j 0 ≤ row.getD i 0
  top : ∀ i ∈ idx, ∀ j < row.length, j ∉ idx → row.getD j 0 ≤ row.getD i 0

/-- `topk` is a `torch.topk`: it does this for every row with enough scores. -/
def Topk (topk : ℕ → List ℚ → List ℕ) : Prop := ∀ k row, k ≤ row.length → IsTopk row k (topk k row)

/-- The target `t` is possibly among the `k` best classes: fewer than `k` classes have a larger score. -/
def Possible (k : ℕ) (s : List ℚ × ℕ) : Prop :=
  s.2 < s.1.length ∧ ((Finset.range s.1.length).filter fun j => s.1.getD s.2 0 < s.1.getD j 0).card < k

/-- The target `t` is surely among the `k` best classes: at most `k` classes, itself included, have a score at least as large. -/
def Sure (k : ℕ) (s : List ℚ × ℕ) : Prop :=
  s.2 < s.1.length ∧ ((Finset.range s.1.length).filter fun j => s.1.getD s.2 0 ≤ s.1.getD j 0).card ≤ k

instance (k : ℕ) (s : List ℚ × ℕ) : Decidable (Possible k s) := by unfold Possible; infer_instance
instance (k : ℕ) (s : List ℚ × ℕ) : Decidable (Sure k s) := by unfold Sure; infer_instance

/-- The share of samples that satisfy `p`, in percent. -/
def percent (p : List ℚ × ℕ → Prop) [DecidablePred p] (samples : List (List ℚ × ℕ)) : ℚ :=
  100 * (samples.countP fun s => decide (p s) : ℕ) / (samples.length : ℕ)

/-- No two classes have the same score. -/
def NoTies (s : List ℚ × ℕ) : Prop := s.1.Nodup

/-- All samples, with the output of the model. -/
def allSamples (bs : List (List (List ℚ) × List ℕ)) : List (List ℚ × ℕ) := bs.flatMap fun b => b.1.zip b.2

/-- The data of `validate`: at least one batch, none empty, one target per sample, at least five classes. -/
def GoodBatches (bs : List (List (List ℚ) × List ℕ)) : Prop := bs ≠ [] ∧ ∀ b ∈ bs, b.2.length = b.1.length ∧ b.1 ≠ [] ∧ ∀ row ∈ b.1, 5 ≤ row.length

end CrypTen.Meters

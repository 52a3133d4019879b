import Verif.Model.Adaptive
import Mathlib.Algebra.BigOperators.Group.Finset.Basic
import Mathlib.Order.Interval.Finset.Nat

/-! What adaptive pooling should return (torch's definition): output `i` of `o` along a dimension of size `n` covers the entries from `⌊i n / o⌋` up to but not including `⌈(i + 1) n / o⌉`. -/

namespace CrypTen
namespace Adaptive

/-- First entry of window `i`. -/
def winStart (n o i : ℕ) : ℕ := i * n / o

/-- End of window `i`: the quotient rounded up. -/
def winEnd (n o i : ℕ) : ℕ := ((i + 1) * n + o - 1) / o

/-- The entries of window `i`. -/
def window (n o i : ℕ) : Finset ℕ := Finset.Ico (winStart n o i) (winEnd n o i)

/-- The entry in row `r`, column `c`. -/
def Plane.entry (x : Plane) (r c : ℕ) : ℚ := (x.rows.getD r fun _ => 0) c

/-- `y` is the adaptive average pooling of `x` to `oh` times `ow`. -/
def IsAdaptiveMean (x y : Plane) (oh ow : ℕ) : Prop :=
  y.rows.length = oh ∧ y.width = ow ∧ ∀ i < oh, ∀ j < ow,
    y.entry i j = (∑ r ∈ window x.rows.length oh i, ∑ c ∈ window x.width ow j, x.entry r c) / ((window x.rows.length oh i).card * (window x.width ow j).card)

/-- `y` is the adaptive maximum pooling of `x` to `oh` times `ow`. -/
def IsAdaptiveMax (x y : Plane) (oh ow : ℕ) : Prop :=
  y.rows.length = oh ∧ y.width = ow ∧ ∀ i < oh, ∀ j < ow,
    IsGreatest {q | ∃ r ∈ window x.rows.length oh i, ∃ c ∈ window x.width ow j, q = x.entry r c} (y.entry i j)

/-- The output size asked for: `None` keeps the size of the input, an integer is used for both. -/
def OutSize.target (H W : ℕ) : OutSize → ℕ × ℕ
  | .none => (H, W)
  | .int n => (n, n)
  | .pair h w => (h.getD H, w.getD W)

end Adaptive
end CrypTen

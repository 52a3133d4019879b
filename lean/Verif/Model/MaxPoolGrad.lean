import Verif.Model.Pool
import Mathlib.Algebra.BigOperators.Group.Finset.Basic
import Mathlib.Data.Real.Archimedean

/-!
# The gradient function of max-pooling

Models `AutogradMaxPool2D` (/repo/crypten/gradients.py:1509-1573) and `_max_pool2d_backward` (/repo/crypten/common/functions/pooling.py:56-145). As in `Model/Pool` the dimensions in front of height and width are one index, the plane; their number is an argument of the backward function, which accepts only two (a batch and a channel dimension). Entries are exact numbers.
-/

namespace CrypTen
namespace MaxPool

/-- The value of `max_pool2d` (pooling.py:20-53) in exact arithmetic: the windows as rows of the padded input, and the maximum of each. `padValue` is the value the padding stands for. -/
noncomputable def forward (g : PoolGeo) {P H W : ℕ} (padValue : ℝ) (x : Fin P × Fin H × Fin W → ℝ) : Option (Fin P × Fin (g.h H) × Fin (g.w W) → ℝ) :=
  (poolReshape g padValue x).map fun rows o => ⨆ t, rows (t, o)

/-- The saved `indices` (pooling.py:46-51; gradients.py:1533-1545): the one-hot rows of the maximum, viewed as (…, kernel height, kernel width), when `a` says which element of each row is the maximum. -/
noncomputable def indices (g : PoolGeo) {P h w : ℕ} (a : Fin P × Fin h × Fin w → Fin (g.k0 * g.k1)) (o : Fin P × Fin h × Fin w) (u v : ℕ) : ℝ := if u * g.k1 + v = a o then 1 else 0

/-- A tensor of planes with its height and width (pooling.py:127-145: `result`). -/
structure Planes (P : ℕ) where
  rows : ℕ
  cols : ℕ
  data : Fin P → ℕ → ℕ → ℝ

/-- Number of positions in `start : start + k * d : d` of a dimension of size `size` (pooling.py:133-138). -/
def sliceLen (size start k d : ℕ) : ℕ := (min (start + k * d) size - start + (d - 1)) / d

/-- `result[:, :, left : left + k0 * d0 : d0, top : top + k1 * d1 : d1] += kernels[:, :, i, j]` (pooling.py:128-138): in place, so the block has to have the shape of the slice, up to dimensions of size 1; `none` is the error otherwise. -/
noncomputable def addBlock (g : PoolGeo) {P h w : ℕ} (kernels : Fin P × Fin h × Fin w → ℕ → ℕ → ℝ) (i : Fin h) (j : Fin w) (r : Planes P) : Option (Planes P) :=
  let left := g.s0 * i
  let top := g.s1 * j
  if (sliceLen r.rows left g.k0 g.d0 = g.k0 ∨ g.k0 = 1) ∧ (sliceLen r.cols top g.k1 g.d1 = g.k1 ∨ g.k1 = 1) then
    some { r with data := fun p row col => r.data p row col +
      (if left ≤ row ∧ (row - left) % g.d0 = 0 ∧ (row - left) / g.d0 < g.k0 ∧ top ≤ col ∧ (col - top) % g.d1 = 0 ∧ (col - top) / g.d1 < g.k1 then
        kernels (p, i, j) ((row - left) / g.d0) ((col - top) / g.d1) else 0) }
  else none

/-- `c0` (pooling.py:121): computed from the width, used for the height. -/
def extraRows (g : PoolGeo) (w W : ℕ) : ℤ := if g.ceil then (w : ℤ) * g.s1 + ((g.k1 : ℤ) - 1) * g.d1 - W else 0

/-- `c1` (pooling.py:122): computed from the height, used for the width. -/
def extraCols (g : PoolGeo) (h H : ℕ) : ℤ := if g.ceil then (h : ℤ) * g.s0 + ((g.k0 : ℤ) - 1) * g.d0 - H else 0

/-- `_max_pool2d_backward` (pooling.py:56-145), called with the equal-padding assertion of `AutogradMaxPool2D.backward` (gradients.py:1549-1573). `lead` is the number of dimensions in front of height and width, `H` and `W` the saved input size. A negative size is the error of `torch.zeros`. -/
noncomputable def backward (g : PoolGeo) (lead : ℕ) {P h w : ℕ} (H W : ℕ) (ind : Fin P × Fin h × Fin w → ℕ → ℕ → ℝ) (grad : Fin P × Fin h × Fin w → ℝ) : Option (Planes P) :=
  if g.p0 = g.p1 ∧ lead = 2 then
    let kernels := fun o u v => grad o * ind o u v
    let rh : ℤ := H + 2 * g.p0 + extraRows g w W
    let rc : ℤ := W + 2 * g.p1 + extraCols g h H
    if 0 ≤ rh ∧ 0 ≤ rc then do
      let r ← (List.finRange h).foldlM (fun r i => (List.finRange w).foldlM (fun r j => addBlock g kernels i j r) r) (⟨rh.toNat, rc.toNat, fun _ _ _ => 0⟩ : Planes P)
      let rows := min r.rows (r.rows - extraRows g w W).toNat
      let cols := min r.cols (r.cols - extraCols g h H).toNat
      return ⟨rows - g.p0 - g.p0, cols - g.p1 - g.p1, fun p row col => r.data p (row + g.p0) (col + g.p1)⟩
    else none
  else none

end MaxPool
end CrypTen

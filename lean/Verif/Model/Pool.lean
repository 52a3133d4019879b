import Verif.Model.Maximum

/-!
# Max-pooling

Models `max_pool2d`, `_pool2d_reshape` and `_pooling_output_shape` (/repo/crypten/common/functions/pooling.py:20-53, 321-339, 342-419). All dimensions in front of the last two are one index, the plane
(for two planes dimensions the code adds `n * C + c` times the size of a plane, which is the flat number of the plane).
-/

namespace CrypTen
variable {n : ℕ}

/-- Kernel, stride, dilation, padding (pairs, height first) and `ceil_mode`. -/
structure PoolGeo where
  k0 : ℕ
  k1 : ℕ
  s0 : ℕ
  s1 : ℕ
  d0 : ℕ
  d1 : ℕ
  p0 : ℕ
  p1 : ℕ
  ceil : Bool

/-- `_pooling_output_shape` (pooling.py:321-339). -/
def poolOutShape (size k padl padr s d : ℕ) (ceil : Bool) : ℤ :=
  let numerator : ℤ := (size : ℤ) + padl + padr - d * ((k : ℤ) - 1) - 1
  let numerator := if ceil then numerator + ((s : ℤ) - 1) else numerator
  let out := numerator / s + 1
  if ceil && decide ((out - 1) * s ≥ (size : ℤ) + padl) then out - 1 else out

/-- Output height (pooling.py:386-388): `padding` is `(p0, p0, p1, p1)` here. -/
def PoolGeo.h (g : PoolGeo) (H : ℕ) : ℕ := (poolOutShape H g.k0 g.p0 g.p0 g.s0 g.d0 g.ceil).toNat

/-- Output width (pooling.py:389-391). -/
def PoolGeo.w (g : PoolGeo) (W : ℕ) : ℕ := (poolOutShape W g.k1 g.p1 g.p1 g.s1 g.d1 g.ceil).toNat

/-- Height of the padded input (pooling.py:395-400). `torch.nn.functional.pad` takes the pairs from the last dimension on, so `(p0, p0, p1, p1)` pads the height by `p1`. With `ceil_mode` the second padding
(which may be negative) brings the size to `h * s + (k - 1) * d`. -/
def PoolGeo.padH (g : PoolGeo) (H : ℕ) : ℕ := if g.ceil then g.h H * g.s0 + (g.k0 - 1) * g.d0 else H + 2 * g.p1

/-- Width of the padded input (pooling.py:395-400); padded by `p0`. -/
def PoolGeo.padW (g : PoolGeo) (W : ℕ) : ℕ := if g.ceil then g.w W * g.s1 + (g.k1 - 1) * g.d1 else W + 2 * g.p0

/-- Entry of the padded input (pooling.py:395-400). -/
def padEntry {α : Type} (g : PoolGeo) {P H W : ℕ} (padValue : α) (x : Fin P × Fin H × Fin W → α) (plane row col : ℕ) : α :=
  if h : plane < P ∧ g.p1 ≤ row ∧ row - g.p1 < H ∧ g.p0 ≤ col ∧ col - g.p0 < W then x (⟨plane, h.1⟩, ⟨row - g.p1, h.2.2.1⟩, ⟨col - g.p0, h.2.2.2.2⟩) else padValue

/-- Position in the flat padded input of kernel element `(a, b)` for output `(plane, i, j)` (pooling.py:402-416). -/
def PoolGeo.index (g : PoolGeo) (H W plane i j a b : ℕ) : ℕ := b * g.d1 + a * g.d0 * g.padW W + j * g.s1 + i * g.s0 * g.padW W + plane * (g.padH H * g.padW W)

/-- `input.take(kernel_indices)` raises for a position outside the tensor (pooling.py:418). -/
def PoolGeo.inRange (g : PoolGeo) (P H W : ℕ) : Prop :=
  ∀ plane < P, ∀ i < g.h H, ∀ j < g.w W, ∀ a < g.k0, ∀ b < g.k1, g.index H W plane i j a b < P * (g.padH H * g.padW W)

instance (g : PoolGeo) (P H W : ℕ) : Decidable (g.inRange P H W) := by unfold PoolGeo.inRange; infer_instance

/-- `_pool2d_reshape` (pooling.py:342-419) on the share of one party (entries of any type): the windows as rows; `none` if an index is out of range or there is no window. -/
def poolReshape {α : Type} (g : PoolGeo) {P H W : ℕ} (padValue : α) (x : Fin P × Fin H × Fin W → α) : Option (Fin (g.k0 * g.k1) × Fin P × Fin (g.h H) × Fin (g.w W) → α) :=
  if g.inRange P H W ∧ 0 < g.h H ∧ 0 < g.w W then
    some fun t =>
      let idx := g.index H W t.2.1 t.2.2.1 t.2.2.2 (t.1 / g.k1) (t.1 % g.k1)
      padEntry g padValue x (idx / (g.padH H * g.padW W)) (idx / g.padW W % g.padH H) (idx % g.padW W)
  else none

/-- `max_pool2d` (pooling.py:20-53): `self.data` is the share, so every party pads its own share with `-(2**24)`. -/
def maxPool2d [NeZero n] (p : ℕ) (method : MaxMethod) (g : PoolGeo) {P H W : ℕ} (x : AST n (Fin P × Fin H × Fin W)) : Option (Proto n (AST n (Fin P × Fin (g.h H) × Fin (g.w W)))) :=
  if g.inRange P H W ∧ 0 < g.h H ∧ 0 < g.w W then
    some (AST.maxFirst p method ⟨fun q => (poolReshape g (BitVec.ofInt 64 (-(2 ^ 24))) (x.share q)).getD fun _ => 0, x.scale⟩)
  else none

end CrypTen

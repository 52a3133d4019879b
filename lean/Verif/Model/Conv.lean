import Verif.Model.Shape
import Mathlib.Algebra.Field.Defs
import Mathlib.Data.Nat.Cast.Defs

/-!
# Convolutions and their gradient functions

Models `AutogradConv1D` and `AutogradConv2D` (/repo/crypten/gradients.py:1577-1747), `AutogradAvgPool2D` (gradients.py:1445-1506) and `_grad_input_padding` (/repo/crypten/common/util.py:77-113). The two convolution classes differ only in the number of spatial dimensions, so one model with a list of spatial dimensions stands for both (one entry: conv1d, two entries: conv2d).

The torch operations `conv` and `conv_transpose` that encrypted tensors delegate to are modelled by their definition as sums. Strides, paddings and dilations are natural numbers; the tuples are zipped into one list `ConvDim` with one entry per spatial dimension. Inputs have a batch dimension. As in the other gradient models entries are exact ring elements.
-/

namespace CrypTen

/-- Stride, padding and dilation along one spatial dimension (gradients.py:1580-1585, 1659-1664). -/
structure ConvDim where
  stride : ℕ
  padding : ℕ
  dilation : ℕ

namespace Conv
open NdTensor
variable {R : Type}

/-- Output sizes of a convolution (torch; called at gradients.py:1589, 1668): `none` is the error for a kernel larger than the padded input, an empty dimension or an argument that is not positive. -/
def convSizes : List ConvDim → List ℕ → List ℕ → Option (List ℕ)
  | [], [], [] => some []
  | c :: cs, n :: ns, k :: ks =>
    if 1 ≤ n ∧ 1 ≤ k ∧ 1 ≤ c.stride ∧ 1 ≤ c.dilation ∧ c.dilation * (k - 1) + 1 ≤ n + 2 * c.padding then
      (convSizes cs ns ks).map fun r => ((n + 2 * c.padding - (c.dilation * (k - 1) + 1)) / c.stride + 1) :: r
    else none
  | _, _, _ => none

/-- The input entry that kernel entry `u` meets at output position `t`; `none` in the padding (torch's convolution, called at gradients.py:1589, 1668). -/
def tap : List ConvDim → List ℕ → List ℕ → List ℕ → Option (List ℕ)
  | c :: cs, n :: ns, t :: ts, u :: us =>
    if c.padding ≤ c.stride * t + c.dilation * u ∧ c.stride * t + c.dilation * u < n + c.padding then
      (tap cs ns ts us).map fun r => (c.stride * t + c.dilation * u - c.padding) :: r
    else none
  | _, _, _, _ => some []

/-- `x.conv1d(kernel, stride, padding, dilation, groups)` and `x.conv2d(…)` (called at gradients.py:1589, 1637, 1668, 1722): `x` has shape (batch, channels, sizes), the kernel (output channels, channels per group, sizes). Channels are required to be at least one. -/
def conv [CommRing R] (x k : NdTensor R) (cs : List ConvDim) (groups : ℕ) : Option (NdTensor R) :=
  match x.shape, k.shape with
  | B :: C :: ns, O :: Cg :: ks =>
    if 1 ≤ groups ∧ C = Cg * groups ∧ 1 ≤ Cg ∧ 1 ≤ O ∧ O % groups = 0 then
      (convSizes cs ns ks).map fun os =>
        { shape := B :: O :: os
          data := fun
            | b :: o :: t => ∑ c ∈ Finset.range Cg, sumEntries ks fun u => (tap cs ns t u).elim 0 fun i => x.data (b :: (o / (O / groups) * Cg + c) :: i) * k.data (o :: c :: u)
            | _ => 0 }
    else none
  | _, _ => none

/-- Output sizes of a transposed convolution (torch; called at gradients.py:1622, 1701). The output padding must be smaller than the stride or the dilation. -/
def transSizes : List ConvDim → List ℕ → List ℕ → List ℕ → Option (List ℕ)
  | [], [], [], [] => some []
  | c :: cs, op :: ops, m :: os, k :: ks =>
    if 1 ≤ k ∧ 1 ≤ c.stride ∧ 1 ≤ c.dilation ∧ 1 ≤ m ∧ (op < c.stride ∨ op < c.dilation) ∧ 2 * c.padding < (m - 1) * c.stride + c.dilation * (k - 1) + op + 1 then
      (transSizes cs ops os ks).map fun r => ((m - 1) * c.stride + c.dilation * (k - 1) + op + 1 - 2 * c.padding) :: r
    else none
  | _, _, _, _ => none

/-- Kernel entry `u` at position `t` of the smaller tensor meets entry `i` of the larger one (torch's transposed convolution, called at gradients.py:1622, 1701). -/
def hits : List ConvDim → List ℕ → List ℕ → List ℕ → Bool
  | c :: cs, t :: ts, u :: us, i :: is => decide (c.stride * t + c.dilation * u = i + c.padding) && hits cs ts us is
  | _, _, _, _ => true

/-- `g.conv_transpose1d(kernel, stride, padding, output_padding, groups, dilation)` and `g.conv_transpose2d(…)` (called at gradients.py:1489, 1622, 1701): every entry of `g` is spread over the entries its kernel window covers. -/
def convTranspose [CommRing R] (g k : NdTensor R) (cs : List ConvDim) (ops : List ℕ) (groups : ℕ) : Option (NdTensor R) :=
  match g.shape, k.shape with
  | B :: O :: os, O' :: Cg :: ks =>
    if 1 ≤ groups ∧ O = O' ∧ 1 ≤ Cg ∧ 1 ≤ O ∧ O % groups = 0 then
      (transSizes cs ops os ks).map fun ns =>
        { shape := B :: Cg * groups :: ns
          data := fun
            | b :: c :: i => ∑ o ∈ Finset.range (O / groups), sumEntries os fun t => sumEntries ks fun u =>
                if hits cs t u i then g.data (b :: (c / Cg * (O / groups) + o) :: t) * k.data ((c / Cg * (O / groups) + o) :: c % Cg :: u) else 0
            | _ => 0 }
    else none
  | _, _ => none

/-- `min_sizes` of `_grad_input_padding` (/repo/crypten/common/util.py:92-100). -/
def minSize (c : ConvDim) (m k : ℕ) : ℤ := ((m : ℤ) - 1) * c.stride - 2 * c.padding + 1 + c.dilation * ((k : ℤ) - 1)

/-- `_grad_input_padding` (/repo/crypten/common/util.py:77-113) for the spatial sizes of the input: `none` is the ValueError. -/
def gradInputPadding : List ConvDim → List ℕ → List ℕ → List ℕ → Option (List ℕ)
  | [], [], [], [] => some []
  | c :: cs, m :: os, n :: ns, k :: ks =>
    if (n : ℤ) < minSize c m k ∨ (n : ℤ) > minSize c m k + c.stride - 1 then none
    else (gradInputPadding cs os ns ks).map (((n : ℤ) - minSize c m k).toNat :: ·)
  | _, _, _, _ => none

/-- `x.repeat(1, r, 1, …)` (called at gradients.py:1632, 1711): the channels `r` times after each other. -/
def repeatChannels (x : NdTensor R) (r : ℕ) : NdTensor R :=
  { shape := match x.shape with | B :: C :: ns => B :: C * r :: ns | s => s
    data := fun idx => match x.shape, idx with | _ :: C :: _, b :: c :: i => x.data (b :: c % C :: i) | _, _ => x.data idx }

/-- Stride and dilation exchanged (gradients.py:1637-1643, 1722-1728). -/
def ConvDim.swap (c : ConvDim) : ConvDim := { c with stride := c.dilation, dilation := c.stride }

/-- `narrow(2, 0, kernel_size_y)`, `narrow(3, 0, kernel_size_x)` (gradients.py:1651, 1745-1746). -/
def narrowAll : ℕ → List ℕ → NdTensor R → Option (NdTensor R)
  | _, [], x => some x
  | d, k :: ks, x => (x.narrow d 0 k).bind (narrowAll (d + 1) ks)

/-- The gradient with respect to the kernel (gradients.py:1631-1651, 1710-1746), for `r = in_channels // groups`. `//` raises for an empty batch. -/
def gradKernel [CommRing R] (x g : NdTensor R) (cs : List ConvDim) (B C O r : ℕ) (ks : List ℕ) : Option (NdTensor R) := do
  let g := repeatChannels g r
  let g ← g.reshape (((g.shape.getD 0 0 * g.shape.getD 1 0 : ℕ) : ℤ) :: 1 :: (g.shape.drop 2).map fun n : ℕ => (n : ℤ))
  let x ← x.reshape (1 :: ((B * C : ℕ) : ℤ) :: (x.shape.drop 2).map fun n : ℕ => (n : ℤ))
  let y ← conv x g (cs.map ConvDim.swap) (C * B)
  if B = 0 then none
  else
    let y ← y.reshape ((B : ℤ) :: ((y.shape.getD 1 0 / B : ℕ) : ℤ) :: (y.shape.drop 2).map fun n : ℕ => (n : ℤ))
    let y ← y.sumDim 0 false
    let y ← y.reshape ((r : ℤ) :: (O : ℤ) :: (y.shape.drop 1).map fun n : ℕ => (n : ℤ))
    let y ← y.transpose 0 1
    narrowAll 2 ks y

/-- What the convolutions save (gradients.py:1586-1588, 1665-1667). -/
structure Ctx (R : Type) where
  input : NdTensor R
  kernel : NdTensor R
  dims : List ConvDim
  groups : ℕ

/-- `AutogradConv1D.forward` and `AutogradConv2D.forward` (gradients.py:1579-1591, 1658-1670). -/
def convF [CommRing R] (cs : List ConvDim) (groups : ℕ) (x k : NdTensor R) : Option (NdTensor R × Ctx R) := (conv x k cs groups).map (·, ⟨x, k, cs, groups⟩)

/-- `AutogradConv1D.backward` and `AutogradConv2D.backward` (gradients.py:1593-1652, 1672-1747): the gradients of the input and of the kernel. -/
def convB [CommRing R] (c : Ctx R) (g : NdTensor R) : Option (NdTensor R × NdTensor R) :=
  match c.input.shape, c.kernel.shape, g.shape with
  | B :: C :: ns, O :: Cg :: ks, B' :: O' :: os => do
    if C = Cg * c.groups ∧ O' = O ∧ B' = B then
      if c.groups > 1 ∧ C > c.groups then none
      else
        let ops ← gradInputPadding c.dims os ns ks
        let gx ← convTranspose g c.kernel c.dims ops c.groups
        let gk ← gradKernel c.input g c.dims B C O (Cg * c.groups / c.groups) ks
        return (gx, gk)
    else none
  | _, _, _ => none

end Conv
end CrypTen

namespace CrypTen
namespace Conv
open NdTensor
variable {K : Type} [Field K]

/-- The dimensions of a pooling call: no dilation (gradients.py:1447-1456, 1484). -/
def poolDims (stride padding : List ℕ) : List ConvDim := List.zipWith (fun s p => ⟨s, p, 1⟩) stride padding

/-- `ArithmeticSharedTensor.avg_pool2d` and `_sum_pool2d` (/repo/crypten/mpc/primitives/arithmetic.py:552-585), for inputs with a batch dimension: the sum over each window, padded with zeros, divided by the size of the kernel. Torch refuses paddings above half of the kernel size. Channels are required to be at least one. -/
def avgPool (x : NdTensor K) (ks stride padding : List ℕ) : Option (NdTensor K) :=
  match x.shape with
  | B :: C :: ns =>
    if 1 ≤ C ∧ (padding.zip ks).all (fun q => 2 * q.1 ≤ q.2) ∧ stride.length = padding.length then
      (convSizes (poolDims stride padding) ns ks).map fun os =>
        { shape := B :: C :: os
          data := fun
            | b :: c :: t => (sumEntries ks fun u => (tap (poolDims stride padding) ns t u).elim 0 fun i => x.data (b :: c :: i)) / (ks.prod : K)
            | _ => 0 }
    else none
  | _ => none

/-- `AutogradAvgPool2D.forward` (gradients.py:1447-1466); `stride` defaults to the kernel size, and `ceil_mode` is not passed on. It saves the shape of the input, the kernel size, the padding and the stride (the output is not used). -/
def avgPoolF (ks : List ℕ) (stride : Option (List ℕ)) (padding : List ℕ) (_ceilMode : Bool) (x : NdTensor K) : Option (NdTensor K × (List ℕ × List ℕ × List ℕ × List ℕ)) :=
  (avgPool x ks (stride.getD ks) padding).map (·, (x.shape, ks, padding, stride.getD ks))

/-- The averaging filter `torch.ones(in_channels, 1, …) / (k0 * k1)` (gradients.py:1473-1476). -/
def avgKernel (C : ℕ) (ks : List ℕ) : NdTensor K := { shape := C :: 1 :: ks, data := fun _ => 1 / (ks.prod : K) }

/-- `AutogradAvgPool2D.backward` (gradients.py:1468-1506), for gradients with a batch dimension. -/
def avgPoolB (c : List ℕ × List ℕ × List ℕ × List ℕ) (g : NdTensor K) : Option (NdTensor K) :=
  match c.1, g.shape with
  | _ :: C :: ns, _ :: _ :: os => do
    let ops ← gradInputPadding (poolDims c.2.2.2 c.2.2.1) os ns c.2.1
    convTranspose g (avgKernel C c.2.1) (poolDims c.2.2.2 c.2.2.1) ops C
  | _, _ => none

/-- `AutogradAvgPool2D.backward` (gradients.py:1468-1506) for an input without a batch dimension, `(channels, height, width)`: `_grad_input_padding` (common/util.py:84-88) takes `grad_output.dim() - 2 = 1` for the number of spatial dimensions, so it compares the last size of the input with the size of the gradient along dimension 2, using the first entries of stride, padding and kernel size; `conv_transpose2d` applies its one output padding to both dimensions. The transposed convolution adds and removes a batch dimension. -/
def avgPoolB3 (c : List ℕ × List ℕ × List ℕ × List ℕ) (g : NdTensor K) : Option (NdTensor K) :=
  match c.1, g.shape, c.2.1, poolDims c.2.2.2 c.2.2.1 with
  | [C, _, W], [C', H', W'], [k0, k1], [d0, d1] => do
    let ops ← gradInputPadding [d0] [W'] [W] [k0]
    let r ← convTranspose ⟨[1, C', H', W'], fun idx => g.data idx.tail⟩ (avgKernel C [k0, k1]) [d0, d1] [ops.headD 0, ops.headD 0] C
    return ⟨r.shape.tail, fun idx => r.data (0 :: idx)⟩
  | _, _, _, _ => none

end Conv
end CrypTen

import Verif.Model.Conv
import Verif.Model.Pool

/-!
# Layers imported from ONNX

Models the `from_onnx` constructors and `forward` functions of the layers of /repo/crypten/nn/module.py that move entries around, add them up, convolve or pool, and the choice of the class in /repo/crypten/nn/onnx_converter.py.

Attributes are records with an `Option` for every attribute that may be missing. Inputs are encrypted tensors, given by their entries (exact ring elements); integer inputs (starts, ends, shapes, pads, indices) are plain lists. `none` is an exception.
-/

namespace CrypTen
namespace NdTensor
variable {R : Type}

/-- `x.expand(size)` (torch; called at nn/module.py:1393): missing dimensions are added on the left, dimensions of size 1 are stretched; anything else raises. (`-1` entries do not occur in ONNX shapes.) -/
def expand (t : NdTensor R) (size : List ℕ) : Option (NdTensor R) :=
  if t.shape.length ≤ size.length ∧ (t.shape.zip (size.drop (size.length - t.shape.length))).all (fun q => q.1 = q.2 ∨ q.1 = 1) then
    some { shape := size, data := fun idx => t.data (List.zipWith (fun n i => if n = 1 then 0 else i) t.shape (idx.drop (size.length - t.shape.length))) }
  else none

/-- `x.sum(dims, keepdim=keepdim)` for a list of dimensions (torch; called at nn/module.py:1161). A dimension that occurs twice raises. -/
def sumDims [AddCommMonoid R] (t : NdTensor R) (dims : List ℤ) (keepdim : Bool) : Option (NdTensor R) :=
  (dims.mapM (normDim t.shape.length)).bind fun ds =>
    if ds.Nodup then
      let y := ds.foldl sumKeep t
      if keepdim then some y
      else
        let rest := (List.range t.shape.length).filter (· ∉ ds)
        some { shape := rest.map fun d => t.shape.getD d 0, data := fun idx => y.data ((List.range t.shape.length).map fun d => if d ∈ ds then 0 else idx.getD (rest.idxOf d) 0) }
    else none

/-- Every entry of the index tensor is an index of a dimension of size `n`. -/
def inBounds (n : ℕ) (index : NdTensor ℤ) : Bool := ((List.range index.shape.prod).map fun k => index.data (unflatIdx index.shape k)).all fun i => (normDim n i).isSome

/-- `x.take(index, dimension)` (/repo/crypten/common/functions/regular.py:135-149; called at nn/module.py:1750): along a dimension this is torch's indexing by a tensor; without a dimension the flattened tensor is indexed. Negative indices count from the end. -/
def take (t : NdTensor R) (index : NdTensor ℤ) (dimension : Option ℤ) : Option (NdTensor R) :=
  if dimension = none ∨ t.shape = [] then
    if inBounds t.shape.prod index then
      some { shape := index.shape, data := fun idx => t.data (unflatIdx t.shape ((normDim t.shape.prod (index.data idx)).getD 0)) }
    else none
  else
    (normDim t.shape.length (dimension.getD 0)).bind fun d =>
      let n := t.shape.getD d 0
      if inBounds n index then
        let q := index.shape.length
        some { shape := t.shape.take d ++ index.shape ++ t.shape.drop (d + 1)
               data := fun idx => t.data (idx.take d ++ ((normDim n (index.data ((idx.drop d).take q))).getD 0 :: idx.drop (d + q))) }
      else none

end NdTensor

namespace Onnx
open NdTensor
variable {R : Type}

/-- The loop of `Slice.forward` (nn/module.py:1360-1364), from position `k` of the lists on. `starts[idx]` raises IndexError behind the end of the list. -/
def sliceLoop (starts ends : List ℤ) : ℕ → List ℤ → NdTensor R → Option (NdTensor R)
  | _, [], x => some x
  | k, a :: axes, x =>
    (starts[k]?).bind fun s => (ends[k]?).bind fun e => (normDim x.shape.length a).bind fun d =>
      (x.narrow a s (min e (x.shape.getD d 0) - s)).bind (sliceLoop starts ends (k + 1) axes)

/-- `Slice.forward` with steps 1 (nn/module.py:1336-1365): the bounds come from the inputs or from the attributes, both are modelled by the arguments. -/
def slice (starts ends : List ℤ) (axes : Option (List ℤ)) (x : NdTensor R) : Option (NdTensor R) :=
  sliceLoop starts ends 0 (axes.getD ((List.range starts.length).map fun k : ℕ => (k : ℤ))) x

/-- The loop of `Expand.forward` (nn/module.py:1388-1390) from dimension `i` on: `input.size(idx)` raises IndexError for a dimension the input does not have, but is only evaluated if the entry is 1. -/
def expandFix (s : List ℕ) : ℕ → List ℕ → Option (List ℕ)
  | _, [] => some []
  | i, n :: ns =>
    if n = 1 then (s[i]?).bind fun m => (expandFix s (i + 1) ns).map fun r => (if m > 1 then m else n) :: r
    else (expandFix s (i + 1) ns).map (n :: ·)

/-- `Expand.forward` (nn/module.py:1381-1393). -/
def expand (shape : List ℕ) (x : NdTensor R) : Option (NdTensor R) := (expandFix x.shape 0 shape).bind x.expand

/-- `Flatten.from_onnx` (nn/module.py:1496-1504): the axis of the layer. -/
def flattenAxis : Option ℤ → Option ℤ
  | none => some 1
  | some a => if 0 ≤ a then some a else none

/-- `Flatten.forward` (nn/module.py:1485-1493). -/
def flattenForward (axis : ℤ) (x : NdTensor R) : Option (NdTensor R) :=
  if axis = 0 then x.reshape [1, -1]
  else if axis ≤ x.shape.length then x.reshape [((x.shape.take axis.toNat).prod : ℕ), -1]
  else none

/-- An imported `Flatten` node (nn/module.py:1485-1504). -/
def flatten (axis : Option ℤ) (x : NdTensor R) : Option (NdTensor R) := (flattenAxis axis).bind fun a => flattenForward a x

/-- An imported `Reshape` node (nn/module.py:1580-1595): the shape is passed to `reshape` as it is. -/
def reshape (shape : List ℤ) (x : NdTensor R) : Option (NdTensor R) := x.reshape shape

/-- `_identify_bool_attributes_with_defaults(attributes, "keepdims", 1)` (nn/module.py:2957-2968). -/
def keepdimsAttr (keepdims : Option ℤ) : Bool :=
  match keepdims with
  | some v => if v ≠ 1 then false else true
  | none => true

/-- An imported `ReduceSum` node (nn/module.py:1160-1161, 1197-1201). `attributes["axes"]` raises KeyError if it is missing. -/
def reduceSum [AddCommMonoid R] (axes : Option (List ℤ)) (keepdims : Option ℤ) (x : NdTensor R) : Option (NdTensor R) := axes.bind fun as => x.sumDims as (keepdimsAttr keepdims)

/-- An imported `Transpose` node (nn/module.py:1220-1236). `attributes["perm"]` raises KeyError if it is missing. -/
def transpose (perm : Option (List ℤ)) (x : NdTensor R) : Option (NdTensor R) := perm.bind fun p => if x.shape.length = p.length then x.permute p else none

/-- An imported `Squeeze` node (nn/module.py:1260-1276): exactly one axis is accepted. -/
def squeeze (axes : Option (List ℤ)) (x : NdTensor R) : Option (NdTensor R) :=
  match axes with
  | some [a] => x.squeeze a
  | _ => none

/-- An imported `Unsqueeze` node (nn/module.py:1296-1319), with the axes as attribute or as input: exactly one axis is accepted. -/
def unsqueeze (axes : List ℤ) (x : NdTensor R) : Option (NdTensor R) :=
  match axes with
  | [a] => x.unsqueeze a
  | _ => none

/-- An imported `Gather` node applied to an encrypted tensor (nn/module.py:1731-1769): a missing axis is `None`. -/
def gather (axis : Option ℤ) (x : NdTensor R) (index : NdTensor ℤ) : Option (NdTensor R) := x.take index axis

/-- An imported `Pad` node (nn/module.py:1785-1799): the inputs are the tensor and the pads; a value as third input fails the assertion. -/
def pad [Zero R] (x : NdTensor R) (pads : List ℤ) (value : Option R) : Option (NdTensor R) :=
  match value with
  | none => x.pad pads 0
  | some _ => none

/-- The attributes of a `Conv` node (nn/module.py:2008-2025). -/
structure ConvAttrs where
  strides : Option (List ℕ)
  pads : Option (List ℕ)
  dilations : Option (List ℕ)
  group : Option ℕ

/-- `[padding[idx] for idx in range(0, len(padding), 2)]` (nn/module.py:2016-2017). -/
def everySecond : List ℕ → List ℕ
  | [] => []
  | [a] => [a]
  | a :: _ :: l => a :: everySecond l

/-- Strides, paddings and dilations of the convolution function, zipped (one entry per spatial dimension). Lists of different lengths make torch raise. Called at nn/module.py:1997. -/
def zipDims : List ℕ → List ℕ → List ℕ → Option (List ConvDim)
  | [], [], [] => some []
  | s :: ss, p :: ps, d :: ds => (zipDims ss ps ds).map (⟨s, p, d⟩ :: ·)
  | _, _, _ => none

/-- `Conv.from_onnx` (nn/module.py:2008-2025): the convolution parameters and the groups. (That torch also accepts lists of length one for two dimensions is not modelled.) -/
def convFromOnnx (a : ConvAttrs) : Option (List ConvDim × ℕ) :=
  a.strides.bind fun ss => a.pads.bind fun ps => a.dilations.bind fun ds => (zipDims ss (everySecond ps) ds).map (·, a.group.getD 1)

/-- The bias is reshaped to `(1, channels, 1, …)` and added (nn/module.py:2000-2004). A bias of another length than the number of channels makes the addition raise (one entry is broadcast). -/
def addBias [Add R] (y : NdTensor R) : Option (NdTensor R) → Option (NdTensor R)
  | none => some y
  | some b =>
    match b.shape with
    | [c] => if c = y.shape.getD 1 0 ∨ c = 1 then some { shape := y.shape, data := fun idx => y.data idx + b.data [if c = 1 then 0 else idx.getD 1 0] } else none
    | _ => none

/-- An imported `Conv` node applied to an encrypted tensor (nn/module.py:1965-2025). One or two spatial dimensions. -/
def conv [CommRing R] (a : ConvAttrs) (x w : NdTensor R) (bias : Option (NdTensor R)) : Option (NdTensor R) :=
  (convFromOnnx a).bind fun q =>
    if w.shape.length - 2 < 1 ∨ w.shape.length - 2 > 2 then none
    else (Conv.conv x w q.1 q.2).bind fun y => addBias y bias

/-- The attributes of a `MaxPool` or `AveragePool` node (nn/module.py:2554-2579). -/
structure PoolAttrs where
  kernelShape : List ℕ
  strides : Option (List ℕ)
  pads : Option (List ℕ)
  dilations : Option (List ℕ)
  ceilMode : Option ℤ
  countIncludePad : Option ℤ

/-- The layer `_Pool2d` (nn/module.py:2531-2537): one number each for kernel, stride and padding. -/
structure PoolLayer where
  kernel : ℕ
  stride : ℕ
  padding : ℕ
  ceilMode : Bool

/-- `_all_the_same(items)` (nn/module.py:2950-2954); `items[0]` is not evaluated for an empty list. -/
def allTheSame {α : Type} [DecidableEq α] (items : List α) : Bool := items.all fun i => items.head? = some i

/-- `_Pool2d.from_onnx` (nn/module.py:2554-2579). The list that is checked for square kernels is `["kernel_shape"]`, a list with one string. -/
def poolFromOnnx (a : PoolAttrs) : Option PoolLayer :=
  let pads := a.pads.getD [0]
  if allTheSame ["kernel_shape"] then
    a.strides.bind fun ss =>
      if allTheSame ss then
        (a.kernelShape.head?).bind fun k => (ss.head?).bind fun s => (pads.head?).map fun p => { kernel := k, stride := s, padding := p, ceilMode := a.ceilMode.getD 0 > 0 }
      else none
  else none

/-- The pooling that `_Pool2d.forward` asks for (nn/module.py:2539-2551): the numbers are used for both dimensions, and the dilation is 1. -/
def PoolLayer.geo (l : PoolLayer) : PoolGeo := { k0 := l.kernel, k1 := l.kernel, s0 := l.stride, s1 := l.stride, d0 := 1, d1 := 1, p0 := l.padding, p1 := l.padding, ceil := l.ceilMode }

/-- An imported `Clip` node with bounds as attributes (nn/module.py:2365-2378, onnx_converter.py:151-161): the bounds of `hardtanh`. -/
def clipBounds (lo hi : Option ℚ) : ℚ × ℚ := (lo.getD (-1), hi.getD 1)

/-- A matrix product `a.matmul(b)` of two matrices (called at nn/module.py:1849). -/
def matmul [CommRing R] (a b : NdTensor R) : Option (NdTensor R) :=
  match a.shape, b.shape with
  | [m, k], [k', n] => if k = k' then some { shape := [m, n], data := fun idx => ∑ l ∈ Finset.range k, a.data [idx.getD 0 0, l] * b.data [l, idx.getD 1 0] } else none
  | _, _ => none

/-- `output.add(c)` where `c` is broadcast to a matrix or vice versa (called at nn/module.py:1850): only the case is modelled in which the result has the shape of `output`; ONNX asks for that. -/
def addTo [Add R] (y c : NdTensor R) : Option (NdTensor R) := (c.expand y.shape).map fun c => { shape := y.shape, data := fun idx => y.data idx + c.data idx }

/-- An imported `Gemm` node (nn/module.py:1843-1864). `alpha` and `beta` must be present, and so must the third input. -/
def gemm [CommRing R] (alpha beta : Option R) (transA transB : Option Bool) (a b : NdTensor R) (c : Option (NdTensor R)) : Option (NdTensor R) :=
  alpha.bind fun al => beta.bind fun be => c.bind fun c =>
    (if transA.getD false then a.t else some a).bind fun a => (if transB.getD false then b.t else some b).bind fun b =>
      (matmul a b).bind fun y => addTo { y with data := fun idx => y.data idx * al } { c with data := fun idx => c.data idx * be }

/-- The loop of `GlobalAveragePool.forward` (nn/module.py:2767-2769) over the dimensions from 2 on. -/
def gapSum [AddCommMonoid R] (x : NdTensor R) : NdTensor R := ((List.range x.shape.length).drop 2).foldl sumKeep x

/-- An imported `GlobalAveragePool` node (nn/module.py:2763-2777). The division by `nelement / (size(0) * size(1))` raises ZeroDivisionError if one of the first two dimensions is empty; division is exact here. -/
def globalAveragePool [Field R] (x : NdTensor R) : Option (NdTensor R) :=
  if 2 < x.shape.length then
    if x.shape.getD 0 0 * x.shape.getD 1 0 = 0 then none
    else some { gapSum x with data := fun idx => (gapSum x).data idx / ((x.shape.prod / (x.shape.getD 0 0 * x.shape.getD 1 0) : ℕ) : R) }
  else none

/-- The classes of nn/module.py that have the name of an ONNX operator and implement another one (nn/module.py:1164, 1184), and the mapping for other names (onnx_converter.py:151-161). -/
inductive LayerClass
  | reduceMean | reduceSum | avgPool2d | maxPool2d | hardtanh | constantPad | relu | other (name : String)
  deriving DecidableEq

/-- `_get_operator_class` (onnx_converter.py:251-260): a class of that name in `module` comes first. The third argument tells whether nn/module.py has a class of that name. -/
def operatorClass (opType : String) (hasClass : String → Bool) : Option LayerClass :=
  if opType = "Mean" then some .reduceMean
  else if opType = "Sum" then some .reduceSum
  else if hasClass opType then some (.other opType)
  else if opType = "AveragePool" then some .avgPool2d
  else if opType = "Clip" then some .hardtanh
  else if opType = "MaxPool" then some .maxPool2d
  else if opType = "Pad" then some .constantPad
  else if opType = "Relu" then some .relu
  else if opType = "ReduceMean" then some .reduceMean
  else if opType = "ReduceSum" then some .reduceSum
  else none

end Onnx
end CrypTen

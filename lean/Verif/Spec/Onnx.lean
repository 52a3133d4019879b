import Verif.Spec.Broadcast
import Verif.Model.Pool
import Mathlib.Algebra.Field.Defs
import Mathlib.Algebra.BigOperators.Group.Finset.Basic
import Mathlib.Data.Rat.Defs

/-!
# What the ONNX operators mean

Taken from the ONNX operator specification; nothing of this refers to the layers.
-/

namespace CrypTen
namespace OnnxSpec
variable {R : Type}

/-- The same shape and the same entries. -/
def Same (x y : NdTensor R) : Prop := x.shape = y.shape ∧ ∀ idx, ValidIdx x.shape idx → x.data idx = y.data idx

/-- The entries in row-major order. -/
def rowMajor (x : NdTensor R) : List R := (allIdx x.shape).map x.data

/-- The attribute `a` names dimension `d` of a tensor with `r` dimensions: negative numbers count from the end. -/
def AxisOf (r : ℕ) (a : ℤ) (d : ℕ) : Prop := d < r ∧ (a = d ∨ a = d - r)

/-- No dimension is named twice. -/
def DistinctAxes (r : ℕ) (axes : List ℤ) : Prop := ∀ (j k : ℕ) (a b : ℤ) (d : ℕ), axes[j]? = some a → axes[k]? = some b → AxisOf r a d → AxisOf r b d → j = k

/-- A bound of a slice of a dimension of size `n`: negative numbers count from the end, and the result is clamped to the dimension. -/
def clampBound (n : ℕ) (b : ℤ) : ℕ := (max 0 (min (n : ℤ) (if b < 0 then b + n else b))).toNat

/-- `Slice` with steps 1: `y` consists of the entries of `x` between the bounds; `off` are the starts. -/
def IsSlice (x y : NdTensor R) (starts ends axes : List ℤ) : Prop :=
  ∃ off : ℕ → ℕ, y.shape.length = x.shape.length
    ∧ (∀ (k : ℕ) (a : ℤ) (d : ℕ), axes[k]? = some a → AxisOf x.shape.length a d → ∃ s e, starts[k]? = some s ∧ ends[k]? = some e
        ∧ off d = clampBound (x.shape.getD d 0) s ∧ y.shape.getD d 0 = clampBound (x.shape.getD d 0) e - clampBound (x.shape.getD d 0) s)
    ∧ (∀ d < x.shape.length, (∀ a ∈ axes, ¬AxisOf x.shape.length a d) → off d = 0 ∧ y.shape.getD d 0 = x.shape.getD d 0)
    ∧ ∀ idx, ValidIdx y.shape idx → y.data idx = x.data (idx.mapIdx fun d i => i + off d)

/-- Size of dimension `k` counted from the right; missing dimensions have size 1. -/
def dimR (s : List ℕ) (k : ℕ) : ℕ := s.reverse.getD k 1

/-- `Expand`: both shapes are broadcast to a common one, and the tensor is broadcast to it. -/
def IsExpand (x y : NdTensor R) (shape : List ℕ) : Prop :=
  y.shape.length = max x.shape.length shape.length
    ∧ (∀ k < y.shape.length, (dimR x.shape k = dimR shape k ∧ dimR y.shape k = dimR shape k) ∨ (dimR x.shape k = 1 ∧ dimR y.shape k = dimR shape k) ∨ (dimR shape k = 1 ∧ dimR y.shape k = dimR x.shape k))
    ∧ ∀ idx, ValidIdx y.shape idx → y.data idx = (x.broadcast y.shape).data idx

/-- `Flatten`: a matrix whose rows are the first `axis` dimensions; the order of the entries does not change. -/
def IsFlatten (x y : NdTensor R) (axis : ℕ) : Prop := axis ≤ x.shape.length ∧ y.shape = [(x.shape.take axis).prod, (x.shape.drop axis).prod] ∧ rowMajor y = rowMajor x

/-- `Reshape`: entry 0 of the shape copies the size of the input, one entry -1 is inferred; the order of the entries does not change. -/
def IsReshape (x y : NdTensor R) (shape : List ℤ) : Prop :=
  y.shape.length = shape.length ∧ (∀ (k : ℕ) (v : ℤ), shape[k]? = some v → (v = 0 ∧ k < x.shape.length ∧ y.shape.getD k 0 = x.shape.getD k 0) ∨ v = -1 ∨ (0 < v ∧ v = y.shape.getD k 0))
    ∧ shape.count (-1) ≤ 1 ∧ rowMajor y = rowMajor x

/-- The index of the result that entry `i` of the input is added to: the reduced dimensions get index 0, or disappear. -/
def reduceIdx (dims : ℕ → Prop) [DecidablePred dims] (keep : Bool) (i : List ℕ) : List ℕ :=
  if keep then i.mapIdx fun d v => if dims d then 0 else v else (i.zipIdx.filter fun q => ¬dims q.2).map Prod.fst

/-- `ReduceSum`: every entry of the result is the sum of the entries that differ from it only in the reduced dimensions. -/
def IsReduceSum [AddCommMonoid R] (x y : NdTensor R) (dims : ℕ → Prop) [DecidablePred dims] (keep : Bool) : Prop :=
  y.shape = (if keep then x.shape.mapIdx fun d n => if dims d then 1 else n else (x.shape.zipIdx.filter fun q => ¬dims q.2).map Prod.fst)
    ∧ ∀ idx, ValidIdx y.shape idx → y.data idx = (((allIdx x.shape).filter fun i => reduceIdx dims keep i = idx).map x.data).sum

/-- `Transpose`: dimension `k` of the result is dimension `perm[k]` of the input. -/
def IsTranspose (x y : NdTensor R) (perm : List ℕ) : Prop :=
  y.shape.length = x.shape.length ∧ (∀ k < x.shape.length, y.shape.getD k 0 = x.shape.getD (perm.getD k 0) 0)
    ∧ ∀ i, ValidIdx x.shape i → y.data ((List.range x.shape.length).map fun k => i.getD (perm.getD k 0) 0) = x.data i

/-- `Squeeze` of one dimension, which must have size 1. -/
def IsSqueeze (x y : NdTensor R) (d : ℕ) : Prop := x.shape.getD d 0 = 1 ∧ y.shape = x.shape.take d ++ x.shape.drop (d + 1) ∧ rowMajor y = rowMajor x

/-- `Unsqueeze`: dimension `d` of the result is new and has size 1. -/
def IsUnsqueeze (x y : NdTensor R) (d : ℕ) : Prop := y.shape = x.shape.take d ++ 1 :: x.shape.drop d ∧ rowMajor y = rowMajor x

/-- `Gather` along dimension `d`: negative indices count from the end. -/
def IsGather (x y : NdTensor R) (index : NdTensor ℤ) (d : ℕ) : Prop :=
  y.shape = x.shape.take d ++ index.shape ++ x.shape.drop (d + 1)
    ∧ ∀ a i b, ValidIdx (x.shape.take d) a → ValidIdx index.shape i → ValidIdx (x.shape.drop (d + 1)) b →
      ∃ k, AxisOf (x.shape.getD d 0) (index.data i) k ∧ y.data (a ++ i ++ b) = x.data (a ++ k :: b)

/-- `Pad` with constant `value`: `pads` are first the numbers of entries to add at the beginning of every dimension, then those to add at the ends. -/
def IsPad (x y : NdTensor R) (pads : List ℕ) (value : R) : Prop :=
  pads.length = 2 * x.shape.length ∧ y.shape.length = x.shape.length
    ∧ (∀ d < x.shape.length, y.shape.getD d 0 = pads.getD d 0 + x.shape.getD d 0 + pads.getD (x.shape.length + d) 0)
    ∧ (∀ i, ValidIdx x.shape i → y.data (i.mapIdx fun d v => v + pads.getD d 0) = x.data i)
    ∧ ∀ j, ValidIdx y.shape j → (¬∃ i, ValidIdx x.shape i ∧ j = i.mapIdx fun d v => v + pads.getD d 0) → y.data j = value

/-- An entry of the input that is continued by zeros: `pos` are positions counted from `begins` entries before the first one. -/
def paddedEntry [Zero R] (x : NdTensor R) (b c : ℕ) (begins pos : List ℕ) : R :=
  if ∀ d < pos.length, begins.getD d 0 ≤ pos.getD d 0 ∧ pos.getD d 0 - begins.getD d 0 < x.shape.getD (d + 2) 0 then
    x.data (b :: c :: pos.mapIdx fun d p => p - begins.getD d 0)
  else 0

/-- `Conv` of an input (batch, channels, sizes) with a kernel (output channels, channels per group, sizes): `pads` are first the paddings at the beginning of every dimension, then those at the ends. -/
def IsConv [CommRing R] (x w y : NdTensor R) (bias : Option (NdTensor R)) (strides pads dilations : List ℕ) (group : ℕ) : Prop :=
  let r := x.shape.length - 2
  y.shape.length = x.shape.length ∧ y.shape.getD 0 0 = x.shape.getD 0 0 ∧ y.shape.getD 1 0 = w.shape.getD 0 0
    ∧ (∀ d < r, (y.shape.getD (d + 2) 0 - 1) * strides.getD d 0 + dilations.getD d 0 * (w.shape.getD (d + 2) 0 - 1) + 1 ≤ x.shape.getD (d + 2) 0 + pads.getD d 0 + pads.getD (r + d) 0
        ∧ x.shape.getD (d + 2) 0 + pads.getD d 0 + pads.getD (r + d) 0 < y.shape.getD (d + 2) 0 * strides.getD d 0 + dilations.getD d 0 * (w.shape.getD (d + 2) 0 - 1) + 1)
    ∧ ∀ b o t, ValidIdx y.shape (b :: o :: t) → y.data (b :: o :: t) = (bias.elim 0 fun v => v.data [o])
        + ∑ c ∈ Finset.range (w.shape.getD 1 0), ((allIdx (w.shape.drop 2)).map fun u =>
            paddedEntry x b (o / (w.shape.getD 0 0 / group) * w.shape.getD 1 0 + c) pads ((List.range r).map fun d => strides.getD d 0 * t.getD d 0 + dilations.getD d 0 * u.getD d 0) * w.data (o :: c :: u)).sum

/-- The pooling that the attributes of `MaxPool` / `AveragePool` with two spatial dimensions describe, where the paddings at the beginning and at the end of each dimension agree. -/
def IsPoolGeo (kernelShape strides pads dilations : List ℕ) (ceil : Bool) (g : PoolGeo) : Prop :=
  kernelShape = [g.k0, g.k1] ∧ strides = [g.s0, g.s1] ∧ pads = [g.p0, g.p1, g.p0, g.p1] ∧ dilations = [g.d0, g.d1] ∧ ceil = g.ceil

/-- `Clip`: a missing bound does not limit. -/
def IsClip (lo hi : Option ℚ) (x y : ℚ) : Prop := y = match lo, hi with
  | some l, some h => min (max x l) h
  | some l, none => max x l
  | none, some h => min x h
  | none, none => x

/-- `Gemm`: `alpha * A' * B' + beta * C`, where `C` is broadcast; alpha and beta are 1 and `C` is 0 if missing. -/
def IsGemm [CommRing R] (alpha beta : Option R) (transA transB : Bool) (a b y : NdTensor R) (c : Option (NdTensor R)) : Prop :=
  ∃ m k n, a.shape = (if transA then [k, m] else [m, k]) ∧ b.shape = (if transB then [n, k] else [k, n]) ∧ y.shape = [m, n] ∧ (∀ t, c = some t → BroadcastsTo t.shape [m, n])
    ∧ ∀ i < m, ∀ j < n, y.data [i, j] = alpha.getD 1 * (∑ l ∈ Finset.range k, a.data (if transA then [l, i] else [i, l]) * b.data (if transB then [j, l] else [l, j]))
        + beta.getD 1 * (c.elim 0 fun t => (t.broadcast [m, n]).data [i, j])

/-- `GlobalAveragePool`: the mean over all dimensions from 2 on. -/
def IsGlobalAveragePool [Field R] (x y : NdTensor R) : Prop :=
  y.shape = x.shape.take 2 ++ List.replicate (x.shape.length - 2) 1
    ∧ ∀ b c, b < x.shape.getD 0 0 → c < x.shape.getD 1 0 →
      y.data (b :: c :: List.replicate (x.shape.length - 2) 0) = ((allIdx (x.shape.drop 2)).map fun i => x.data (b :: c :: i)).sum / ((x.shape.drop 2).prod : ℕ)

end OnnxSpec
end CrypTen

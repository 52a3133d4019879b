import Verif.Model.Broadcast
import Mathlib.Algebra.BigOperators.Group.List.Basic
import Mathlib.Algebra.Ring.Defs

/-!
# Operations that move entries around, and their gradient functions

Models the classes of /repo/crypten/gradients.py that re-arrange, select or pad entries: t, transpose, permute, flip, clone, cat, stack, view, reshape, flatten, narrow, index_select, gather, roll, squeeze, unsqueeze, sum and pad (gradients.py:158-452, 1129-1158, 1425-1441).

A tensor is an `NdTensor`; the torch operation each class delegates to is modelled by its documented effect on indices (`none` is the exception torch raises). Memory layout is not modelled, so `view` is `reshape`. Python integers are `ℤ`: negative dimensions, negative starts and negative paddings are accepted exactly where torch accepts them. Every class is a pair `…F` (the output and what is saved for the backward pass) and `…B` (the backward function, applied to what was saved).
-/

namespace CrypTen
namespace NdTensor
variable {R : Type}

/-- A dimension argument of a tensor with `rank` dimensions: negative dimensions count from the end (torch's `maybe_wrap_dim`); `none` is the IndexError. Models the use of every `dim` argument in gradients.py:169-452. -/
def normDim (rank : ℕ) (d : ℤ) : Option ℕ := if -(rank : ℤ) ≤ d ∧ d < rank then some (if d < 0 then d + rank else d).toNat else none

/-- Position of an entry in row-major order. Used to model `view` / `reshape` / `flatten` (gradients.py:247-283). -/
def flatIdx : List ℕ → List ℕ → ℕ
  | _ :: s, i :: idx => i * s.prod + flatIdx s idx
  | _, _ => 0

/-- The entry at a row-major position. Used to model `view` / `reshape` / `flatten` (gradients.py:247-283). -/
def unflatIdx : List ℕ → ℕ → List ℕ
  | [], _ => []
  | _ :: s, k => k / s.prod :: unflatIdx s (k % s.prod)

/-- `x.transpose(dim1, dim2)` (called at gradients.py:174, 179). -/
def transpose (t : NdTensor R) (d1 d2 : ℤ) : Option (NdTensor R) := do
  let a ← normDim t.shape.length d1
  let b ← normDim t.shape.length d2
  let sw := fun l : List ℕ => (l.set a (l.getD b 0)).set b (l.getD a 0)
  return { shape := sw t.shape, data := fun idx => t.data (sw idx) }

/-- `x.t()` (called at gradients.py:162, 166): the transpose of a matrix; tensors with fewer dimensions are returned as they are, larger ones raise. -/
def t (x : NdTensor R) : Option (NdTensor R) := if x.shape.length ≤ 1 then some x else if x.shape.length = 2 then x.transpose 0 1 else none

/-- `x.permute(dims)` (called at gradients.py:187, 193): dimension `k` of the result is dimension `dims[k]` of `x`. -/
def permute (t : NdTensor R) (dims : List ℤ) : Option (NdTensor R) := do
  let ds ← dims.mapM (normDim t.shape.length)
  if ds.length = t.shape.length ∧ ds.Nodup then
    return { shape := ds.map fun d => t.shape.getD d 0, data := fun idx => t.data ((List.range t.shape.length).map fun a => idx.getD (ds.idxOf a) 0) }
  else none

/-- `x.flip(dims)` (called at gradients.py:201, 206). -/
def flip (t : NdTensor R) (dims : List ℤ) : Option (NdTensor R) := do
  let ds ← dims.mapM (normDim t.shape.length)
  if ds.Nodup then
    return { shape := t.shape, data := fun idx => t.data ((List.range t.shape.length).map fun a => if a ∈ ds then t.shape.getD a 0 - 1 - idx.getD a 0 else idx.getD a 0) }
  else none

/-- The size a call of `view` / `reshape` asks for (called at gradients.py:252, 257, 265, 270, 283): at most one entry `-1`, inferred from the number of elements. -/
def inferSize (numel : ℕ) (size : List ℤ) : Option (List ℕ) :=
  let known := (size.filter (· ≠ -1)).map Int.toNat
  if size.any (· < -1) then none
  else if size.count (-1) = 0 then if known.prod = numel then some known else none
  else if size.count (-1) = 1 then
    if known.prod ≠ 0 ∧ numel % known.prod = 0 then some (size.map fun n => if n = -1 then numel / known.prod else n.toNat) else none
  else none

/-- The entries of `x` in row-major order with another shape (torch's `view` / `reshape` to a size with the same number of elements; called at gradients.py:252, 257, 265, 270, 283). -/
def reshapeTo (t : NdTensor R) (s : List ℕ) : NdTensor R := { shape := s, data := fun idx => t.data (unflatIdx t.shape (flatIdx s idx)) }

/-- `x.view(size)` and `x.reshape(size)` (called at gradients.py:252, 257, 265, 270, 283). -/
def reshape (t : NdTensor R) (size : List ℤ) : Option (NdTensor R) := (inferSize t.shape.prod size).map t.reshapeTo

/-- `x.flatten(start_dim, end_dim)` (called at gradients.py:278). -/
def flatten (t : NdTensor R) (startDim endDim : ℤ) : Option (NdTensor R) :=
  if t.shape = [] then if (startDim = 0 ∨ startDim = -1) ∧ (endDim = 0 ∨ endDim = -1) then some (t.reshapeTo [1]) else none
  else do
    let a ← normDim t.shape.length startDim
    let b ← normDim t.shape.length endDim
    if a ≤ b then return t.reshapeTo (t.shape.take a ++ [((t.shape.drop a).take (b + 1 - a)).prod] ++ t.shape.drop (b + 1)) else none

/-- The start of a window along a dimension of size `n` (torch's `narrow`, called at gradients.py:291, 1440): the size itself is accepted, otherwise it is read like a dimension. -/
def normStart (n : ℕ) (start : ℤ) : Option ℕ := if start = n then some n else normDim n start

/-- `x.narrow(dim, start, length)` (called at gradients.py:291, 1440). A negative `start` counts from the end. -/
def narrow (t : NdTensor R) (dim start length : ℤ) : Option (NdTensor R) := do
  let d ← normDim t.shape.length dim
  let n := t.shape.getD d 0
  let st ← normStart n start
  if 0 ≤ length ∧ st + length ≤ n then
    return { shape := t.shape.set d length.toNat, data := fun idx => t.data (idx.set d (idx.getD d 0 + st)) }
  else none

/-- The pairs of a padding list, from the last dimension backwards; `none` is the error for a list of odd length (called at gradients.py:305, 1430). -/
def padPairs : List ℤ → Option (List (ℤ × ℤ))
  | [] => some []
  | [_] => none
  | lo :: hi :: p => (padPairs p).map ((lo, hi) :: ·)

/-- The padded size of one dimension. Negative padding removes entries, and raises if there are not enough of them. -/
def padSize (n : ℕ) (p : ℤ × ℤ) : Option ℕ := if 0 ≤ (n : ℤ) + min p.1 0 + min p.2 0 then some ((n : ℤ) + p.1 + p.2).toNat else none

/-- The entry of the unpadded tensor at an index of the padded one; `none` for the border. -/
def padSrc : List ℕ → List (ℤ × ℤ) → List ℕ → Option (List ℕ)
  | n :: s, p :: ps, i :: idx => if 0 ≤ (i : ℤ) - p.1 ∧ (i : ℤ) - p.1 < n then (padSrc s ps idx).map (((i : ℤ) - p.1).toNat :: ·) else none
  | _, _, _ => some []

/-- The paddings of all dimensions, first dimension first. -/
def padAll (rank : ℕ) (pairs : List (ℤ × ℤ)) : List (ℤ × ℤ) := List.replicate (rank - pairs.length) (0, 0) ++ pairs.reverse

/-- `x.pad(padding, value=value)` with constant padding (/repo/crypten/mpc/primitives/arithmetic.py:231-260 calls torch's `pad`; called at gradients.py:305, 1430). -/
def pad (t : NdTensor R) (padding : List ℤ) (value : R) : Option (NdTensor R) := do
  let pairs ← padPairs padding
  if pairs.length ≤ t.shape.length then
    let ps := padAll t.shape.length pairs
    let s ← (t.shape.zip ps).mapM fun q => padSize q.1 q.2
    return { shape := s, data := fun idx => (padSrc t.shape ps idx).elim value t.data }
  else none

/-- An argument that is one integer or a tuple / list of integers. Arguments of `roll` (gradients.py:381-404) and `sum` (gradients.py:1129-1158). -/
inductive PyInts
  | one (n : ℤ)
  | many (ns : List ℤ)

/-- Torch reads one integer as a list of length one. -/
def PyInts.toList : PyInts → List ℤ
  | .one n => [n]
  | .many ns => ns

/-- Rolling along one dimension (torch's `roll`, called at gradients.py:384, 404). -/
def roll1 (t : NdTensor R) (shift : ℤ) (d : ℕ) : NdTensor R :=
  { shape := t.shape, data := fun idx => t.data (idx.set d (((idx.getD d 0 : ℤ) - shift) % (t.shape.getD d 0 : ℤ)).toNat) }

/-- Rolling along several dimensions, one after the other (torch's `roll`, called at gradients.py:384, 404). -/
def rollMany : List (ℤ × ℤ) → NdTensor R → Option (NdTensor R)
  | [], t => some t
  | (shift, dim) :: r, t => (normDim t.shape.length dim).bind fun d => rollMany r (t.roll1 shift d)

/-- `x.roll(shifts, dims)` (called at gradients.py:384, 404): without dimensions the flattened tensor is rolled. -/
def roll (t : NdTensor R) (shifts : PyInts) (dims : Option PyInts) : Option (NdTensor R) :=
  match dims with
  | none =>
    match shifts.toList with
    | [shift] => some (((t.reshapeTo [t.shape.prod]).roll1 shift 0).reshapeTo t.shape)
    | _ => none
  | some ds => if shifts.toList.length = ds.toList.length ∧ shifts.toList ≠ [] then rollMany (shifts.toList.zip ds.toList) t else none

/-- `x.unsqueeze(dim)` (called at gradients.py:438, 447, 1157). -/
def unsqueeze (t : NdTensor R) (dim : ℤ) : Option (NdTensor R) :=
  (normDim (t.shape.length + 1) dim).map fun d => { shape := t.shape.insertIdx d 1, data := fun idx => t.data (idx.eraseIdx d) }

/-- `x.squeeze(dim)` (called at gradients.py:422, 452): a dimension of another size stays. -/
def squeeze (t : NdTensor R) (dim : ℤ) : Option (NdTensor R) :=
  (normDim t.shape.length dim).map fun d =>
    if t.shape.getD d 0 = 1 then { shape := t.shape.eraseIdx d, data := fun idx => t.data (idx.insertIdx d 0) } else t

/-- Puts index 0 back at the dimensions of size 1. Used to model `squeeze()` (gradients.py:422). -/
def expandIdx : List ℕ → List ℕ → List ℕ
  | [], _ => []
  | 1 :: s, idx => 0 :: expandIdx s idx
  | _ :: s, i :: idx => i :: expandIdx s idx
  | _ :: s, [] => 0 :: expandIdx s []

/-- `x.squeeze()` (called at gradients.py:422): all dimensions of size 1 are removed. -/
def squeezeAll (t : NdTensor R) : NdTensor R := { shape := t.shape.filter (· ≠ 1), data := fun idx => t.data (expandIdx t.shape idx) }

/-- `x.index_select(dim, index)` (called at gradients.py:339). -/
def indexSelect (t : NdTensor R) (dim : ℤ) (index : List ℕ) : Option (NdTensor R) := do
  let d ← normDim t.shape.length dim
  if index.all (· < t.shape.getD d 0) then
    return { shape := t.shape.set d index.length, data := fun idx => t.data (idx.set d (index.getD (idx.getD d 0) 0)) }
  else none

/-- `x.gather(dim, index)` (called at gradients.py:353): the index has as many dimensions as `x` and is nowhere longer, except along `dim`. -/
def gather (t : NdTensor R) (dim : ℤ) (index : NdTensor ℕ) : Option (NdTensor R) := do
  let d ← normDim t.shape.length dim
  if index.shape.length = t.shape.length ∧ (∀ k, k < t.shape.length → k ≠ d → index.shape.getD k 0 ≤ t.shape.getD k 0) then
    return { shape := index.shape, data := fun idx => t.data (idx.set d (index.data idx)) }
  else none

section
variable [AddCommMonoid R]

/-- `zeros(size).index_add_(dim, index, src)` (called at gradients.py:345): every slice of `src` is added to the slice its index names. -/
def indexAdd (size : List ℕ) (dim : ℤ) (index : List ℕ) (src : NdTensor R) : Option (NdTensor R) := do
  let d ← normDim size.length dim
  return { shape := size, data := fun idx => ∑ k ∈ Finset.range index.length, if index.getD k 0 = idx.getD d 0 then src.data (idx.set d k) else 0 }

/-- `zeros(size).scatter_add_(dim, index, src)` (called at gradients.py:358): every entry of `src` is added to the entry its index names. -/
def scatterAdd (size : List ℕ) (dim : ℤ) (index : NdTensor ℕ) (src : NdTensor R) : Option (NdTensor R) := do
  let d ← normDim size.length dim
  return { shape := size, data := fun idx => sumEntries index.shape fun j => if j.set d (index.data j) = idx then src.data j else 0 }

/-- `x.sum(dim, keepdim=keepdim)` for one dimension (called at gradients.py:1146). -/
def sumDim (t : NdTensor R) (dim : ℤ) (keepdim : Bool) : Option (NdTensor R) :=
  (normDim t.shape.length dim).bind fun d =>
    if keepdim then some (t.sumKeep d) else some { shape := t.shape.eraseIdx d, data := fun idx => (t.sumKeep d).data (idx.insertIdx d 0) }
end

/-- The entries of tensors laid end to end along dimension `d` (torch's `cat`, called at gradients.py:226). -/
def catData [Zero R] (d : ℕ) : List (NdTensor R) → List ℕ → R
  | [], _ => 0
  | t :: ts, idx => if idx.getD d 0 < t.shape.getD d 0 then t.data idx else catData d ts (idx.set d (idx.getD d 0 - t.shape.getD d 0))

/-- `crypten.cat(tensors, dim)` of encrypted tensors (/repo/crypten/__init__.py:449-464; called at gradients.py:226): the shapes agree except along `dim`. (Torch also skips tensors of shape `(0,)`; that is not modelled.) -/
def cat [Zero R] (ts : List (NdTensor R)) (dim : ℤ) : Option (NdTensor R) :=
  match ts with
  | [] => none
  | [t] => some t
  | t :: rest => do
    let d ← normDim t.shape.length dim
    if rest.all (fun u => u.shape.length = t.shape.length ∧ u.shape.set d 0 = t.shape.set d 0) then
      return { shape := t.shape.set d (((t :: rest).map fun u => u.shape.getD d 0).sum), data := catData d (t :: rest) }
    else none

/-- The pieces of `x.split(sections, dim)` from position `start` on (called at gradients.py:231). -/
def splitFrom (t : NdTensor R) (d : ℕ) : ℕ → List ℕ → List (NdTensor R)
  | _, [] => []
  | start, n :: ns => { shape := t.shape.set d n, data := fun idx => t.data (idx.set d (idx.getD d 0 + start)) } :: splitFrom t d (start + n) ns

/-- `x.split(sections, dim)` (called at gradients.py:231). -/
def split (t : NdTensor R) (sections : List ℕ) (dim : ℤ) : Option (List (NdTensor R)) := do
  let d ← normDim t.shape.length dim
  if sections.sum = t.shape.getD d 0 then return splitFrom t d 0 sections else none

/-- `crypten.stack(tensors, dim)` of encrypted tensors (/repo/crypten/__init__.py:467-480; called at gradients.py:239). -/
def stack [Zero R] (ts : List (NdTensor R)) (dim : ℤ) : Option (NdTensor R) :=
  match ts with
  | [] => none
  | [t] => t.unsqueeze dim
  | t :: rest => do
    let d ← normDim (t.shape.length + 1) dim
    if rest.all (fun u => u.shape = t.shape) then
      return { shape := t.shape.insertIdx d (rest.length + 1), data := fun idx => (((t :: rest)[idx.getD d 0]?).elim 0 fun u => u.data (idx.eraseIdx d)) }
    else none

/-- `x.unbind(dim)` (called at gradients.py:244). -/
def unbind (t : NdTensor R) (dim : ℤ) : Option (List (NdTensor R)) :=
  (normDim t.shape.length dim).map fun d => (List.range (t.shape.getD d 0)).map fun k => { shape := t.shape.eraseIdx d, data := fun idx => t.data (idx.insertIdx d k) }

end NdTensor

namespace ShapeGrad
open NdTensor
variable {R : Type}

/-- `AutogradT` (gradients.py:158-162). -/
def tF (x : NdTensor R) : Option (NdTensor R × Unit) := x.t.map (·, ())
/-- `AutogradT.backward` (gradients.py:164-166). -/
def tB (_ : Unit) (g : NdTensor R) : Option (NdTensor R) := g.t

/-- `AutogradTranspose` (gradients.py:169-174). -/
def transposeF (d1 d2 : ℤ) (x : NdTensor R) : Option (NdTensor R × (ℤ × ℤ)) := (x.transpose d1 d2).map (·, (d1, d2))
/-- `AutogradTranspose.backward` (gradients.py:176-179). -/
def transposeB (c : ℤ × ℤ) (g : NdTensor R) : Option (NdTensor R) := g.transpose c.2 c.1

/-- `AutogradPermute` (gradients.py:182-187). -/
def permuteF (dims : List ℤ) (x : NdTensor R) : Option (NdTensor R × List ℤ) := (x.permute dims).map (·, dims)
/-- `AutogradPermute.backward` (gradients.py:189-193): `dims.index(x)` raises ValueError for a number that is not in the list. -/
def permuteB (dims : List ℤ) (g : NdTensor R) : Option (NdTensor R) := do
  let inds ← (List.range dims.length).mapM fun x : ℕ => if (x : ℤ) ∈ dims then some (dims.idxOf (x : ℤ) : ℤ) else none
  g.permute inds

/-- `AutogradFlip` (gradients.py:196-201). -/
def flipF (dims : List ℤ) (x : NdTensor R) : Option (NdTensor R × List ℤ) := (x.flip dims).map (·, dims)
/-- `AutogradFlip.backward` (gradients.py:203-206). -/
def flipB (dims : List ℤ) (g : NdTensor R) : Option (NdTensor R) := g.flip dims

/-- `AutogradClone` (gradients.py:209-213). -/
def cloneF (x : NdTensor R) : Option (NdTensor R × Unit) := some (x, ())
/-- `AutogradClone.backward` (gradients.py:215-217). -/
def cloneB (_ : Unit) (g : NdTensor R) : Option (NdTensor R) := some g

/-- `AutogradView` and `AutogradReshape` (gradients.py:247-252, 260-265). -/
def reshapeF (size : List ℤ) (x : NdTensor R) : Option (NdTensor R × List ℕ) := (x.reshape size).map (·, x.shape)
/-- Their backward functions, and that of `AutogradFlatten` (gradients.py:254-257, 267-270, 280-283). -/
def reshapeB (size : List ℕ) (g : NdTensor R) : Option (NdTensor R) := g.reshape (size.map fun n : ℕ => (n : ℤ))

/-- `AutogradFlatten` (gradients.py:273-278); its backward function is `reshapeB`. -/
def flattenF (startDim endDim : ℤ) (x : NdTensor R) : Option (NdTensor R × List ℕ) := (x.flatten startDim endDim).map (·, x.shape)

/-- What `AutogradNarrow` saves (gradients.py:290). -/
structure NarrowCtx where
  size : ℕ
  dim : ℤ
  start : ℤ
  length : ℤ

/-- `AutogradNarrow` (gradients.py:286-291). -/
def narrowF (dim start length : ℤ) (x : NdTensor R) : Option (NdTensor R × NarrowCtx) := do
  let d ← normDim x.shape.length dim
  let y ← x.narrow dim start length
  return (y, { size := x.shape.getD d 0, dim := dim, start := start, length := length })

/-- `AutogradNarrow.backward` (gradients.py:293-305). `pad[2 * dim]` counts from the end for a negative index, and raises IndexError outside of the list. -/
def narrowB [Zero R] (c : NarrowCtx) (g : NdTensor R) : Option (NdTensor R) := do
  let dim := (g.shape.length : ℤ) - 1 - c.dim
  let p := List.replicate (2 * g.shape.length) (0 : ℤ)
  let i ← normDim p.length (2 * dim)
  let j ← normDim p.length (2 * dim + 1)
  g.pad ((p.set i c.start).set j (c.size - c.length - c.start)) 0

/-- `AutogradIndexSelect` (gradients.py:334-339); an index without dimensions counts as one of length one. -/
def indexSelectF (dim : ℤ) (index : List ℕ) (x : NdTensor R) : Option (NdTensor R × (List ℕ × ℤ × List ℕ)) := (x.indexSelect dim index).map (·, (x.shape, dim, index))
/-- `AutogradIndexSelect.backward` (gradients.py:341-345). -/
def indexSelectB [AddCommMonoid R] (c : List ℕ × ℤ × List ℕ) (g : NdTensor R) : Option (NdTensor R) := indexAdd c.1 c.2.1 c.2.2 g

/-- `AutogradGather` (gradients.py:348-353). -/
def gatherF (dim : ℤ) (index : NdTensor ℕ) (x : NdTensor R) : Option (NdTensor R × (List ℕ × ℤ × NdTensor ℕ)) := (x.gather dim index).map (·, (x.shape, dim, index))
/-- `AutogradGather.backward` (gradients.py:355-358). -/
def gatherB [AddCommMonoid R] (c : List ℕ × ℤ × NdTensor ℕ) (g : NdTensor R) : Option (NdTensor R) := scatterAdd c.1 c.2.1 c.2.2 g

/-- `AutogradRoll` (gradients.py:379-384). -/
def rollF (shifts : PyInts) (dims : Option PyInts) (x : NdTensor R) : Option (NdTensor R × (PyInts × Option PyInts)) := (x.roll shifts dims).map (·, (shifts, dims))

/-- Reverse and negate shifts (gradients.py:391-397). -/
def negShifts : PyInts → PyInts
  | .one n => .one (-n)
  | .many ns => .many (ns.map (-·)).reverse

/-- Reverse dims (gradients.py:400-402). -/
def revDims : PyInts → PyInts
  | .one n => .one n
  | .many ns => .many ns.reverse

/-- `AutogradRoll.backward` (gradients.py:386-404). -/
def rollB (c : PyInts × Option PyInts) (g : NdTensor R) : Option (NdTensor R) := g.roll (negShifts c.1) (c.2.map revDims)

/-- `AutogradSqueeze` (gradients.py:407-431), with the dimensions it saves. -/
def squeezeF (dim : Option ℤ) (x : NdTensor R) : Option (NdTensor R × List ℤ) :=
  match dim with
  | none => some (x.squeezeAll, ((List.range x.shape.length).filter fun k => x.shape.getD k 0 = 1).map fun k : ℕ => (k : ℤ))
  | some dim => do
    let y ← x.squeeze dim
    let d ← normDim x.shape.length dim
    return (y, if x.shape.getD d 0 = 1 then [dim] else [])

/-- `AutogradSqueeze.backward` (gradients.py:433-439). -/
def squeezeB (dims : List ℤ) (g : NdTensor R) : Option (NdTensor R) := dims.foldlM (fun t d => t.unsqueeze d) g

/-- `AutogradUnsqueeze` (gradients.py:442-447). -/
def unsqueezeF (dim : ℤ) (x : NdTensor R) : Option (NdTensor R × ℤ) := (x.unsqueeze dim).map (·, dim)
/-- `AutogradUnsqueeze.backward` (gradients.py:449-452). -/
def unsqueezeB (dim : ℤ) (g : NdTensor R) : Option (NdTensor R) := g.squeeze dim

/-- `AutogradPad` (gradients.py:1425-1431). -/
def padF (padding : List ℤ) (value : R) (x : NdTensor R) : Option (NdTensor R × List ℤ) := (x.pad padding value).map (·, padding)

/-- The loop of `AutogradPad.backward` (gradients.py:1436-1440); the first argument is `idx // 2`. -/
def padLoop : ℕ → List (ℤ × ℤ) → NdTensor R → Option (NdTensor R)
  | _, [], g => some g
  | k, (lo, hi) :: ps, g => do
    let dim := (g.shape.length : ℤ) - k - 1
    let d ← normDim g.shape.length dim
    let r ← g.narrow dim lo (g.shape.getD d 0 - hi - lo)
    padLoop (k + 1) ps r

/-- `AutogradPad.backward` (gradients.py:1433-1441). The forward pass has rejected lists of odd length. -/
def padB (padding : List ℤ) (g : NdTensor R) : Option (NdTensor R) := (padPairs padding).bind fun ps => padLoop 0 ps g

/-- What `AutogradSum` saves (gradients.py:1145). -/
structure SumCtx where
  size : List ℕ
  dim : Option PyInts
  keepdim : Bool

/-- `AutogradSum` (gradients.py:1129-1146), without a dimension or with one. (With several dimensions see `C62_sum_dims_wrong`: only the backward function is modelled.) -/
def sumF [AddCommMonoid R] (dim : Option ℤ) (keepdim : Bool) (x : NdTensor R) : Option (NdTensor R × SumCtx) :=
  match dim with
  | none => some (x.sumAll, { size := x.shape, dim := none, keepdim := keepdim })
  | some d => (x.sumDim d keepdim).map (·, { size := x.shape, dim := some (.one d), keepdim := keepdim })

/-- `grad_output.mul(torch.ones(input_size))` (gradients.py:1158): broadcasting to the size of the input. (A shape that does not broadcast raises; the forward pass excludes it.) -/
def expandTo (g : NdTensor R) (size : List ℕ) : NdTensor R :=
  { shape := size, data := fun idx => g.data (List.zipWith (fun n i => if n = 1 then 0 else i) g.shape (idx.drop (size.length - g.shape.length))) }

/-- `AutogradSum.backward` (gradients.py:1148-1158). `unsqueeze` does not take a list of dimensions. -/
def sumB (c : SumCtx) (g : NdTensor R) : Option (NdTensor R) :=
  if c.size = [] then some g
  else
    match c.dim with
    | none => some (expandTo g c.size)
    | some (.one d) => if c.keepdim then some (expandTo g c.size) else (g.unsqueeze d).map (expandTo · c.size)
    | some (.many _) => if c.keepdim then some (expandTo g c.size) else none

/-- `AutogradCat` (gradients.py:220-226): the sizes along `dim` are saved. -/
def catF [Zero R] (dim : ℤ) (xs : List (NdTensor R)) : Option (NdTensor R × (ℤ × List ℕ)) := do
  let sections ← xs.mapM fun x => (normDim x.shape.length dim).map fun d => x.shape.getD d 0
  let y ← cat xs dim
  return (y, (dim, sections))

/-- `AutogradCat.backward` (gradients.py:228-231). -/
def catB (c : ℤ × List ℕ) (g : NdTensor R) : Option (List (NdTensor R)) := g.split c.2 c.1

/-- `AutogradStack` (gradients.py:234-239). -/
def stackF [Zero R] (dim : ℤ) (xs : List (NdTensor R)) : Option (NdTensor R × ℤ) := (stack xs dim).map (·, dim)
/-- `AutogradStack.backward` (gradients.py:241-244). -/
def stackB (dim : ℤ) (g : NdTensor R) : Option (List (NdTensor R)) := g.unbind dim

/-- `crypten.cat(tensors, dim)` of plain torch tensors (/repo/crypten/__init__.py:453-455): the call `torch.cat(tensors)` does not pass the dimension on. -/
def catPlain [Zero R] (ts : List (NdTensor R)) (_dim : ℤ) : Option (NdTensor R) := cat ts 0

end ShapeGrad
end CrypTen

import Mathlib.Algebra.BigOperators.Group.Finset.Basic
import Mathlib.Data.List.Basic

/-!
# Undoing a broadcast

Models `_inverse_broadcast` (/repo/crypten/gradients.py:58-76). A tensor is a shape and a function on index lists; only its values at the indices of the shape matter.
-/

namespace CrypTen
open Finset

/-- A tensor of any number of dimensions. -/
structure NdTensor (R : Type) where
  shape : List ℕ
  data : List ℕ → R

namespace NdTensor
variable {R : Type} [AddCommMonoid R]

/-- `t.sum()`: the sum over all entries, dimension by dimension. -/
def sumEntries : List ℕ → (List ℕ → R) → R
  | [], f => f []
  | n :: s, f => ∑ i ∈ range n, sumEntries s fun idx => f (i :: idx)

/-- `t.sum()` (a tensor without dimensions). -/
def sumAll (t : NdTensor R) : NdTensor R := { shape := [], data := fun _ => sumEntries t.shape t.data }

/-- `t.sum(0, keepdim=False)`. -/
def sum0 (t : NdTensor R) : NdTensor R := { shape := t.shape.tail, data := fun idx => ∑ i ∈ range (t.shape.headD 0), t.data (i :: idx) }

/-- `t.sum(dim, keepdim=True)`. -/
def sumKeep (t : NdTensor R) (dim : ℕ) : NdTensor R :=
  { shape := t.shape.set dim 1, data := fun idx => ∑ i ∈ range (t.shape.getD dim 0), t.data (idx.set dim i) }

/-- `while grad_output.dim() > len(input_size): grad_output = grad_output.sum(0)` (gradients.py:67-69). The first argument is the number of surplus dimensions. -/
def removeLeading : ℕ → NdTensor R → NdTensor R
  | 0, t => t
  | k + 1, t => removeLeading k t.sum0

/-- One iteration of the last loop (gradients.py:72-75). -/
def reduceDim (inputSize : List ℕ) (t : NdTensor R) (dim : ℕ) : NdTensor R :=
  if inputSize.getD dim 0 = 1 ∧ t.shape.getD dim 0 > 1 then t.sumKeep dim else t

/-- `_inverse_broadcast(grad_output, input_size)` (gradients.py:58-76); `none` is the failed assertion. -/
def inverseBroadcast (g : NdTensor R) (inputSize : List ℕ) : Option (NdTensor R) :=
  if inputSize = [] then some g.sumAll
  else
    let g := removeLeading (g.shape.length - inputSize.length) g
    if g.shape.length = inputSize.length then some ((List.range g.shape.length).foldl (reduceDim inputSize) g) else none

end NdTensor
end CrypTen

import Verif.Spec.Onnx

/-!
# What torch's layers compute

Taken from the documentation of `torch.nn.Linear`, which `crypten.nn.Linear` repeats. The convolutions are in `Spec/Onnx.lean`.
-/

namespace CrypTen.Layers
variable {R : Type}

/-- `y = x A^T + b`, along the last dimension of `x`; all other dimensions are kept. -/
def IsLinear [CommRing R] (weight : NdTensor R) (bias : Option (NdTensor R)) (x y : NdTensor R) : Prop :=
  ∃ s inF outF, weight.shape = [outF, inF] ∧ x.shape = s ++ [inF] ∧ y.shape = s ++ [outF]
    ∧ ∀ idx j, ValidIdx s idx → j < outF → y.data (idx ++ [j]) = (∑ l ∈ Finset.range inF, x.data (idx ++ [l]) * weight.data [j, l]) + bias.elim 0 fun b => b.data [j]

end CrypTen.Layers

import Verif.Spec.Broadcast
import Mathlib.Algebra.Ring.Defs

/-!
# What a gradient function of a (piecewise) copying operation has to do

For an operation that is affine in its input, the derivative at every point is the linear map taking the change of the input to the change of the output. The gradient function must compute the transpose of that map: for every change of the input, pairing it with the result of the gradient function gives the change of the loss, that is the change of the output paired with the gradient of the output.
-/

namespace CrypTen

/-- `bwd` is the gradient function of `fwd`: whatever input is accepted, the backward function applied to what was saved succeeds, returns a tensor of the shape of the input, and is the transpose of the derivative. -/
def IsGradient {R C : Type} [CommRing R] (fwd : NdTensor R → Option (NdTensor R × C)) (bwd : C → NdTensor R → Option (NdTensor R)) : Prop :=
  ∀ x y c g, fwd x = some (y, c) → g.shape = y.shape → ∃ gx, bwd c g = some gx ∧ gx.shape = x.shape
    ∧ ∀ x' : NdTensor R, x'.shape = x.shape → ∃ y' c', fwd x' = some (y', c') ∧ y'.shape = y.shape
      ∧ inner x.shape (fun i => x'.data i - x.data i) gx.data = inner y.shape (fun j => y'.data j - y.data j) g.data

/-- The same for an operation on a list of tensors. -/
def IsGradientList {R C : Type} [CommRing R] (fwd : List (NdTensor R) → Option (NdTensor R × C)) (bwd : C → NdTensor R → Option (List (NdTensor R))) : Prop :=
  ∀ xs y c g, fwd xs = some (y, c) → g.shape = y.shape → ∃ gxs, bwd c g = some gxs ∧ gxs.map NdTensor.shape = xs.map NdTensor.shape
    ∧ ∀ xs' : List (NdTensor R), xs'.map NdTensor.shape = xs.map NdTensor.shape → ∃ y' c', fwd xs' = some (y', c') ∧ y'.shape = y.shape
      ∧ (((xs.zip xs').zip gxs).map fun q => inner q.1.1.shape (fun i => q.1.2.data i - q.1.1.data i) q.2.data).sum = inner y.shape (fun j => y'.data j - y.data j) g.data

end CrypTen

import Mathlib.Analysis.Calculus.FDeriv.Add
import Mathlib.Analysis.Calculus.FDeriv.Mul
import Mathlib.Analysis.Calculus.FDeriv.Pi

/-!
# What a gradient function should compute

A tensor with index set `ι` is a function `ι → ℝ`.
-/

namespace CrypTen
open ContinuousLinearMap

/-- The linear function with coefficients `c`. -/
noncomputable def linearFn {ι : Type} [Fintype ι] (c : ι → ℝ) : (ι → ℝ) →L[ℝ] ℝ := ∑ i, c i • (proj i : (ι → ℝ) →L[ℝ] ℝ)

/-- `backward` is the vector-Jacobian product of `forward` at `x`: for every output gradient `g`, `backward g` is the gradient at `x` of the scalar function `Σ k, g k * forward(·) k`
(in the sense of the Fréchet derivative). -/
def IsVJP {ι κ : Type} [Fintype ι] [Fintype κ] (forward : (ι → ℝ) → κ → ℝ) (x : ι → ℝ) (backward : (κ → ℝ) → ι → ℝ) : Prop :=
  ∀ g : κ → ℝ, HasFDerivAt (fun z => ∑ k, g k * forward z k) (linearFn (backward g)) x

/-- The same for a function of two tensors with one gradient for each: jointly, as a function of both. -/
def IsVJP2 {ι ι' κ : Type} [Fintype ι] [Fintype ι'] [Fintype κ] (forward : (ι → ℝ) → (ι' → ℝ) → κ → ℝ) (x : ι → ℝ) (y : ι' → ℝ) (backward : (κ → ℝ) → (ι → ℝ) × (ι' → ℝ)) : Prop :=
  IsVJP (fun z : ι ⊕ ι' → ℝ => forward (fun i => z (.inl i)) (fun i => z (.inr i))) (Sum.elim x y) fun g => Sum.elim (backward g).1 (backward g).2

end CrypTen

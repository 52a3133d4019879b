import Mathlib.Analysis.SpecialFunctions.Log.Basic
import Mathlib.Analysis.SpecialFunctions.Trigonometric.Basic
import Mathlib.Analysis.SpecialFunctions.Pow.Real
import Mathlib.Analysis.SpecialFunctions.Sqrt

/-!
# Gradient functions

Models the classes of /repo/crypten/gradients.py: for each the forward function and the backward function with what the forward saved. Tensors are functions from a finite index type to the
reals and the arithmetic is exact; comparisons, exponentials, reciprocals and so on stand for the functions they approximate (C21, C22, C26, C53 are about the approximations).
Tensors are modelled with abstract index types; where the code aligns two shapes by broadcasting, `σ` and `τ` say which entry is copied where, and `_inverse_broadcast` adds up the
copies (C55).
-/

namespace CrypTen.Grad

variable {ι ι' κ : Type} [Fintype ι] [Fintype ι'] [Fintype κ] [DecidableEq ι] [DecidableEq ι']

/-- `_inverse_broadcast` (gradients.py:58-76): each entry collects its copies, see C55. -/
noncomputable def unbroadcast (σ : κ → ι) (g : κ → ℝ) : ι → ℝ := fun i => ∑ k with σ k = i, g k

/-! ## Entry by entry, one operand -/

/-- `AutogradNeg` (gradients.py:470-478). -/
def negF (x : ι → ℝ) : ι → ℝ := fun i => -x i
/-- The same class: the backward function (gradients.py:470-478). -/
def negB (g : ι → ℝ) : ι → ℝ := fun i => -g i

/-- `AutogradReLU` (gradients.py:481-492): the mask `input.gt(0.0)` is saved. -/
noncomputable def reluMask (x : ι → ℝ) : ι → ℝ := fun i => if 0 < x i then 1 else 0
/-- The same class: the forward function (gradients.py:481-492). -/
noncomputable def reluF (x : ι → ℝ) : ι → ℝ := fun i => x i * reluMask x i
/-- The same class: the backward function (gradients.py:481-492). -/
def reluB (mask g : ι → ℝ) : ι → ℝ := fun i => g i * mask i

/-- `AutogradDropout`, `AutogradFeatureDropout` in training mode (gradients.py:511-528, 548-567), for a given mask. -/
noncomputable def dropoutF (mask : ι → ℝ) (p : ℝ) (x : ι → ℝ) : ι → ℝ := fun i => x i * (mask i / (1 - p))
/-- The same class: the backward function (gradients.py:511-528, 548-567). -/
noncomputable def dropoutB (mask : ι → ℝ) (p : ℝ) (g : ι → ℝ) : ι → ℝ := fun i => g i * (mask i / (1 - p))

/-- `AutogradTanh` (gradients.py:570-581): the result is saved. -/
noncomputable def tanhF (x : ι → ℝ) : ι → ℝ := fun i => Real.tanh (x i)
/-- The same class: the backward function (gradients.py:570-581). -/
def tanhB (activations g : ι → ℝ) : ι → ℝ := fun i => g i * (-(activations i ^ 2) + 1)

/-- `AutogradHardtanh` with `min_val ≠ max_val` (gradients.py:598-611). `intermediate` are the two comparisons, their sum less one is saved. -/
noncomputable def hardtanhLo (lo : ℝ) (x : ι → ℝ) : ι → ℝ := fun i => if 0 < x i - lo then 1 else 0
/-- The same class: an intermediate value of it (gradients.py:598-611). -/
noncomputable def hardtanhHi (hi : ℝ) (x : ι → ℝ) : ι → ℝ := fun i => if 0 < hi - x i then 1 else 0
/-- The same class: an intermediate value of it (gradients.py:598-611). -/
noncomputable def hardtanhSaved (lo hi : ℝ) (x : ι → ℝ) : ι → ℝ := fun i => hardtanhLo lo x i + hardtanhHi hi x i - 1
/-- The same class: the forward function (gradients.py:598-611). -/
noncomputable def hardtanhF (lo hi : ℝ) (x : ι → ℝ) : ι → ℝ :=
  fun i => hardtanhSaved lo hi x i * x i + (1 - hardtanhLo lo x i) * lo + (1 - hardtanhHi hi x i) * hi
/-- The same class: the backward function (gradients.py:598-611). -/
def hardtanhB (saved g : ι → ℝ) : ι → ℝ := fun i => saved i * g i

/-- `AutogradReLU6` (gradients.py:628-653). -/
noncomputable def relu6Saved (x : ι → ℝ) : ι → ℝ := fun i => (if 0 < x i then 1 else 0) + (if 0 < 6 - x i then 1 else 0) - 1
/-- The same class: the forward function (gradients.py:628-653). -/
noncomputable def relu6F (x : ι → ℝ) : ι → ℝ := fun i => relu6Saved x i * x i + (1 - if 0 < 6 - x i then 1 else 0) * 6
/-- The same class: the backward function (gradients.py:628-653). -/
def relu6B (saved g : ι → ℝ) : ι → ℝ := fun i => saved i * g i

/-- `AutogradPow` (gradients.py:849-861), for an integer power. -/
noncomputable def powF (p : ℤ) (x : ι → ℝ) : ι → ℝ := fun i => x i ^ (p - 1) * x i
/-- The same class: an intermediate value of it (gradients.py:849-861). -/
noncomputable def powSaved (p : ℤ) (x : ι → ℝ) : ι → ℝ := fun i => x i ^ (p - 1) * p
/-- The same class: the backward function (gradients.py:849-861). -/
def powB (saved g : ι → ℝ) : ι → ℝ := fun i => saved i * g i

/-- `AutogradPosPow` with an integral power (gradients.py:868-870, 878-880). -/
noncomputable def posPowIntF (p : ℤ) (x : ι → ℝ) : ι → ℝ := fun i => x i ^ p
/-- The same class: the backward function (gradients.py:868-870, 878-880). -/
noncomputable def posPowIntB (p : ℤ) (x g : ι → ℝ) : ι → ℝ := fun i => x i ^ (p - 1) * p * g i

/-- `AutogradPosPow` with another power (gradients.py:871-874, 881-882): the logarithm of the input is saved. -/
noncomputable def posPowF (p : ℝ) (x : ι → ℝ) : ι → ℝ := fun i => Real.exp (Real.log (x i) * p)
/-- The same class: the backward function (gradients.py:871-874, 881-882). -/
noncomputable def posPowB (p : ℝ) (logInput g : ι → ℝ) : ι → ℝ := fun i => Real.exp (logInput i * (p - 1) * p) * g i

/-- `AutogradSquare` (gradients.py:885-895). -/
def squareF (x : ι → ℝ) : ι → ℝ := fun i => x i ^ 2
/-- The same class: the backward function (gradients.py:885-895). -/
def squareB (x g : ι → ℝ) : ι → ℝ := fun i => g i * (x i * 2)

/-- `AutogradSqrt` (gradients.py:898-909): the inverse square root is saved. -/
noncomputable def invSqrt (x : ι → ℝ) : ι → ℝ := fun i => (Real.sqrt (x i))⁻¹
/-- The same class: the forward function (gradients.py:898-909). -/
noncomputable def sqrtF (x : ι → ℝ) : ι → ℝ := fun i => invSqrt x i * x i
/-- The same class: the backward function (gradients.py:898-909). -/
noncomputable def sqrtB (saved g : ι → ℝ) : ι → ℝ := fun i => saved i / 2 * g i

/-- `AutogradExp` (gradients.py:912-923). -/
noncomputable def expF (x : ι → ℝ) : ι → ℝ := fun i => Real.exp (x i)
/-- The same class: the backward function (gradients.py:912-923). -/
def expB (output g : ι → ℝ) : ι → ℝ := fun i => output i * g i

/-- `AutogradLog` (gradients.py:926-936). -/
noncomputable def logF (x : ι → ℝ) : ι → ℝ := fun i => Real.log (x i)
/-- The same class: the backward function (gradients.py:926-936). -/
noncomputable def logB (x g : ι → ℝ) : ι → ℝ := fun i => g i / x i

/-- `AutogradReciprocal` (gradients.py:939-950). -/
noncomputable def reciprocalF (x : ι → ℝ) : ι → ℝ := fun i => (x i)⁻¹
/-- The same class: the backward function (gradients.py:939-950). -/
def reciprocalB (reciprocal g : ι → ℝ) : ι → ℝ := fun i => -g i * reciprocal i ^ 2

/-- `AutogradSin`, `AutogradCos` (gradients.py:979-1004). -/
noncomputable def sinF (x : ι → ℝ) : ι → ℝ := fun i => Real.sin (x i)
/-- The same class: the forward function (gradients.py:979-1004). -/
noncomputable def cosF (x : ι → ℝ) : ι → ℝ := fun i => Real.cos (x i)
/-- The same class: the backward function (gradients.py:979-1004). -/
def sinB (cos g : ι → ℝ) : ι → ℝ := fun i => g i * cos i
/-- The same class: the backward function (gradients.py:979-1004). -/
def cosB (sin g : ι → ℝ) : ι → ℝ := fun i => g i * -sin i

/-- `input.sign()`: 1 or -1 (logic.py:73-75: `1 - 2 * ltz`, so the sign of zero is 1). -/
noncomputable def signOf (x : ℝ) : ℝ := if x < 0 then -1 else 1

/-- `AutogradAbs` (gradients.py:1064-1075) and `AutogradSign` (1078-1086). -/
noncomputable def absF (x : ι → ℝ) : ι → ℝ := fun i => x i * signOf (x i)
/-- The same class: the backward function (gradients.py:1064-1075). -/
def absB (sign g : ι → ℝ) : ι → ℝ := fun i => g i * sign i
/-- The same class: the forward function (gradients.py:1064-1075). -/
noncomputable def signF (x : ι → ℝ) : ι → ℝ := fun i => signOf (x i)
/-- The same class: the backward function (gradients.py:1064-1075). -/
def signB (g : ι → ℝ) : ι → ℝ := fun i => g i - g i

/-- `AutogradSigmoid` (gradients.py:1375-1386). -/
noncomputable def sigmoid (x : ℝ) : ℝ := (1 + Real.exp (-x))⁻¹
/-- The same class: the forward function (gradients.py:1375-1386). -/
noncomputable def sigmoidF (x : ι → ℝ) : ι → ℝ := fun i => sigmoid (x i)
/-- The same class: the backward function (gradients.py:1375-1386). -/
def sigmoidB (probs g : ι → ℝ) : ι → ℝ := fun i => g i * probs i * (-probs i + 1)

/-- `polynomial(coeffs)` (crypten/common/functions/power.py:63-97): `c₀ x + c₁ x² + …`. -/
def polyVal (c : List ℝ) (x : ℝ) : ℝ := ((List.range c.length).map fun j => c.getD j 0 * x ^ (j + 1)).sum

/-- `AutogradPolynomial` (gradients.py:832-846). Backward multiplies the coefficients by 1, 2, …, evaluates without the first one and adds the first one. -/
def polynomialF (c : List ℝ) (x : ι → ℝ) : ι → ℝ := fun i => polyVal c (x i)
/-- The backward function multiplies the saved coefficients in place (gradients.py:845). A tensor of coefficients given by the caller is not copied (gradients.py:836-838), so that this is also
the caller's tensor after the backward pass. -/
def polynomialScaled (c : List ℝ) : List ℝ := c.mapIdx fun j a => a * ((j : ℝ) + 1)
/-- The same class: the backward function (gradients.py:832-846). -/
def polynomialB (c : List ℝ) (x g : ι → ℝ) : ι → ℝ := fun i => (polyVal (polynomialScaled c).tail (x i) + (polynomialScaled c).headD 0) * g i

/-! ## Entry by entry, two operands -/

/-- `AutogradAdd` (gradients.py:656-672). -/
def addF (σ : κ → ι) (τ : κ → ι') (x : ι → ℝ) (y : ι' → ℝ) : κ → ℝ := fun k => x (σ k) + y (τ k)
/-- The same class: the backward function (gradients.py:656-672). -/
noncomputable def addB (σ : κ → ι) (τ : κ → ι') (g : κ → ℝ) : (ι → ℝ) × (ι' → ℝ) := (unbroadcast σ g, unbroadcast τ g)

/-- `AutogradSub` (gradients.py:675-690). -/
def subF (σ : κ → ι) (τ : κ → ι') (x : ι → ℝ) (y : ι' → ℝ) : κ → ℝ := fun k => x (σ k) - y (τ k)
/-- The same class: the backward function (gradients.py:675-690). -/
noncomputable def subB (σ : κ → ι) (τ : κ → ι') (g : κ → ℝ) : (ι → ℝ) × (ι' → ℝ) := (unbroadcast σ g, fun i => -unbroadcast τ g i)

/-- `AutogradRSub` (gradients.py:693-708). -/
def rsubF (σ : κ → ι) (τ : κ → ι') (x : ι → ℝ) (y : ι' → ℝ) : κ → ℝ := fun k => -x (σ k) + y (τ k)
/-- The same class: the backward function (gradients.py:693-708). -/
noncomputable def rsubB (σ : κ → ι) (τ : κ → ι') (g : κ → ℝ) : (ι → ℝ) × (ι' → ℝ) := (fun i => -unbroadcast σ g i, unbroadcast τ g)

/-- `AutogradMul` (gradients.py:711-726). -/
def mulF (σ : κ → ι) (τ : κ → ι') (x : ι → ℝ) (y : ι' → ℝ) : κ → ℝ := fun k => x (σ k) * y (τ k)
/-- The same class: the backward function (gradients.py:711-726). -/
noncomputable def mulB (σ : κ → ι) (τ : κ → ι') (x : ι → ℝ) (y : ι' → ℝ) (g : κ → ℝ) : (ι → ℝ) × (ι' → ℝ) :=
  (unbroadcast σ fun k => g k * y (τ k), unbroadcast τ fun k => g k * x (σ k))

/-- `AutogradDiv` by an encrypted tensor (gradients.py:779-782, 791-799): the reciprocal of the divisor is saved. -/
noncomputable def divF (σ : κ → ι) (τ : κ → ι') (x : ι → ℝ) (y : ι' → ℝ) : κ → ℝ := fun k => x (σ k) * (y (τ k))⁻¹
/-- The same class: the backward function (gradients.py:779-782, 791-799). -/
noncomputable def divB (σ : κ → ι) (τ : κ → ι') (x : ι → ℝ) (yInv : ι' → ℝ) (g : κ → ℝ) : (ι → ℝ) × (ι' → ℝ) :=
  (unbroadcast σ fun k => yInv (τ k) * g k, unbroadcast τ fun k => -(yInv (τ k) ^ 2 * x (σ k) * g k))

/-- `AutogradDiv` by a public tensor (gradients.py:783-785, 801-807). -/
noncomputable def divPublicF (σ : κ → ι) (y : κ → ℝ) (x : ι → ℝ) : κ → ℝ := fun k => x (σ k) / y k
/-- The same class: the backward function (gradients.py:783-785, 801-807). -/
noncomputable def divPublicB (σ : κ → ι) (y : κ → ℝ) (g : κ → ℝ) : ι → ℝ := unbroadcast σ fun k => g k / y k

/-- `AutogradRDiv` (gradients.py:810-829): `other / input`; the reciprocal of the input is saved. -/
noncomputable def rdivF (σ : κ → ι) (τ : κ → ι') (x : ι → ℝ) (y : ι' → ℝ) : κ → ℝ := fun k => (x (σ k))⁻¹ * y (τ k)
/-- The same class: the backward function (gradients.py:810-829). -/
noncomputable def rdivB (σ : κ → ι) (τ : κ → ι') (xInv : ι → ℝ) (y : ι' → ℝ) (g : κ → ℝ) : (ι → ℝ) × (ι' → ℝ) :=
  (unbroadcast σ fun k => -(xInv (σ k) ^ 2 * y (τ k) * g k), unbroadcast τ fun k => xInv (σ k) * g k)

/-! ## Products -/

/-- `AutogradDot` (gradients.py:953-963); the result has one entry. -/
def dotF (x y : ι → ℝ) : Unit → ℝ := fun _ => ∑ i, x i * y i
/-- The same class: the backward function (gradients.py:953-963). -/
def dotB (x y : ι → ℝ) (g : Unit → ℝ) : (ι → ℝ) × (ι → ℝ) := (fun i => g () * y i, fun i => g () * x i)

/-- `AutogradGer` (gradients.py:966-976). -/
def gerF (x : ι → ℝ) (y : ι' → ℝ) : ι × ι' → ℝ := fun p => x p.1 * y p.2
/-- The same class: the backward function (gradients.py:966-976). -/
def gerB (x : ι → ℝ) (y : ι' → ℝ) (g : ι × ι' → ℝ) : (ι → ℝ) × (ι' → ℝ) := (fun i => ∑ j, g (i, j) * y j, fun j => ∑ i, x i * g (i, j))

/-- `AutogradMatMul` for two matrices (gradients.py:729-772): `g @ yᵀ` and `xᵀ @ g`. -/
def matmulF (x : ι × κ → ℝ) (y : κ × ι' → ℝ) : ι × ι' → ℝ := fun p => ∑ k, x (p.1, k) * y (k, p.2)
/-- The same class: the backward function (gradients.py:729-772). -/
def matmulB (x : ι × κ → ℝ) (y : κ × ι' → ℝ) (g : ι × ι' → ℝ) : (ι × κ → ℝ) × (κ × ι' → ℝ) :=
  (fun p => ∑ j, g (p.1, j) * y (p.2, j), fun p => ∑ i, x (i, p.1) * g (i, p.2))

/-! ## Reductions over one dimension

The other dimensions are the index `o : κ`; the reduced one is `d : ι`. `unsqueeze` makes the gradient broadcast along `d`. -/

/-- `AutogradSum` (gradients.py:1129-1158): over one dimension, or over all with a single `o`. -/
def sumF (x : κ × ι → ℝ) : κ → ℝ := fun o => ∑ d, x (o, d)
/-- The same class: the backward function (gradients.py:1129-1158). -/
def sumB (g : κ → ℝ) : κ × ι → ℝ := fun p => g p.1 * 1

/-- `AutogradMean` (gradients.py:1187-1221). -/
noncomputable def meanF (x : κ × ι → ℝ) : κ → ℝ := fun o => (∑ d, x (o, d)) / Fintype.card ι
/-- The same class: the backward function (gradients.py:1187-1221). -/
noncomputable def meanB (g : κ → ℝ) : κ × ι → ℝ := fun p => g p.1 * (1 / Fintype.card ι)

/-- `AutogradVariance` (gradients.py:1224-1277), with the divisor of the forward function (`nelement - 1` if `unbiased` is false, see C29). -/
noncomputable def varF (divisor : ℝ) (x : κ × ι → ℝ) : κ → ℝ := fun o => (∑ d, (x (o, d) - meanF x o) ^ 2) / divisor
/-- The same class: the backward function (gradients.py:1224-1277). -/
noncomputable def varB (divisor : ℝ) (x : κ × ι → ℝ) (mean : κ → ℝ) (g : κ → ℝ) : κ × ι → ℝ := fun p => (x p - mean p.1) * 2 * g p.1 / divisor

/-- `AutogradCumsum` (gradients.py:1161-1171), along a dimension of size `n`: backward flips, sums up and flips back. -/
def cumsumF {n : ℕ} (x : κ × Fin n → ℝ) : κ × Fin n → ℝ := fun p => ∑ d with d ≤ p.2, x (p.1, d)
/-- The same class: an intermediate value of it (gradients.py:1161-1171). -/
def flipDim {n : ℕ} (x : κ × Fin n → ℝ) : κ × Fin n → ℝ := fun p => x (p.1, p.2.rev)
/-- The same class: the backward function (gradients.py:1161-1171). -/
def cumsumB {n : ℕ} (g : κ × Fin n → ℝ) : κ × Fin n → ℝ := flipDim (cumsumF (flipDim g))

/-- `AutogradTrace` of a square matrix (gradients.py:1174-1184). -/
def traceF (x : ι × ι → ℝ) : Unit → ℝ := fun _ => ∑ i, x (i, i)
/-- The same class: the backward function (gradients.py:1174-1184). -/
def traceB (g : Unit → ℝ) : ι × ι → ℝ := fun p => (if p.1 = p.2 then 1 else 0) * g ()

/-- `AutogradMax`, `AutogradMin` along a dimension (gradients.py:1280-1372): the one-hot argmax is saved. Here the maximum is the product with that one-hot vector (C25). -/
def maxB (argmax : κ × ι → ℝ) (g : κ → ℝ) : κ × ι → ℝ := fun p => g p.1 * argmax p

/-- The maximum over the dimension (what `AutogradMax.forward` returns, gradients.py:1344-1349). -/
def maxF [Nonempty ι] (x : κ × ι → ℝ) : κ → ℝ := fun o => Finset.univ.sup' Finset.univ_nonempty fun d => x (o, d)

/-- The minimum over the dimension (what `AutogradMin.forward` returns, gradients.py:1297-1301). -/
def minF [Nonempty ι] (x : κ × ι → ℝ) : κ → ℝ := fun o => Finset.univ.inf' Finset.univ_nonempty fun d => x (o, d)

/-- `AutogradSoftmax` (gradients.py:1389-1404). -/
noncomputable def softmaxF (x : κ × ι → ℝ) : κ × ι → ℝ := fun p => Real.exp (x p) / ∑ d, Real.exp (x (p.1, d))
/-- The same class: the backward function (gradients.py:1389-1404). -/
noncomputable def softmaxB (probs g : κ × ι → ℝ) : κ × ι → ℝ := fun p => (g p + -∑ d, probs (p.1, d) * g (p.1, d)) * probs p

/-- `AutogradLogSoftmax` (gradients.py:1407-1422); the result is saved. -/
noncomputable def logSoftmaxF (x : κ × ι → ℝ) : κ × ι → ℝ := fun p => x p - Real.log (∑ d, Real.exp (x (p.1, d)))
/-- The same class: the backward function (gradients.py:1407-1422). -/
noncomputable def logSoftmaxB (out g : κ × ι → ℝ) : κ × ι → ℝ := fun p => g p - Real.exp (out p) * ∑ d, g (p.1, d)

/-- `AutogradNorm` with `p=2` over everything (gradients.py:1089-1126). -/
noncomputable def normF (x : ι → ℝ) : Unit → ℝ := fun _ => Real.sqrt (∑ i, x i ^ 2)
/-- The same class: the backward function (gradients.py:1089-1126). -/
noncomputable def normB (x : ι → ℝ) (norm : Unit → ℝ) (g : Unit → ℝ) : ι → ℝ := fun i => g () * (x i / norm ())

/-- `AutogradNorm` with `p=2` over the last dimension of a square matrix, `keepdim=False` (gradients.py:1104-1110, 1114-1117). The result of `grad_output.unsqueeze(dim)` is dropped, and the
saved norm has lost the dimension, so both are broadcast along the wrong dimension. -/
noncomputable def normDimF (x : ι × ι → ℝ) : ι → ℝ := fun i => Real.sqrt (∑ j, x (i, j) ^ 2)
/-- The same class: the backward function (gradients.py:1112-1119). -/
noncomputable def normDimB (x : ι × ι → ℝ) (norm g : ι → ℝ) : ι × ι → ℝ := fun p => g p.2 * (x p / norm p.2)

/-! ## Losses

One value is the result; `n` entries. -/

/-- `AutogradBinaryCrossEntropy` (gradients.py:1900-1923). -/
noncomputable def bceF (t x : ι → ℝ) : Unit → ℝ := fun _ => -((∑ i, (t i * Real.log (x i) + (1 - t i) * Real.log (1 - x i))) / Fintype.card ι)
/-- The same class: the backward function (gradients.py:1900-1923). -/
noncomputable def bceB (t x : ι → ℝ) (g : Unit → ℝ) : ι → ℝ := fun i => ((1 - x i)⁻¹ * (1 - t i) - (x i)⁻¹ * t i) / Fintype.card ι * g ()

/-- `AutogradBinaryCrossEntropyWithLogits` (gradients.py:1926-1951): the sigmoid is saved. -/
noncomputable def bceLogitsF (t x : ι → ℝ) : Unit → ℝ := bceF t (sigmoidF x)
/-- The same class: the backward function (gradients.py:1926-1951). -/
noncomputable def bceLogitsB (t sigmoidOut : ι → ℝ) (g : Unit → ℝ) : ι → ℝ := fun i => (sigmoidOut i - t i) / Fintype.card ι * g ()

/-- `AutogradRAPPORLoss` (gradients.py:1954-1998): what is called `pred_normalized`. -/
noncomputable def rapporPred (α : ℝ) (x : ι → ℝ) : ι → ℝ := fun i => if α = 0 then sigmoid (x i) else α * sigmoid (x i) + (1 - α) * (1 - sigmoid (x i))
/-- The same class: an intermediate value of it (gradients.py:1954-1998). -/
noncomputable def rapporCorrection (α : ℝ) (x : ι → ℝ) : ι → ℝ := fun i => sigmoid (x i) * (1 - sigmoid (x i)) * (rapporPred α x i * (1 - rapporPred α x i))⁻¹
/-- The same class: the forward function (gradients.py:1954-1998). -/
noncomputable def rapporF (α : ℝ) (t x : ι → ℝ) : Unit → ℝ := bceF t (rapporPred α x)
/-- The same class: the backward function (gradients.py:1954-1998). -/
noncomputable def rapporB (α : ℝ) (t pred correction : ι → ℝ) (g : Unit → ℝ) : ι → ℝ := fun i =>
  if α = 0 then (pred i - t i) / Fintype.card ι * g () else (pred i - t i) / Fintype.card ι * (2 * α - 1) * correction i * g ()

/-- `AutogradCrossEntropy` (gradients.py:2001-2033); rows `o : κ` of the batch, classes `ι`. -/
noncomputable def crossEntropyF (t x : κ × ι → ℝ) : Unit → ℝ := fun _ => (∑ p, -(Real.log (softmaxF x p) * t p)) / Fintype.card κ
/-- The same class: the backward function (gradients.py:2001-2033). -/
noncomputable def crossEntropyB (t softmax : κ × ι → ℝ) (g : Unit → ℝ) : κ × ι → ℝ := fun p => (softmax p - t p) / Fintype.card κ * g ()

/-! ## Batch normalisation -/

/-- `AutogradBatchNorm` in training mode (gradients.py:1750-1897) for one channel: `ι` are the positions over which the statistics are computed. The variance divides by their number
(`unbiased=True` in the code's convention, see C29). -/
noncomputable def bnMean (x : ι → ℝ) : ℝ := (∑ i, x i) / Fintype.card ι
/-- The same class: an intermediate value of it (gradients.py:1750-1897). -/
noncomputable def bnVar (x : ι → ℝ) : ℝ := (∑ i, (x i - bnMean x) ^ 2) / Fintype.card ι
/-- The same class: an intermediate value of it (gradients.py:1750-1897). -/
noncomputable def bnInv (ε : ℝ) (x : ι → ℝ) : ℝ := (Real.sqrt (bnVar x + ε))⁻¹
/-- The same class: an intermediate value of it (gradients.py:1750-1897). -/
noncomputable def bnNorm (ε : ℝ) (x : ι → ℝ) : ι → ℝ := fun i => (x i - bnMean x) * bnInv ε x
/-- The same class: the forward function (gradients.py:1750-1897). -/
noncomputable def batchnormF (ε w b : ℝ) (x : ι → ℝ) : ι → ℝ := fun i => bnNorm ε x i * w + b
/-- The same class: the backward function (gradients.py:1750-1897). -/
noncomputable def batchnormB (w inv : ℝ) (xNorm g : ι → ℝ) : ι → ℝ := fun i =>
  g i * w * inv + (∑ j, g j * w) * (inv / -(Fintype.card ι : ℝ)) + xNorm i * (∑ j, xNorm j * (g j * w)) * (inv / -(Fintype.card ι : ℝ))

/-- The gradients of weight and bias (gradients.py:1869-1871), for one channel. -/
def batchnormWeightB (xNorm g : ι → ℝ) : Unit → ℝ := fun _ => ∑ i, g i * xNorm i
/-- The same class: the gradient of the bias (gradients.py:1874). -/
def batchnormBiasB (g : ι → ℝ) : Unit → ℝ := fun _ => ∑ i, g i

/-- `AutogradBatchNorm.forward` for all channels `γ` and both modes (gradients.py:1750-1834): `running` is `none` in training mode, otherwise running mean and inverse standard deviation. The second and third components are `x_norm` and `inv_var`, saved for the backward pass. -/
noncomputable def bnForward {γ ι : Type} [Fintype ι] (ε : ℝ) (running : Option ((γ → ℝ) × (γ → ℝ))) (x : γ × ι → ℝ) (w b : γ → ℝ) : (γ × ι → ℝ) × (γ × ι → ℝ) × (γ → ℝ) :=
  let mean := match running with
    | none => fun c => bnMean fun p => x (c, p)
    | some r => r.1
  let inv := match running with
    | none => fun c => bnInv ε fun p => x (c, p)
    | some r => r.2
  (fun q => (x q - mean q.1) * inv q.1 * w q.1 + b q.1, fun q => (x q - mean q.1) * inv q.1, inv)

/-- `AutogradBatchNorm.backward` for all channels and both modes (gradients.py:1836-1897): the gradients of input, weight and bias. -/
noncomputable def bnBackward {γ ι : Type} [Fintype ι] (training : Bool) (xNorm : γ × ι → ℝ) (w inv : γ → ℝ) (g : γ × ι → ℝ) : (γ × ι → ℝ) × (γ → ℝ) × (γ → ℝ) :=
  let gradWeight := fun c => ∑ p, g (c, p) * xNorm (c, p)
  let gradBias := fun c => ∑ p, g (c, p)
  let go := fun q : γ × ι => g q * w q.1
  let gradInput := fun q : γ × ι => go q * inv q.1
  let gradMean := fun c => (∑ p, go (c, p)) * (inv c / -(Fintype.card ι : ℝ))
  let gradStd := fun q : γ × ι => xNorm q * (∑ p, xNorm (q.1, p) * go (q.1, p)) * (inv q.1 / -(Fintype.card ι : ℝ))
  (if training then fun q => gradInput q + gradMean q.1 + gradStd q else gradInput, gradWeight, gradBias)

/-! ## Copies of entries

`index_select`, `gather`, `take` and indexing return copies of entries: output entry `k` is input entry `σ k`. -/

/-- What the forward functions of `AutogradTake`, `AutogradIndexSelect`, `AutogradGather` and `AutogradGetItem` return (gradients.py:313, 339, 353, 460). -/
def copyF (σ : κ → ι) (x : ι → ℝ) : κ → ℝ := fun k => x (σ k)
/-- `zeros.index_add_(dim, index, grad)` (gradients.py:330, 345) and `zeros.scatter_add_(dim, index, grad)` (gradients.py:358). -/
def copyAddB [DecidableEq ι] (σ : κ → ι) (g : κ → ℝ) : ι → ℝ := fun i => ∑ k with σ k = i, g k
/-- `zeros[index] = grad` (gradients.py:318-324, 466-467): the entries are assigned one after the other, so that the last one wins. -/
def copyAssignB [DecidableEq ι] {m : ℕ} (σ : Fin m → ι) (g : Fin m → ℝ) : ι → ℝ := (List.finRange m).foldl (fun acc k => Function.update acc (σ k) (g k)) fun _ => 0

/-- `AutogradScatter` (gradients.py:361-376): entry `k` of `src` is written to position `τ k`. -/
noncomputable def scatterF [DecidableEq ι] (τ : κ → ι) (x : ι → ℝ) (src : κ → ℝ) : ι → ℝ := by
  classical exact fun i => if h : ∃ k, τ k = i then src h.choose else x i
/-- The same class: the backward function (gradients.py:369-376). -/
noncomputable def scatterB [DecidableEq ι] (τ : κ → ι) (g : ι → ℝ) : (ι → ℝ) × (κ → ℝ) := by
  classical exact (fun i => g i * if ∃ k, τ k = i then 0 else 1, fun k => g (τ k))

/-- `AutogradCosineSimilarity` (gradients.py:1007-1060) for two vectors of at least two entries: the saved tensors are the vectors and their inverse norms. -/
noncomputable def cosSimF (x y : ι → ℝ) : Unit → ℝ := fun _ => (∑ i, x i * y i) * ((Real.sqrt (∑ i, x i ^ 2))⁻¹ * (Real.sqrt (∑ i, y i ^ 2))⁻¹)
/-- The same class: the backward function (gradients.py:1048-1060). -/
noncomputable def cosSimB (x y : ι → ℝ) (nx ny : ℝ) (g : Unit → ℝ) : (ι → ℝ) × (ι → ℝ) :=
  (fun i => (y i - (∑ j, x j * y j) * (x i * nx ^ 2)) * (nx * ny) * g (), fun i => (x i - (∑ j, x j * y j) * (y i * ny ^ 2)) * (nx * ny) * g ())

/-! ## Shapes in the backward function of matmul -/

/-- The shape of `a.broadcast(b)` (torch), aligned from the right; the arguments are reversed shapes. -/
def broadcastRev : List ℕ → List ℕ → Option (List ℕ)
  | [], b => some b
  | a, [] => some a
  | m :: a, n :: b => if m = n ∨ n = 1 then (broadcastRev a b).map (m :: ·) else if m = 1 then (broadcastRev a b).map (n :: ·) else none

/-- The shape of `torch.matmul` for tensors of at least two dimensions; `none` is the RuntimeError. The arguments and the result are reversed shapes: columns first. -/
def matmulRev : List ℕ → List ℕ → Option (List ℕ)
  | k :: n :: a, m :: k' :: b => if k = k' then (broadcastRev a b).map fun c => m :: n :: c else none
  | _, _ => none

/-- `unsqueeze(dim)` on a shape. -/
def unsqueezeShape (s : List ℕ) (dim : ℕ) : List ℕ := s.insertIdx dim 1

/-- Swap of the last two dimensions, on a reversed shape (`transpose(-2, -1)`). -/
def transposeRev : List ℕ → List ℕ
  | a :: b :: s => b :: a :: s
  | s => s

/-- The shapes of the two products of `AutogradMatMul.backward` (gradients.py:745-757) for inputs and gradient of the given shapes; `none` if one of them raises. -/
def matmulBackwardShapes (self other grad : List ℕ) : Option (List ℕ × List ℕ) :=
  let (self', grad) := if self.length < 2 then (unsqueezeShape self 0, unsqueezeShape grad 0) else (self, grad)
  let (other', grad) := if other.length < 2 then (unsqueezeShape other 1, unsqueezeShape grad 1) else (other, grad)
  match matmulRev grad.reverse (transposeRev other'.reverse), matmulRev (transposeRev self'.reverse) grad.reverse with
  | some a, some b => some (a.reverse, b.reverse)
  | _, _ => none

end CrypTen.Grad

import Verif.Model.Training
import Verif.Spec.Backprop

/-!
# Training on exact numbers, and error bounds

The network is evaluated and differentiated exactly (`Spec/Backprop.lean`), the parameters are updated as SGD is documented (`Spec/Sgd.lean`).
-/

namespace CrypTen.Training
open Program (Nums set)
open Backprop (Tape values grads seed reach errs gradErrs Ordered SafeForward SafeBackward)
open Sgd (HyperS docStep errStep)
variable {n : ℕ} {sh : ℕ → Type}

/-- The parameters before training. -/
def start : List (Σ r, Fin n × (sh r → ℚ)) → Nums sh → Nums sh
  | [], W => W
  | ⟨r, _, x⟩ :: l, W => start l (set (α := fun ι => ι → ℚ) W r x)

/-- Parameters and velocities. -/
abbrev Exact (sh : ℕ → Type) : Type := Nums sh × ∀ r, Option (sh r → ℚ)

/-- The derivative of the result with respect to tensor `r`; `none` if the result does not depend on it. -/
def gradient (out : ℕ) (t : Tape n sh) (W : Nums sh) (r : ℕ) : Option (sh r → ℚ) := if reach t (fun q => decide (q = out)) r then some (grads (values W t) t (seed out) r) else none

/-- One iteration on exact numbers. -/
def exactStep (thr : Option ℚ) (h : HyperS) (ps : List ℕ) (out : ℕ) (t : Tape n sh) (s : Exact sh) : Exact sh :=
  (fun r => if r ∈ ps then (docStep thr h.exact (s.1 r, s.2 r) (gradient out t s.1 r)).1 else s.1 r, fun r => if r ∈ ps then (docStep thr h.exact (s.1 r, s.2 r) (gradient out t s.1 r)).2 else s.2 r)

/-- All iterations on exact numbers. -/
def exactTrain (thr : Option ℚ) (h : HyperS) (ps : List ℕ) (out : ℕ) : List (Tape n sh) → Exact sh → Exact sh
  | [], s => s
  | t :: ts, s => exactTrain thr h ps out ts (exactStep thr h ps out t s)

/-- Magnitudes: of the values and gradients on the tape (`M`, `K`), of the numbers in the updates (`B`). -/
structure Sizes where
  M : ℕ → ℚ
  K : ℕ → ℚ
  B : ℚ

/-- The error of the gradient of tensor `r`. -/
def gradientErr (n k : ℕ) (z : Sizes) (out : ℕ) (t : Tape n sh) (W : Nums sh) (P : ℕ → ℚ) (r : ℕ) : ℚ := gradErrs n k z.M (errs n k P z.M t) z.K (values W t) t (seed out) (fun _ => 0) r

/-- The errors of the parameters and velocities after an iteration. -/
def errNext (k : ℕ) (z : Sizes) (h : HyperS) (ps : List ℕ) (out : ℕ) (t : Tape n sh) (W : Nums sh) (e : ℕ → ℚ × Option ℚ) (r : ℕ) : ℚ × Option ℚ :=
  if r ∈ ps then errStep n k h z.B (e r) (if reach t (fun q => decide (q = out)) r then some (gradientErr n k z out t W (fun q => (e q).1) r) else none) else e r

/-- The errors after all iterations. -/
def errTrain (k : ℕ) (z : Sizes) (thr : Option ℚ) (h : HyperS) (ps : List ℕ) (out : ℕ) : List (Tape n sh) → Exact sh → (ℕ → ℚ × Option ℚ) → ℕ → ℚ × Option ℚ
  | [], _, e => e
  | t :: ts, s, e => errTrain k z thr h ps out ts (exactStep thr h ps out t s) (errNext k z h ps out t s.1 e)

/-- An iteration fits: the tape is in order and uses tensors that were encrypted before (`held`); nothing overflows and no operand of `relu` is within its error of 0, in the forward and backward passes of the exact computation;
the numbers of the exact updates stay below `z.B`, the errors below `E`, and no gradient is within its error of the threshold. -/
structure Fits (k : ℕ) (z : Sizes) (E : ℚ) (thr : Option ℚ) (h : HyperS) (held ps : List ℕ) (out : ℕ) (t : Tape n sh) (s : Exact sh) (e : ℕ → ℚ × Option ℚ) : Prop where
  ordered : Ordered t
  held : ∀ r, ⟨r, .param⟩ ∈ t → r ∈ held
  forward : SafeForward k (fun r => (e r).1) z.M s.1 t
  backward : SafeBackward k z.M (errs n k (fun r => (e r).1) z.M t) z.K (values s.1 t) t (seed out) fun _ => 0
  size : ∀ r ∈ ps, ∀ i, |s.1 r i| ≤ z.B
  error : ∀ r ∈ ps, (e r).1 ≤ E ∧ ∀ f, (e r).2 = some f → f ≤ E
  step : ∀ r ∈ ps, reach t (fun q => decide (q = out)) r = true →
    Sgd.StepFits n k thr h z.B E (s.1 r, s.2 r) (e r) (grads (values s.1 t) t (seed out) r) (gradientErr n k z out t s.1 (fun q => (e q).1) r) ∧
    Sgd.Clear n k thr (grads (values s.1 t) t (seed out) r) (gradientErr n k z out t s.1 (fun q => (e q).1) r)

/-- All iterations fit. -/
def TrainFits (k : ℕ) (z : Sizes) (E : ℚ) (thr : Option ℚ) (h : HyperS) (held ps : List ℕ) (out : ℕ) : List (Tape n sh) → Exact sh → (ℕ → ℚ × Option ℚ) → Prop
  | [], _, _ => True
  | t :: ts, s, e => Fits k z E thr h held ps out t s e ∧ TrainFits k z E thr h held ps out ts (exactStep thr h ps out t s) (errNext k z h ps out t s.1 e)

end CrypTen.Training

import Verif.Spec.Sgd
import Verif.Spec.Value
import Verif.Model.SgdShares

/-!
# Error bounds of SGD on shares

`errStep` bounds the deviation of a parameter and its velocity from the documented values (`Spec/Sgd.lean`) after one step, from the deviations
before it and that of the gradient. `M` bounds the magnitudes of the documented values; `1 / 2 ^ k` is the unit in the last place.
-/

namespace CrypTen.Sgd
variable {n : ℕ} {ι : Type}

/-- The documented parameters. -/
def HyperS.exact (h : HyperS) : Hyper := ⟨h.lr.val, h.momentum.val, h.dampening.val, h.weightDecay.val, h.nesterov⟩

/-- The direction of the documented step: `docStep` moves the parameter by `lr` times it. -/
def direction (thr : Option ℚ) (h : Hyper) (s : (ι → ℚ) × Option (ι → ℚ)) (g : ι → ℚ) : ι → ℚ :=
  let d := usedGradient thr h.weightDecay g s.1
  if h.momentum = 0 then d
  else fun i => if h.nesterov then d i + h.momentum * newVelocity h s.2 d i else newVelocity h s.2 d i

/-- Error of a product with a Python number, from the error `e` of the tensor: integers multiply exactly, floats are rounded and the product is
truncated. -/
def Scalar.err (n k : ℕ) (M e : ℚ) : Scalar → ℚ
  | .int z => e * |(z : ℚ)|
  | .float q => e * |q| + (M + e + n) / 2 ^ k

/-- Error of the gradient with the L2 penalty. -/
def errUsed (n k : ℕ) (h : HyperS) (M ep eg : ℚ) : ℚ := if h.weightDecay.val = 0 then eg else eg + h.weightDecay.err n k M ep

/-- Error of the velocity. -/
def errVelocity (n k : ℕ) (h : HyperS) (M : ℚ) (ev : Option ℚ) (ed : ℚ) : ℚ :=
  match ev with
  | none => ed
  | some e => h.momentum.err n k M e + h.dampening.oneSub.err n k M ed

/-- Error of the direction. -/
def errDirection (n k : ℕ) (h : HyperS) (M : ℚ) (ev : Option ℚ) (ed : ℚ) : ℚ :=
  if h.momentum.val = 0 then ed
  else if h.nesterov then ed + h.momentum.err n k M (errVelocity n k h M ev ed) else errVelocity n k h M ev ed

/-- Errors of the parameter and of the velocity after a step. -/
def errStep (n k : ℕ) (h : HyperS) (M : ℚ) (e : ℚ × Option ℚ) (eg : Option ℚ) : ℚ × Option ℚ :=
  match eg with
  | none => e
  | some eg =>
    let ed := errUsed n k h M e.1 eg
    (e.1 + h.lr.err n k M (errDirection n k h M e.2 ed), if h.momentum.val = 0 then e.2 else some (errVelocity n k h M e.2 ed))

/-- The documented numbers of a step stay below `M`, the errors below `E`. -/
structure StepFits (n k : ℕ) (thr : Option ℚ) (h : HyperS) (M E : ℚ) (s : (ι → ℚ) × Option (ι → ℚ)) (e : ℚ × Option ℚ) (g : ι → ℚ) (eg : ℚ) : Prop where
  grad : ∀ i, |g i| ≤ M
  decay : ∀ i, |s.1 i * h.weightDecay.val| ≤ M
  used : ∀ i, |usedGradient thr h.weightDecay.val g s.1 i| ≤ M
  share : ∀ i, |usedGradient thr h.weightDecay.val g s.1 i * (1 - h.dampening.val)| ≤ M
  old : ∀ v, s.2 = some v → ∀ i, |v i| ≤ M ∧ |v i * h.momentum.val| ≤ M
  new : ∀ i, |newVelocity h.exact s.2 (usedGradient thr h.weightDecay.val g s.1) i| ≤ M ∧
    |newVelocity h.exact s.2 (usedGradient thr h.weightDecay.val g s.1) i * h.momentum.val| ≤ M
  dir : ∀ i, |direction thr h.exact s g i| ≤ M ∧ |direction thr h.exact s g i * h.lr.val| ≤ M
  next : ∀ i, |(docStep thr h.exact s (some g)).1 i| ≤ M
  errGrad : 0 ≤ eg
  errUsed : errUsed n k h M e.1 eg ≤ E
  errNew : errVelocity n k h M e.2 (Sgd.errUsed n k h M e.1 eg) ≤ E
  errDir : errDirection n k h M e.2 (Sgd.errUsed n k h M e.1 eg) ≤ E
  errNext : (errStep n k h M e (some eg)).1 ≤ E

/-- No entry of the gradient is so close to the threshold that rounding could decide about it. -/
def Clear (n k : ℕ) (thr : Option ℚ) (g : ι → ℚ) (eg : ℚ) : Prop :=
  ∀ t, thr = some t → ∀ i, (|g i| + eg) ^ 2 ≤ t ^ 2 - (n + 1) / 2 ^ k ∨ (eg ≤ |g i| ∧ t ^ 2 + (n + 1) / 2 ^ k ≤ (|g i| - eg) ^ 2)

/-- All steps of a history fit. -/
def RunFits (n k : ℕ) (thr : Option ℚ) (h : HyperS) (M E : ℚ) : List (Option ((ι → ℚ) × ℚ)) → (ι → ℚ) × Option (ι → ℚ) → ℚ × Option ℚ → Prop
  | [], _, _ => True
  | none :: gs, s, e => RunFits n k thr h M E gs s e
  | some (g, eg) :: gs, s, e => StepFits n k thr h M E s e g eg ∧ Clear n k thr g eg ∧
      RunFits n k thr h M E gs (docStep thr h.exact s (some g)) (errStep n k h M e (some eg))

/-- Nothing overflows: magnitudes up to `M`, errors up to `E`, Python numbers up to `C`. -/
structure Room (n k : ℕ) (thr : Option ℚ) (h : HyperS) (M E C : ℚ) : Prop where
  magnitude : 0 ≤ M
  one : 1 ≤ C
  lr : |h.lr.val| ≤ C
  momentum : |h.momentum.val| ≤ C
  dampening : |1 - h.dampening.val| ≤ C
  weightDecay : |h.weightDecay.val| ≤ C
  product : 2 ^ k * 2 ^ k * ((M + E) * (C + 1 / 2 ^ k)) < 2 ^ 63
  scalar : 2 ^ k * C < 2 ^ 63
  threshold : ∀ t, thr = some t → 2 ^ k * 2 ^ k * ((M + E) ^ 2 + t ^ 2 + n) < 2 ^ 63

/-- An encrypted tensor holds the numbers `v` up to `e`, with the default encoding. -/
def Approx (k : ℕ) (x : AST n ι) (v : ι → ℚ) (e : ℚ) : Prop := x.scale = 2 ^ k ∧ ∀ i, |x.value i - v i| ≤ e

/-- The same for a parameter and its velocity. -/
def ApproxState (k : ℕ) (s : AST n ι × Option (AST n ι)) (d : (ι → ℚ) × Option (ι → ℚ)) (e : ℚ × Option ℚ) : Prop :=
  Approx k s.1 d.1 e.1 ∧
    match s.2, d.2, e.2 with
    | none, none, none => True
    | some b, some v, some f => Approx k b v f
    | _, _, _ => False

/-- The same for the gradients of a history. -/
def ApproxGrads (k : ℕ) : List (Option (AST n ι)) → List (Option ((ι → ℚ) × ℚ)) → Prop
  | [], [] => True
  | none :: xs, none :: gs => ApproxGrads k xs gs
  | some x :: xs, some (g, e) :: gs => Approx k x g e ∧ ApproxGrads k xs gs
  | _, _ => False

end CrypTen.Sgd

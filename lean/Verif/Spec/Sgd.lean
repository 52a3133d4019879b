import Verif.Model.Sgd
import Mathlib.Algebra.Order.AbsoluteValue.Basic
import Mathlib.Algebra.Order.BigOperators.Group.Finset

/-!
# SGD as documented

One parameter tensor, with its velocity (absent before the first use). Nothing here refers to the heap.
-/

namespace CrypTen.Sgd

/-- The gradient that is used: entries whose magnitude is not below the threshold are replaced by zero; then the L2 penalty is added. -/
def usedGradient (threshold : Option ℚ) (wd : ℚ) {κ : Type} (g p : κ → ℚ) : κ → ℚ := fun i =>
  (match threshold with
    | some t => if |g i| < |t| then g i else 0
    | none => g i) + wd * p i

/-- The new velocity: `v₁ = g₁` and `v_{t+1} = μ v_t + (1 − τ) g_{t+1}`. -/
def newVelocity (h : Hyper) {κ : Type} (v : Option (κ → ℚ)) (d : κ → ℚ) : κ → ℚ := fun i =>
  match v with
  | none => d i
  | some v => h.momentum * v i + (1 - h.dampening) * d i

/-- One documented step of one parameter: skipped without a gradient; plain descent without momentum; otherwise along the velocity, or along `g + μ v` for Nesterov. -/
def docStep (threshold : Option ℚ) (h : Hyper) {κ : Type} (pv : (κ → ℚ) × Option (κ → ℚ)) (g : Option (κ → ℚ)) : (κ → ℚ) × Option (κ → ℚ) :=
  match g with
  | none => pv
  | some g =>
    let d := usedGradient threshold h.weightDecay g pv.1
    if h.momentum = 0 then (fun i => pv.1 i - h.lr * d i, pv.2)
    else
      let v := newVelocity h pv.2 d
      (fun i => pv.1 i - h.lr * (if h.nesterov then d i + h.momentum * v i else v i), some v)

/-- The documented run over a history of gradients. -/
def docRun (threshold : Option ℚ) (h : Hyper) {κ : Type} (p : κ → ℚ) (gs : List (Option (κ → ℚ))) : (κ → ℚ) × Option (κ → ℚ) := gs.foldl (docStep threshold h) (p, none)

/-- What a user can see: the value of a parameter and of the velocity kept for it, and the gradient. -/
def State.view {κ : Type} (s : State κ) (p : ℕ) : (κ → ℚ) × Option (κ → ℚ) := (s.val p, (s.buf p).map s.val)

/-- The value of `p.grad`. -/
def State.gradient {κ : Type} (s : State κ) (p : ℕ) : Option (κ → ℚ) := (s.grad p).map s.val

/-- Objects are in order: parameters, gradients and velocities are allocated, no gradient or velocity is a parameter or a velocity of another parameter. Gradients may be shared between parameters. -/
structure Separate {κ : Type} (params : List ℕ) (s : State κ) : Prop where
  nodup : params.Nodup
  params_lt : ∀ p ∈ params, p < s.next
  grad_lt : ∀ p ∈ params, ∀ g, s.grad p = some g → g < s.next ∧ g ∉ params ∧ ∀ q ∈ params, s.buf q ≠ some g
  buf_lt : ∀ p ∈ params, ∀ b, s.buf p = some b → b < s.next ∧ b ∉ params
  buf_inj : ∀ p ∈ params, ∀ q ∈ params, ∀ b, s.buf p = some b → s.buf q = some b → p = q

/-- What may happen between two steps (zero_grad, forward, backward, anything else of the user): arbitrary new gradients, but no change of parameters and velocities. -/
def Between {κ : Type} (params : List ℕ) (s s' : State κ) : Prop := Separate params s' ∧ ∀ p ∈ params, s'.view p = s.view p

/-- A history of `k` rounds: the user's code, then a step. -/
def rounds {κ : Type} (thr2 : Option ℚ) (groups : List (Hyper × List ℕ)) (user : ℕ → State κ → State κ) (s : State κ) : ℕ → State κ
  | 0 => s
  | k + 1 => step thr2 groups (user k (rounds thr2 groups user s k))

end CrypTen.Sgd

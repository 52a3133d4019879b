import Verif.Model.CnnExample
import Verif.Spec.TrainPrivacy
import Verif.Spec.Training
import Mathlib.Analysis.Calculus.Deriv.Basic

/-!
# The network of the example, its loss, and gradient descent

The functions are written out for one image, in the rational or the real numbers, with the parameters `net`. Nothing here refers to tapes.
-/

namespace CrypTen.Cnn
variable {F : Type} [Field F] [LinearOrder F] {d : Dims}

/-- Pixel `(i, j)` of image `s`: party 0 holds the first `wa` columns, party 1 the others. -/
def pixel (xa : Fin d.S × Fin d.h × Fin d.wa → ℚ) (xb : Fin d.S × Fin d.h × Fin d.wb → ℚ) (s : Fin d.S) (i : Fin d.h) (j : Fin d.w) : ℚ :=
  if hj : j.val < d.wa then xa (s, i, ⟨j, hj⟩) else xb (s, i, ⟨j - d.wa, by have := j.isLt; simp only [Dims.w] at this; omega⟩)

/-- The convolution and its bias. -/
def convolved (net : Entry d → F) (x : Fin d.h → Fin d.w → F) (o : Fin d.O) (i : Fin d.oh) (j : Fin d.ow) : F :=
  (∑ u : Fin d.kh, ∑ v : Fin d.kw, x ⟨i + u, by have := i.isLt; have := u.isLt; simp only [Dims.oh] at *; omega⟩ ⟨j + v, by have := j.isLt; have := v.isLt; simp only [Dims.ow, Dims.w] at *; omega⟩ * net (.W1 (o, 0, u, v))) + net (.b1 o)

/-- `relu`, then the maximum of 2 × 2 values. -/
def pooled (net : Entry d → F) (x : Fin d.h → Fin d.w → F) (o : Fin d.O) (i : Fin d.ph) (j : Fin d.pw) : F :=
  let c (a b : Fin 2) := max (convolved net x o ⟨2 * i + a, by have h : i.val < d.oh / 2 := i.isLt; have := a.isLt; omega⟩ ⟨2 * j + b, by have h : j.val < d.ow / 2 := j.isLt; have := b.isLt; omega⟩) 0
  max (max (c 0 0) (c 0 1)) (max (c 1 0) (c 1 1))

/-- The position of a feature in `view(-1, O * ph * pw)`. -/
def feature (o : Fin d.O) (i : Fin d.ph) (j : Fin d.pw) : Fin d.m := ⟨(o * d.ph + i) * d.pw + j, by
  have h1 : o.val + 1 ≤ d.O := o.isLt
  have h2 : i.val + 1 ≤ d.ph := i.isLt
  have h3 : j.val + 1 ≤ d.pw := j.isLt
  calc (o.val * d.ph + i) * d.pw + j < (o.val * d.ph + i + 1) * d.pw := by rw [add_one_mul]; omega
    _ ≤ ((o.val + 1) * d.ph) * d.pw := Nat.mul_le_mul_right _ (by rw [add_one_mul]; omega)
    _ ≤ d.O * d.ph * d.pw := Nat.mul_le_mul_right _ (Nat.mul_le_mul_right _ h1)
    _ = d.O * (d.ph * d.pw) := mul_assoc _ _ _⟩

/-- The first linear layer, with `relu`. -/
def hidden (net : Entry d → F) (x : Fin d.h → Fin d.w → F) (a : Fin d.D) : F :=
  max ((∑ o, ∑ i, ∑ j, pooled net x o i j * net (.W2 (a, feature o i j))) + net (.b2 a)) 0

/-- The second linear layer: the output of the network. -/
def output (net : Entry d → F) (x : Fin d.h → Fin d.w → F) (c : Fin d.C) : F := (∑ a, hidden net x a * net (.W3 (c, a))) + net (.b3 c)

/-- Example `i` of batch `b`. -/
def row (b : Fin d.q) (i : Fin d.N) : Fin d.S := ⟨b * d.N + i, by
  have h1 : b.val + 1 ≤ d.q := b.isLt
  calc b.val * d.N + i < (b.val + 1) * d.N := by rw [add_one_mul]; have := i.isLt; omega
    _ ≤ d.q * d.N := Nat.mul_le_mul_right _ h1⟩

/-- The mean squared error of the network on batch `b` with the labels `y`. -/
def loss (xa : Fin d.S × Fin d.h × Fin d.wa → ℚ) (xb : Fin d.S × Fin d.h × Fin d.wb → ℚ) (b : Fin d.q) (y : Fin d.N × Fin d.C → ℚ) (net : Entry d → F) : F :=
  (∑ i : Fin d.N, ∑ c : Fin d.C, (output net (fun u v => (pixel xa xb (row b i) u v : F)) c - (y (i, c) : F)) ^ 2) / ((d.N * d.C : ℕ) : F)

/-- One step of gradient descent with respect to the loss `L`: every parameter moves against its partial derivative, unless that is not below the threshold. -/
def Descends (thr : Option ℚ) (lr : ℚ) (L : (Entry d → ℝ) → ℝ) (net net' : Entry d → ℚ) : Prop :=
  ∀ e, ∃ g : ℚ, HasDerivAt (fun x : ℝ => L (Function.update (fun e => (net e : ℝ)) e x)) (g : ℝ) (net e : ℝ) ∧
    net' e = net e - lr * match thr with
      | some t => if |g| < |t| then g else 0
      | none => g

/-- Plain SGD, as `update_parameters` performs it. -/
def hyper (lr : ℚ) : Sgd.HyperS := ⟨.float lr, .int 0, .int 0, .int 0, false⟩

/-- Where the parameters are held, and the shares. -/
def param {n : ℕ} (R : Program.Regs n (shape d)) : Entry d → ℚ
  | .W1 i => (R 2).value i
  | .b1 i => (R 3).value i
  | .W2 i => (R 4).value i
  | .b2 i => (R 5).value i
  | .W3 i => (R 6).value i
  | .b3 i => (R 7).value i

/-- The bound for the errors of a parameter tensor. -/
def Entry.bound (e : ℕ → ℚ) : Entry d → ℚ
  | .W1 _ => e 2
  | .b1 _ => e 3
  | .W2 _ => e 4
  | .b2 _ => e 5
  | .W3 _ => e 6
  | .b3 _ => e 7

end CrypTen.Cnn

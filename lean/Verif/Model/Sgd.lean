import Mathlib.Data.Rat.Defs
import Mathlib.Algebra.Order.Ring.Rat
import Verif.Model.Logic

/-!
# The SGD optimizer

Models `crypten.optim.SGD` (/repo/crypten/optim/sgd.py) as a program over a heap of tensor objects, so that in-place operations and aliasing are visible. Tensor values are exact rationals here: the
rounding of the fixed-point operations is the subject of other modules. The thresholding is also modelled as a protocol on shares, at the end of this file.
-/

namespace CrypTen.Sgd

/-- A parameter group's hyper-parameters (sgd.py:73-79, 107-111). -/
structure Hyper where
  lr : ℚ
  momentum : ℚ
  dampening : ℚ
  weightDecay : ℚ
  nesterov : Bool

/-- The constructor's checks on the values (sgd.py:64-81). -/
def Hyper.accepted (h : Hyper) : Prop := 0 ≤ h.lr ∧ 0 ≤ h.momentum ∧ 0 ≤ h.weightDecay ∧ (h.nesterov = true → 0 < h.momentum ∧ h.dampening = 0)

/-- The heap: every tensor object has an address. `grad` is the attribute `.grad` of an object, `buf` the entry `momentum_buffer` of `self.state[id(p)]`. -/
structure State (κ : Type) where
  val : ℕ → κ → ℚ
  next : ℕ
  grad : ℕ → Option ℕ
  buf : ℕ → Option ℕ

/-- A new object (the result of an out-of-place operation). -/
def State.alloc {κ : Type} (s : State κ) (v : κ → ℚ) : State κ × ℕ := ({ s with val := fun a => if a = s.next then v else s.val a, next := s.next + 1 }, s.next)

/-- An in-place operation on an object. -/
def State.write {κ : Type} (s : State κ) (a : ℕ) (v : κ → ℚ) : State κ := { s with val := fun b => if b = a then v else s.val b }

/-- `d_p = p.grad.mul(p.grad.square().lt(self.square_threshold))`, or the gradient object itself (sgd.py:118-121). -/
def threshold {κ : Type} (thr2 : Option ℚ) (s : State κ) (g : ℕ) : State κ × ℕ :=
  match thr2 with
  | some t => s.alloc fun i => s.val g i * if s.val g i * s.val g i < t then 1 else 0
  | none => (s, g)

/-- `if weight_decay != 0: d_p = d_p.add(p.mul(weight_decay))` (sgd.py:123-124). -/
def decay {κ : Type} (h : Hyper) (p : ℕ) (s : State κ) (d : ℕ) : State κ × ℕ :=
  if h.weightDecay ≠ 0 then s.alloc fun i => s.val d i + s.val p i * h.weightDecay else (s, d)

/-- The velocity: created from `d_p.clone().detach()` at the first use, later `buf.mul_(momentum).add_(d_p.mul(1 - dampening))`, two in-place operations (sgd.py:126-131). -/
def velocity {κ : Type} (h : Hyper) (p : ℕ) (s : State κ) (d : ℕ) : State κ × ℕ :=
  match s.buf p with
  | none => let (s, b) := s.alloc (s.val d); ({ s with buf := fun q => if q = p then some b else s.buf q }, b)
  | some b =>
    let s := s.write b fun i => s.val b i * h.momentum
    let s := s.write b fun i => s.val b i + s.val d i * (1 - h.dampening)
    (s, b)

/-- The momentum branch (sgd.py:125-135). -/
def momentumStep {κ : Type} (h : Hyper) (p : ℕ) (s : State κ) (d : ℕ) : State κ × ℕ :=
  if h.momentum ≠ 0 then
    let (s, b) := velocity h p s d
    if h.nesterov then s.alloc fun i => s.val d i + s.val b i * h.momentum else (s, b)
  else (s, d)

/-- The body of the loop for one parameter (sgd.py:113-137). -/
def stepParam {κ : Type} (thr2 : Option ℚ) (h : Hyper) (s : State κ) (p : ℕ) : State κ :=
  match s.grad p with
  | none => s
  | some g =>
    let (s, d) := threshold thr2 s g
    let (s, d) := decay h p s d
    let (s, d) := momentumStep h p s d
    s.write p fun i => s.val p i - s.val d i * h.lr

/-- `SGD.step` without closure (sgd.py:95-139). -/
def step {κ : Type} (thr2 : Option ℚ) (groups : List (Hyper × List ℕ)) (s : State κ) : State κ := groups.foldl (fun s gr => gr.2.foldl (stepParam thr2 gr.1) s) s

/-- `self.square_threshold` (sgd.py:84-86). -/
def squareThreshold (threshold : Option ℚ) : Option ℚ := threshold.map fun t => t * t

/-- `if param.grad is not None: param.grad -= param.grad`, in place (/repo/crypten/optim/optimizer.py:93-94). -/
def zeroInPlace {κ : Type} (s : State κ) (p : ℕ) : State κ :=
  match s.grad p with
  | some g => s.write g fun i => s.val g i - s.val g i
  | none => s

/-- `Optimizer.zero_grad()` (/repo/crypten/optim/optimizer.py:68-94): drop the gradients, or subtract each from itself in place. -/
def zeroGrad {κ : Type} (setToNone : Bool) (groups : List (Hyper × List ℕ)) (s : State κ) : State κ :=
  if setToNone then groups.foldl (fun s gr => gr.2.foldl (fun s p => { s with grad := fun q => if q = p then none else s.grad q }) s) s
  else groups.foldl (fun s gr => gr.2.foldl zeroInPlace s) s

/-- The body of the loop of `Module.update_parameters` (/repo/crypten/nn/module.py:328-346): `grad.mul_(learning_rate)` is in place. The check that an unencrypted model has no encrypted gradients is
left out. -/
def updateParam {κ : Type} (encrypted : Bool) (thr2 : Option ℚ) (lr : ℚ) (s : State κ) (p : ℕ) : State κ :=
  match s.grad p with
  | none => s
  | some g =>
    let (s, d) := if encrypted then threshold thr2 s g else (s, g)
    let s := s.write d fun i => s.val d i * lr
    s.write p fun i => s.val p i - s.val d i

/-- `Module.update_parameters(learning_rate, grad_threshold)` (/repo/crypten/nn/module.py:317-346). -/
def updateParameters {κ : Type} (encrypted : Bool) (gradThreshold : Option ℚ) (lr : ℚ) (params : List ℕ) (s : State κ) : State κ :=
  params.foldl (updateParam encrypted (squareThreshold gradThreshold) lr) s

/-- The thresholding on shares: `p.grad.mul(p.grad.square().lt(self.square_threshold))` (sgd.py:119). -/
def thresholdShares {n : ℕ} {ι : Type} [NeZero n] (D : ℕ) (thr2 : ℚ) (g : AST n ι) : Proto n (AST n ι) := do
  let sq ← g.square
  let mask ← sq.lt D (.pub fun _ => thr2)
  g.mul (elementwise ι) mask

end CrypTen.Sgd

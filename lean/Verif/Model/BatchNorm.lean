import Mathlib.Algebra.BigOperators.Field
import Mathlib.Algebra.BigOperators.Fin
import Mathlib.Data.Fintype.Card

/-!
# Batch normalisation as a module with state

Models `_BatchNorm`, the base class of `BatchNorm1d`, `BatchNorm2d` and `BatchNorm3d` (/repo/crypten/nn/module.py:2843-2938), the operations of `Module` on its parameters and buffers, the layer `BatchNormalization` (module.py:2780-2840), and `AutogradBatchNorm.forward` (/repo/crypten/gradients.py:1750-1834).

Entries are exact elements of a field `K`; `C` are the channels, `P` the positions over which statistics are taken (batch and spatial dimensions). `f v` stands for `1 / sqrt(v + eps)`, for encrypted and for plain tensors. A plain tensor may have different entries at different parties; when such a tensor takes part in a computation on encrypted tensors the result is meaningless, which is `none` here, like exceptions.
-/

namespace CrypTen.BatchNorm
variable {n : ℕ} [NeZero n] {C P K : Type}

/-- A parameter or a buffer of a layer: a torch tensor (each party has its own copy) or a CrypTensor. -/
inductive Val (n : ℕ) (C K : Type)
  | plain (v : Fin n → C → K)
  | enc (v : C → K)

/-- The entries that a computation sees (module.py:2869-2879): plain tensors have to agree at all parties. -/
noncomputable def Val.get : Val n C K → Option (C → K)
  | .plain v => open Classical in if ∀ p, v p = v 0 then some (v 0) else none
  | .enc v => some v

/-- An entry-wise function, in the clear or encrypted (module.py:2911, 2913). -/
def Val.map (f : K → K) : Val n C K → Val n C K
  | .plain v => .plain fun p c => f (v p c)
  | .enc v => .enc fun c => f (v c)

/-- The state of a `_BatchNorm` (module.py:2852-2867). -/
structure State (n : ℕ) (C K : Type) where
  training : Bool
  encrypted : Bool
  weight : Val n C K
  bias : Val n C K
  runningMean : Val n C K
  runningVar : Val n C K
  invVar : Option (Val n C K)

/-- `_BatchNorm.__init__` (module.py:2852-2867; modules start in training mode, module.py:23-33), with the parameters and buffers that are set afterwards by `from_onnx` (module.py:2897-2903). -/
def State.init (weight bias mean var : Fin n → C → K) : State n C K :=
  { training := true, encrypted := false, weight := .plain weight, bias := .plain bias, runningMean := .plain mean, runningVar := .plain var, invVar := none }

/-- `_BatchNorm.train` (module.py:2905-2914); `eval()` is `train(False)` (module.py:63-65). -/
def State.train (f : K → K) (mode : Bool) (s : State n C K) : State n C K :=
  { s with training := mode, invVar := if mode then none else some (s.runningVar.map f) }

/-- One parameter in `encrypt(mode, src)` (module.py:475-486): encrypting a CrypTensor and decrypting a torch tensor raise. -/
def encryptParam (mode : Bool) (src : Fin n) : Val n C K → Option (Val n C K)
  | .plain v => if mode then some (.enc (v src)) else none
  | .enc v => if mode then none else some (.plain fun _ => v)

/-- One buffer in `encrypt(mode, src)` (module.py:489-499). -/
def encryptBuffer (mode : Bool) (src : Fin n) : Val n C K → Val n C K
  | .plain v => if mode then .enc (v src) else .plain v
  | .enc v => .plain fun _ => v

/-- `Module.encrypt(mode, src)` (module.py:470-503): the attribute `inv_var` is neither a parameter nor a buffer. -/
def State.encrypt (mode : Bool) (src : Fin n) (s : State n C K) : Option (State n C K) :=
  if mode ≠ s.encrypted then
    (encryptParam mode src s.weight).bind fun w => (encryptParam mode src s.bias).map fun b =>
      { s with encrypted := mode, weight := w, bias := b, runningMean := encryptBuffer mode src s.runningMean, runningVar := encryptBuffer mode src s.runningVar }
  else some s

/-- The mean over the positions (gradients.py:1801). -/
def mean [Field K] [Fintype P] (x : C → P → K) (c : C) : K := (∑ p, x c p) / Fintype.card P

/-- `x.var(stats_dimensions, unbiased=True)` (gradients.py:1802, /repo/crypten/common/functions/regular.py:164-199): the divisor is decreased if `unbiased` is *not* set. -/
def var [Field K] [Fintype P] (x : C → P → K) (unbiased : Bool) (c : C) : K := (∑ p, (x c p - mean x c) * (x c p - mean x c)) / (if !unbiased then (Fintype.card P : K) - 1 else Fintype.card P)

/-- The running statistics after a batch (gradients.py:1803-1805): `set` exists for CrypTensors only. -/
def track [Field K] (momentum : K) (old : Val n C K) (new : C → K) : Option (Val n C K) :=
  match old with
  | .enc v => some (.enc fun c => v c * (1 - momentum) + new c * momentum)
  | .plain _ => none

/-- The arithmetic at the end of the forward function (gradients.py:1821-1834). -/
def apply [Field K] (x : C → P → K) (m inv w b : C → K) : C → P → K := fun c p => (x c p - m c) * inv c * w c + b c

/-- `AutogradBatchNorm.forward` (gradients.py:1750-1834): the output and the new running variance and mean. -/
noncomputable def batchnorm [Field K] [Fintype P] (f : K → K) (momentum : K) (x : C → P → K) (weight bias runningMean runningVar : Val n C K) (training : Bool) (invVar : Option (Val n C K)) :
    Option ((C → P → K) × Val n C K × Val n C K) :=
  if training then
    (track momentum runningVar (var x true)).bind fun rv => (track momentum runningMean (mean x)).bind fun rm =>
      weight.get.bind fun w => bias.get.map fun b => (apply x (mean x) (fun c => f (var x true c)) w b, rm, rv)
  else
    let inv := match invVar with
      | none => runningVar.map f
      | some v => v
    runningMean.get.bind fun m => inv.get.bind fun inv => weight.get.bind fun w => bias.get.map fun b => (apply x m inv w b, runningMean, runningVar)

/-- `_BatchNorm.forward` (module.py:2869-2879) on an encrypted input. -/
noncomputable def State.forward [Field K] [Fintype P] (f : K → K) (momentum : K) (x : C → P → K) (s : State n C K) : Option ((C → P → K) × State n C K) :=
  (batchnorm f momentum x s.weight s.bias s.runningMean s.runningVar s.training s.invVar).map fun r => (r.1, { s with runningMean := r.2.1, runningVar := r.2.2 })

/-- What a program can do with a layer: `train(mode)` / `eval()`, `encrypt(mode, src)` / `decrypt()`, `set_parameter` and `load_state_dict` (parameters only, module.py:231-277), `set_buffer`, `forward`. -/
inductive Op (n : ℕ) (C P K : Type)
  | train (mode : Bool)
  | encrypt (mode : Bool) (src : Fin n)
  | setWeight (v : Val n C K)
  | setBias (v : Val n C K)
  | setMean (v : Val n C K)
  | setVar (v : Val n C K)
  | forward (x : C → P → K)

/-- One operation (module.py:359-367 for `set_buffer`). -/
noncomputable def State.step [Field K] [Fintype P] (f : K → K) (momentum : K) (s : State n C K) : Op n C P K → Option (State n C K)
  | .train mode => some (s.train f mode)
  | .encrypt mode src => s.encrypt mode src
  | .setWeight v => some { s with weight := v }
  | .setBias v => some { s with bias := v }
  | .setMean v => some { s with runningMean := v }
  | .setVar v => some { s with runningVar := v }
  | .forward x => (s.forward f momentum x).map Prod.snd

/-- `BatchNormalization.forward` (module.py:2796-2823): `not self.train` is the negation of a method and so always false; `inv_var` is `None`. The second component tells whether the result is a tuple of five (training) or a single tensor. -/
noncomputable def onnxForward [Field K] [Fintype P] (f : K → K) (momentum : K) (training : Bool) (x : C → P → K) (weight bias runningMean runningVar : Val n C K) : Option ((C → P → K) × Bool × Val n C K × Val n C K) :=
  (batchnorm f momentum x weight bias runningMean runningVar training none).map fun r => (r.1, training, r.2)

/-- `BatchNormalization.from_onnx` (module.py:2833-2840): the momentum. -/
def onnxMomentum [Field K] (a : Option K) : K := 1 - a.getD (9 / 10)

end CrypTen.BatchNorm

import Verif.Model.Adaptive
import Verif.Model.ModuleHeap
import Verif.Model.Ring
import Mathlib.Logic.Function.Basic

/-!
# Moving models between devices

Models `to`, `cuda`, `cpu`, `set_parameter_from_shares`, `buffers` and `named_buffers` of `Module` (/repo/crypten/nn/module.py:140-163, 369-461) and `to`, `cuda`, `cpu`, `from_shares` of `MPCTensor`
(/repo/crypten/mpc/mpc.py:70-76, 102-172) on a heap of Python objects, as in `ModuleHeap`, but with buffers, devices and types of numbers. A tensor has one entry here: all functions treat the entries alike.
The heap holds the objects of all parties at once: all parties run the same program, so that the objects correspond, and only shares differ.
-/

namespace CrypTen.Moving
open Adaptive (roundEven exponent)

/-- Types of numbers: 64-bit integers, and floating point with `p` significant bits (24 for `torch.float32`, 53 for `torch.float64`). -/
inductive Dtype where
  | int64
  | float (p : ℕ)
  deriving DecidableEq

/-- The number with `p` significant bits nearest to `x` (IEEE 754, ties to even, no overflow, no subnormal numbers). -/
def roundBits (p : ℕ) (x : ℚ) : ℚ :=
  if x = 0 then 0
  else
    let u : ℚ := 2 ^ (exponent |x| - (p - 1))
    (if x < 0 then -1 else 1) * (roundEven (|x| / u) * u)

/-- Conversion to a type of numbers, as torch does it. -/
def Dtype.cast : Dtype → ℚ → ℚ
  | .int64, x => truncQ x
  | .float p, x => roundBits p x

/-- A torch tensor: its number, device (0 is the CPU, `i + 1` the GPU `cuda:i`) and type. -/
structure Data where
  value : ℚ
  device : ℕ
  dtype : Dtype
  deriving DecidableEq

/-- Arguments of `to`: a device, a type, or both. -/
structure Target where
  device : Option ℕ
  dtype : Option Dtype

/-- `torch.Tensor.to`. -/
def Data.to (d : Data) (t : Target) : Data :=
  { value := match t.dtype with
      | none => d.value
      | some ty => if ty = d.dtype then d.value else ty.cast d.value
    device := t.device.getD d.device
    dtype := t.dtype.getD d.dtype }

/-- A share: a torch tensor, in a `CUDALongTensor` or not. -/
structure Share where
  data : Data
  wrapped : Bool

/-- `MPCTensor.to` for one party (mpc.py:124-129; `CUDALongTensor.to` and its constructor, /repo/crypten/cuda/cuda_tensor.py:66-80, 130-134): off the CPU, a share that is not in a `CUDALongTensor` is converted to
integers and put into one. `cuda` and `cpu` (mpc.py:163-172) do the same with a device for argument. -/
def Share.to (s : Share) (t : Target) : Share :=
  let d := s.data.to t
  if d.device = 0 then ⟨d, false⟩
  else if s.wrapped then ⟨d, true⟩
  else ⟨{ d with value := Dtype.int64.cast d.value, dtype := .int64 }, true⟩

/-- A tensor is a torch tensor, or encrypted: the shares of all parties, and the scale. -/
inductive Kind (n : ℕ) where
  | torch (d : Data)
  | shared (s : Fin n → Share) (scale : ℕ)

/-- A tensor object. `leaf`: `backward` stores gradients in this tensor. `grad` refers to a tensor. -/
structure Tens (n : ℕ) where
  kind : Kind n
  requiresGrad : Bool
  leaf : Bool
  grad : Option ℕ

/-- A module object; tensors and modules are referred to by number. -/
structure Obj where
  params : List (String × ℕ)
  buffers : List (String × ℕ)
  children : List (String × ℕ)
  encrypted : Bool

/-- `_parameters` or `_buffers`. -/
def Obj.slots (o : Obj) (buffer : Bool) : List (String × ℕ) := if buffer then o.buffers else o.params

/-- All objects; tensors are allocated in the order of their numbers. -/
structure Heap (n : ℕ) where
  mods : ℕ → Obj
  tens : ℕ → Tens n
  next : ℕ

variable {n : ℕ}

/-- `set_parameter` and `set_buffer` (module.py:130-138, 358-367): entry `i` refers to the tensor `r` from now on. -/
def Heap.setSlot (h : Heap n) (m : ℕ) (buffer : Bool) (i r : ℕ) : Heap n :=
  let f := fun l : List (String × ℕ) => l.modify i fun q => (q.1, r)
  { h with mods := Function.update h.mods m (if buffer then { h.mods m with buffers := f (h.mods m).buffers } else { h.mods m with params := f (h.mods m).params }) }

/-- The types that can have gradients. -/
def Dtype.isFloat : Dtype → Bool
  | .int64 => false
  | .float _ => true

/-- `tensor.to(…)`: the heap afterwards, and the result. torch returns the tensor itself if there is nothing to do, and a new tensor otherwise, which is not a leaf if the old one requires a gradient. `MPCTensor.to`
changes the tensor and returns it (mpc.py:124-129). -/
def Heap.moveTensor (h : Heap n) (t : Target) (r : ℕ) : Heap n × ℕ :=
  match (h.tens r).kind with
  | .torch d =>
    if (d.to t).device = d.device ∧ (d.to t).dtype = d.dtype then (h, r)
    else
      let rg := (h.tens r).requiresGrad && (d.to t).dtype.isFloat
      ({ h with tens := Function.update h.tens h.next ⟨.torch (d.to t), rg, !rg, none⟩, next := h.next + 1 }, h.next)
  | .shared s scale => ({ h with tens := Function.update h.tens r { h.tens r with kind := .shared (fun p => (s p).to t) scale } }, r)

/-- One round of the loops in `to`, `cuda`, `cpu` (module.py:426-429, 443-446, 454-457). -/
def moveSlot (t : Target) (m : ℕ) (buffer : Bool) (h : Heap n) (i : ℕ) : Heap n :=
  match ((h.mods m).slots buffer)[i]? with
  | none => h
  | some q => (h.moveTensor t q.2).1.setSlot m buffer i (h.moveTensor t q.2).2

/-- The loops over the module's own parameters and buffers. -/
def moveOwn (t : Target) (h : Heap n) (m : ℕ) : Heap n :=
  let h := (List.range (h.mods m).params.length).foldl (moveSlot t m false) h
  (List.range (h.mods m).buffers.length).foldl (moveSlot t m true) h

/-- `children()` (module.py:67-88): a module that occurs again is dropped. -/
def children (h : Heap n) (m : ℕ) : List ℕ := ModuleHeap.childrenFrom [] (h.mods m).children

/-- `Module.to(device, dtype)` (module.py:404-433), for a depth of at most `fuel`. -/
def move (t : Target) : ℕ → Heap n → ℕ → Heap n
  | 0, h, _ => h
  | fuel + 1, h, m =>
    let h := moveOwn t h m
    (children h m).foldl (move t fuel) h

/-- `Module.cuda(device)` (module.py:435-450). -/
def cuda (device : ℕ) (fuel : ℕ) (h : Heap n) (m : ℕ) : Heap n := move ⟨some (device + 1), none⟩ fuel h m

/-- `Module.cpu()` (module.py:452-461). -/
def cpu (fuel : ℕ) (h : Heap n) (m : ℕ) : Heap n := move ⟨some 0, none⟩ fuel h m

/-- `named_buffers()` (module.py:381-402), without the names, for a depth of at most `fuel`. -/
def buffers : ℕ → Heap n → ℕ → List ℕ
  | 0, _, _ => []
  | fuel + 1, h, m => (h.mods m).buffers.map Prod.snd ++ (children h m).flatMap (buffers fuel h)

/-- `set_parameter_from_shares(name, share, precision=…)` (module.py:140-163; `MPCTensor.from_shares`, mpc.py:70-76): a new tensor from the parties' words. `none` is an exception: for a model that is not encrypted, a
name that is not that of a parameter, a parameter that is not encrypted, and the keyword argument `src` (documented at module.py:145-147), which `from_shares` does not have. -/
def setFromShares (h : Heap n) (m : ℕ) (name : String) (share : Fin n → Share) (precision : ℕ) (src : Option ℕ) : Option (Heap n) :=
  if (h.mods m).encrypted then
    match (h.mods m).params.findIdx? fun q => q.1 = name with
    | none => none
    | some i =>
      match (h.tens ((h.mods m).params.getD i ("", 0)).2).kind, src with
      | .shared _ _, none => some ({ h with tens := Function.update h.tens h.next ⟨.shared share (2 ^ precision), false, true, none⟩, next := h.next + 1 }.setSlot m false i h.next)
      | _, _ => none
  else none

end CrypTen.Moving

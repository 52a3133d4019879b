import Mathlib.Algebra.Order.Field.Rat
import Mathlib.Logic.Function.Basic

/-!
# Modules and parameters as objects

Models `named_children`, `named_parameters`, `train`, `encrypt` and `_apply` of `Module` (/repo/crypten/nn/module.py:52-80, 165-195, 463-503) and a plain step of `SGD` (/repo/crypten/optim/sgd.py:95-133, without momentum,
weight decay and threshold, which are C44) on a heap of Python objects: a module refers to its parameters and submodules by reference, so that both can be shared. Tensors carry exact numbers (the encoding error is C05).
Buffers are left out.
-/

namespace CrypTen.ModuleHeap

/-- A module object. Tensors and modules are referred to by number. -/
structure Obj where
  params : List (String × ℕ)
  children : List (String × ℕ)
  encrypted : Bool
  training : Bool

/-- A tensor object: a torch tensor, or a CrypTensor. -/
structure Tens where
  value : ℚ
  encrypted : Bool
  requiresGrad : Bool
  grad : Option ℚ

/-- All objects; tensors are allocated in the order of their numbers. -/
structure Heap where
  mods : ℕ → Obj
  tens : ℕ → Tens
  next : ℕ

/-- `named_children()` (module.py:75-88), without the names: the memo drops a module that occurs again. -/
def childrenFrom : List ℕ → List (String × ℕ) → List ℕ
  | _, [] => []
  | memo, (_, c) :: rest => if c ∈ memo then childrenFrom memo rest else c :: childrenFrom (c :: memo) rest

/-- `children()` (module.py:67-73). -/
def children (h : Heap) (m : ℕ) : List ℕ := childrenFrom [] (h.mods m).children

/-- `parameters()` (module.py:165-195), for a depth of at most `fuel`. -/
def parameters : ℕ → Heap → ℕ → List ℕ
  | 0, _, _ => []
  | fuel + 1, h, m => (h.mods m).params.map Prod.snd ++ (children h m).flatMap (parameters fuel h)

/-- `param.requires_grad = mode`. -/
def setRequiresGrad (mode : Bool) (h : Heap) (p : ℕ) : Heap := { h with tens := Function.update h.tens p { h.tens p with requiresGrad := mode } }

/-- `train(mode)` (module.py:52-61). -/
def train (mode : Bool) : ℕ → Heap → ℕ → Heap
  | 0, h, _ => h
  | fuel + 1, h, m =>
    let h := (parameters (fuel + 1) h m).foldl (setRequiresGrad mode) h
    let h := { h with mods := Function.update h.mods m { h.mods m with training := mode } }
    (children h m).foldl (train mode fuel) h

/-- The loop over the module's own parameters (module.py:475-487): for every name a new tensor, `cryptensor(param)` or `param.get_plain_text()`, with the same `requires_grad` and no gradient. -/
def encryptParams (mode : Bool) : List (String × ℕ) → Heap → List (String × ℕ) × Heap
  | [], h => ([], h)
  | (name, p) :: rest, h =>
    let new : Tens := ⟨(h.tens p).value, mode, (h.tens p).requiresGrad, none⟩
    let r := encryptParams mode rest { h with tens := Function.update h.tens h.next new, next := h.next + 1 }
    ((name, h.next) :: r.1, r.2)

/-- What `encrypt` does to the module itself (module.py:472-487). -/
def encryptOwn (mode : Bool) (h : Heap) (m : ℕ) : Heap :=
  let r := encryptParams mode (h.mods m).params h
  { r.2 with mods := Function.update h.mods m { h.mods m with params := r.1, encrypted := mode } }

mutual
/-- `encrypt(mode)` (module.py:470-503): a module whose flag has the value already is left alone, with all its submodules. -/
def encrypt (mode : Bool) : ℕ → Heap → ℕ → Heap
  | 0, h, _ => h
  | fuel + 1, h, m => if (h.mods m).encrypted = mode then h else applyEncrypt mode fuel (encryptOwn mode h m) m
/-- `_apply(lambda m: m.encrypt(mode))` (module.py:463-468). -/
def applyEncrypt (mode : Bool) : ℕ → Heap → ℕ → Heap
  | 0, h, _ => h
  | fuel + 1, h, m => encrypt mode fuel ((children h m).foldl (applyEncrypt mode fuel) h) m
end

/-- One parameter in `SGD.step()` (sgd.py:106-131). -/
def stepOne (lr : ℚ) (h : Heap) (p : ℕ) : Heap := match (h.tens p).grad with
  | none => h
  | some g => { h with tens := Function.update h.tens p { h.tens p with value := (h.tens p).value - lr * g } }

/-- `SGD(params, lr).step()` (sgd.py:95-133, optimizer.py:29-70): the parameters are those of the list given to the constructor, which may contain one several times. -/
def sgdStep (lr : ℚ) (params : List ℕ) (h : Heap) : Heap := params.foldl (stepOne lr) h

end CrypTen.ModuleHeap

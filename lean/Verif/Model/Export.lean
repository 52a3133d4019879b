import Mathlib.Data.List.Basic
import Mathlib.Data.List.Nodup
import Mathlib.Tactic.Common

/-!
# Conversion from and to PyTorch

Models `from_pytorch` (/repo/crypten/nn/onnx_converter.py:50-66), the creation of the parameter modules in `_to_crypten`
(onnx_converter.py:174-177), `_get_model_or_module` (onnx_converter.py:221-229) and `Graph.to_pytorch` (/repo/crypten/nn/module.py:748-758), with
`Module.encrypt` (module.py:470-503) and `Module.train` (module.py:52-61) as far as they concern parameters of a converted model.

Tensors are references to storages, so that sharing of memory is visible.  Simplifications: a storage holds a value of an
arbitrary type `α` (shapes and dtypes are part of the value); modules of the graph without parameters are left out; the
model is encrypted and decrypted as a whole; the exporter of torch is a parameter (the list of initializers it writes).
-/

namespace CrypTen.Export

/-- What `to_pytorch` can raise. -/
inductive Error
  /-- "CrypTen model must be decrypted before calling to_pytorch()" -/
  | valueError
  /-- `self._modules[name]` for a name that is not in the graph -/
  | keyError
  deriving DecidableEq, Repr

/-- A `torch.nn.Module`: its named parameters and buffers (each a reference to a storage) and the training flag (of
the root; those of submodules are not modelled). -/
structure Torch where
  /-- `named_parameters()`: name and storage -/
  params : List (String × ℕ)
  /-- `named_buffers()`: name and storage -/
  buffers : List (String × ℕ)
  /-- `training` -/
  training : Bool

/-- The tensor of a parameter of the CrypTen model (/repo/crypten/nn/module.py:934-951): plaintext, in a storage, or
encrypted, with the value it decrypts to. -/
inductive Data (α : Type)
  /-- a torch tensor -/
  | plain (storage : ℕ)
  /-- a CrypTensor -/
  | secret (value : α)

/-- The memory and the three models in it. -/
structure State (α : Type) where
  /-- contents of the storages -/
  store : ℕ → α
  /-- storages from here on are free -/
  next : ℕ
  /-- the model that was given to `from_pytorch` -/
  original : Torch
  /-- `crypten_model.pytorch_model`, the copy that `to_pytorch` returns -/
  kept : Torch
  /-- the `Parameter` modules of the CrypTen graph -/
  data : List (String × Data α)
  /-- `crypten_model.encrypted` -/
  encrypted : Bool
  /-- `crypten_model.training`; all modules of the graph have the same -/
  training : Bool

/-- A model with every storage moved up by `k`. -/
def Torch.moved (k : ℕ) (m : Torch) : Torch :=
  { m with params := m.params.map fun p => (p.1, p.2 + k), buffers := m.buffers.map fun p => (p.1, p.2 + k) }

/-- /repo/crypten/nn/onnx_converter.py:174-177: one `Parameter` module in a new storage for each initializer
(`torch.from_numpy`). -/
def addParameters {α : Type} : List (String × α) → (ℕ → α) → ℕ → (ℕ → α) × ℕ × List (String × Data α)
  | [], store, next => (store, next, [])
  | (name, v) :: rest, store, next =>
    let r := addParameters rest (fun i => if i = next then v else store i) (next + 1)
    (r.1, r.2.1, (name, .plain next) :: r.2.2)

/-- /repo/crypten/nn/onnx_converter.py:221-229 `_get_model_or_module`: `modules()` starts with the model itself, so its
length is one more than the number of the modules in the graph.  `graph` stands for the model, `modules` for what is in it. -/
def getModelOrModule {β : Type} (graph : β) (modules : List β) : β :=
  if (graph :: modules).length = 1 then (graph :: modules).headD graph else graph

/-- /repo/crypten/nn/onnx_converter.py:50-66 `from_pytorch`.  `initializers` is what the exporter wrote.  `copy.deepcopy`
copies all storages below `next` to new ones; `train(mode=pytorch_model.training)` sets the flag of all modules. -/
def fromPytorch {α : Type} (store : ℕ → α) (next : ℕ) (m : Torch) (initializers : List (String × α)) : State α :=
  let copied := fun i => if i < next then store i else store (i - next)
  let r := addParameters initializers copied (next + next)
  { store := r.1, next := r.2.1, original := m, kept := m.moved next, data := r.2.2, encrypted := false,
    training := m.training }

/-- `tensor.op_()`: the contents of a storage are changed. -/
def State.write {α : Type} (s : State α) (r : ℕ) (f : α → α) : State α :=
  { s with store := fun i => if i = r then f (s.store i) else s.store i }

/-- /repo/crypten/nn/module.py:477-483: encryption of each parameter; `round` is what encoding does to a value. -/
def encryptData {α : Type} (round : α → α) (store : ℕ → α) : List (String × Data α) → List (String × Data α)
  | [] => []
  | (name, .plain r) :: rest => (name, .secret (round (store r))) :: encryptData round store rest
  | (name, .secret v) :: rest => (name, .secret v) :: encryptData round store rest

/-- /repo/crypten/nn/module.py:484-486: decryption of each parameter into a new tensor. -/
def decryptData {α : Type} : List (String × Data α) → (ℕ → α) → ℕ → (ℕ → α) × ℕ × List (String × Data α)
  | [], store, next => (store, next, [])
  | (name, .secret v) :: rest, store, next =>
    let r := decryptData rest (fun i => if i = next then v else store i) (next + 1)
    (r.1, r.2.1, (name, .plain next) :: r.2.2)
  | (name, .plain q) :: rest, store, next =>
    let r := decryptData rest store next
    (r.1, r.2.1, (name, .plain q) :: r.2.2)

/-- /repo/crypten/nn/module.py:470-503 `encrypt(mode)` on the whole model: nothing if it already has the mode. -/
def State.encrypt {α : Type} (round : α → α) (mode : Bool) (s : State α) : State α :=
  if mode ≠ s.encrypted then
    if mode then { s with data := encryptData round s.store s.data, encrypted := true }
    else
      let r := decryptData s.data s.store s.next
      { s with store := r.1, next := r.2.1, data := r.2.2, encrypted := false }
  else s

/-- An in-place operation on an encrypted tensor. -/
def Data.apply {α : Type} (f : α → α) : Data α → Data α
  | .plain r => .plain r
  | .secret v => .secret (f v)

/-- An in-place update of the parameter `name` of the CrypTen model (a step of an optimizer, `load_state_dict`, running
statistics): the storage of a plaintext tensor, the value of an encrypted one.  Nothing if there is no such name. -/
def State.update {α : Type} (name : String) (f : α → α) (s : State α) : State α :=
  match s.data.lookup name with
  | none => s
  | some (.plain r) => s.write r f
  | some (.secret _) =>
    { s with data := s.data.map fun p => (p.1, if p.1 = name then p.2.apply f else p.2) }

/-- The user changes parameter or buffer `name` of a PyTorch model in place. -/
def State.changeTorch {α : Type} (m : Torch) (name : String) (f : α → α) (s : State α) : State α :=
  match (m.params ++ m.buffers).lookup name with
  | none => s
  | some r => s.write r f

/-- /repo/crypten/nn/module.py:755-757, the loop: `param.set_(self._modules[name].data)` makes the parameter refer to the
storage of the CrypTen tensor; stops at the first name that is missing.  Returns the parameters as they are afterwards. -/
def setParams {α : Type} (data : List (String × Data α)) : List (String × ℕ) → Except Error Unit × List (String × ℕ)
  | [] => (.ok (), [])
  | (name, r) :: rest =>
    match data.lookup name with
    | some (.plain q) => let t := setParams data rest; (t.1, (name, q) :: t.2)
    | some (.secret _) => (.error .valueError, (name, r) :: rest)
    | none => (.error .keyError, (name, r) :: rest)

/-- The PyTorch models a caller can hold. -/
inductive Obj
  /-- the argument of `from_pytorch` -/
  | original
  /-- the attribute `pytorch_model` -/
  | kept
  deriving DecidableEq, Repr

/-- The model behind a reference. -/
def State.torch {α : Type} (s : State α) : Obj → Torch
  | .original => s.original
  | .kept => s.kept

/-- /repo/crypten/nn/module.py:748-758 `to_pytorch`: result and state afterwards (the attribute `pytorch_model` exists
after `from_pytorch`, so the first check passes). -/
def State.toPytorch {α : Type} (s : State α) : Except Error Obj × State α :=
  if s.encrypted then (.error .valueError, s)
  else
    let r := setParams s.data s.kept.params
    (r.1.map fun _ => Obj.kept, { s with kept := { s.kept with params := r.2 } })

/-- What a program does with the models. -/
inductive Event (α : Type)
  /-- `model.encrypt()` -/
  | encrypt
  /-- `model.decrypt()` -/
  | decrypt
  /-- `model.train(mode)` -/
  | train (mode : Bool)
  /-- a parameter of the CrypTen model is updated in place -/
  | update (name : String) (f : α → α)
  /-- the model given to `from_pytorch` is changed in place -/
  | changeOriginal (name : String) (f : α → α)
  /-- the model returned by `to_pytorch` is changed in place -/
  | changeExported (name : String) (f : α → α)
  /-- `model.to_pytorch()` (an exception is caught by the caller) -/
  | export

/-- One event. -/
def step {α : Type} (round : α → α) (s : State α) : Event α → State α
  | .encrypt => s.encrypt round true
  | .decrypt => s.encrypt round false
  | .train mode => { s with training := mode }
  | .update name f => s.update name f
  | .changeOriginal name f => s.changeTorch s.original name f
  | .changeExported name f => s.changeTorch s.kept name f
  | .export => s.toPytorch.2

/-- A history. -/
def run {α : Type} (round : α → α) (s : State α) (es : List (Event α)) : State α :=
  es.foldl (step round) s

/-- The value a parameter of the CrypTen model has (decrypted). -/
def State.value {α : Type} (s : State α) (name : String) : Option α :=
  (s.data.lookup name).map fun
    | .plain r => s.store r
    | .secret v => v

/-- The value of a parameter of a PyTorch model. -/
def State.param {α : Type} (s : State α) (o : Obj) (name : String) : Option α :=
  ((s.torch o).params.lookup name).map s.store

/-- The value of a buffer of a PyTorch model. -/
def State.buffer {α : Type} (s : State α) (o : Obj) (name : String) : Option α :=
  ((s.torch o).buffers.lookup name).map s.store

end CrypTen.Export

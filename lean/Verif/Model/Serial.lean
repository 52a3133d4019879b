import Mathlib.Data.List.Basic
import Mathlib.Data.Nat.Notation
import Mathlib.Data.Int.Notation

/-!
# Restricted deserialisation and loading from a party

Models `RestrictedUnpickler` (/repo/crypten/common/serial.py) and `load_from_party` (/repo/crypten/__init__.py:286-365).
-/

namespace CrypTen.Serial

/-- A Python class or function that unpickling can resolve: found in the allow-list under its name, the restricted loader of torch storages, or a class of the user (two different classes can have the
same qualified name). -/
inductive Obj where
  | allowed (name : String)
  | safeLoadFromBytes
  | user (id : ℕ) (qualname : String)
deriving DecidableEq, Repr

/-- `__ALLOWLIST` (serial.py:46-95). -/
def allowlist : List String :=
  ["builtins.set", "collections.OrderedDict", "torch.nn.modules.activation.LogSigmoid", "torch.nn.modules.activation.LogSoftmax", "torch.nn.modules.activation.ReLU",
    "torch.nn.modules.activation.Sigmoid", "torch.nn.modules.activation.Softmax", "torch.nn.modules.batchnorm.BatchNorm1d", "torch.nn.modules.batchnorm.BatchNorm2d",
    "torch.nn.modules.batchnorm.BatchNorm3d", "torch.nn.modules.conv.Conv1d", "torch.nn.modules.conv.Conv2d", "torch.nn.modules.conv.ConvTranspose1d", "torch.nn.modules.conv.ConvTranspose2d",
    "torch.nn.modules.dropout.Dropout2d", "torch.nn.modules.dropout.Dropout3d", "torch.nn.modules.flatten.Flatten", "torch.nn.modules.linear.Linear", "torch.nn.modules.loss.BCELoss",
    "torch.nn.modules.loss.BCEWithLogitsLoss", "torch.nn.modules.loss.CrossEntropyLoss", "torch.nn.modules.loss.L1Loss", "torch.nn.modules.loss.MSELoss", "torch.nn.modules.pooling.AvgPool2d",
    "torch.nn.modules.pooling.MaxPool2d", "torch._utils._rebuild_parameter", "torch._utils._rebuild_tensor_v2", "torch.Size", "torch.BFloat16Storage", "torch.BoolStorage", "torch.CharStorage",
    "torch.ComplexDoubleStorage", "torch.ComplexFloatStorage", "torch.HalfStorage", "torch.IntStorage", "torch.LongStorage", "torch.QInt32Storage", "torch.QInt8Storage", "torch.QUInt8Storage",
    "torch.ShortStorage", "torch.storage._StorageBase", "torch.ByteStorage", "torch.DoubleStorage", "torch.FloatStorage", "torch._C.HalfStorageBase", "torch._C.QInt32StorageBase",
    "torch._C.QInt8StorageBase", "torch.storage._TypedStorage"]

/-- The name of the storage loader, which is mapped to a restricted replacement (serial.py:43-45). -/
def loadFromBytesName : String := "torch.storage._load_from_bytes"

/-- The dictionary `__SAFE_CLASSES`. -/
abbrev Registry := String → Option Obj

/-- `__SAFE_CLASSES[name] = obj`. -/
def Registry.insert (reg : Registry) (name : String) (o : Obj) : Registry := fun s => if s = name then some o else reg s

/-- The dictionary after the class body has run (serial.py:43-45, 97-105). `exists_` says which names this installation of torch has; the others are skipped. -/
def initialRegistry (exists_ : String → Bool) : Registry :=
  allowlist.foldl (fun reg item => if exists_ item then reg.insert item (.allowed item) else reg) (Registry.insert (fun _ => none) loadFromBytesName .safeLoadFromBytes)

/-- `register_safe_class(input_class)` for a class with the given identity and qualified name (serial.py:107-114). -/
def registerSafeClass (reg : Registry) (c : ℕ × String) : Registry := reg.insert c.2 (.user c.1 c.2)

/-- All registrations so far, in this order. -/
def registry (exists_ : String → Bool) (history : List (ℕ × String)) : Registry := history.foldl registerSafeClass (initialRegistry exists_)

/-- `find_class(module, name)` (serial.py:116-122); `none` is the ValueError. -/
def findClass (reg : Registry) (module name : String) : Option Obj := reg (module ++ "." ++ name)

/-! ## A pickle machine

Enough of the pickle protocol to say what a stream can make the unpickler call: constants, byte strings (a nested stream, for the storage loader), `GLOBAL`, `REDUCE`, tuples and `STOP`. -/

mutual
/-- Instructions of a stream. -/
inductive Instr where
  | const (n : ℕ)
  | bytes (stream : Stream)
  | global (module name : String)
  | tuple2
  | reduce
/-- A stream of instructions. -/
inductive Stream where
  | stop
  | cons (i : Instr) (rest : Stream)
end

/-- Values on the stack of the machine. -/
inductive PVal where
  | const (n : ℕ)
  | bytes (stream : Stream)
  | obj (o : Obj)
  | pair (a b : PVal)
  | called (o : Obj) (arg : PVal)

mutual
/-- Number of instructions, including nested streams (used as a bound for nested loading). -/
def Instr.size : Instr → ℕ
  | .bytes s => s.size + 1
  | _ => 1
/-- Number of instructions of a stream. -/
def Stream.size : Stream → ℕ
  | .stop => 1
  | .cons i rest => i.size + rest.size + 1
end

/-- Run a stream with the restricted unpickler: the result (`none` for any exception) and the objects that were called, in order. A call of the storage loader runs the nested stream with the
restricted unpickler again (serial.py:18-19, 152-163). `fuel` bounds the number of steps; the theorems hold for every bound. -/
def unpickle (reg : Registry) : ℕ → Stream → List PVal → Option PVal × List Obj
  | 0, _, _ => (none, [])
  | _ + 1, .stop, stack => (stack.head?, [])
  | fuel + 1, .cons i rest, stack =>
    match i, stack with
    | .const n, _ => unpickle reg fuel rest (.const n :: stack)
    | .bytes s, _ => unpickle reg fuel rest (.bytes s :: stack)
    | .global m n, _ =>
      match findClass reg m n with
      | some o => unpickle reg fuel rest (.obj o :: stack)
      | none => (none, [])
    | .tuple2, b :: a :: stack => unpickle reg fuel rest (.pair a b :: stack)
    | .reduce, arg :: .obj o :: stack =>
      match o, arg with
      | .safeLoadFromBytes, .bytes s =>
        match unpickle reg fuel s [] with
        | (some v, called) => let (r, called') := unpickle reg fuel rest (v :: stack); (r, o :: called ++ called')
        | (none, called) => (none, o :: called)
      | _, _ => let (r, called) := unpickle reg fuel rest (.called o arg :: stack); (r, o :: called)
    | _, _ => (none, [])

/-! ## load_from_party -/

/-- A torch tensor: shape and entries. -/
structure Tensor where
  shape : List ℕ
  entries : List ℤ
deriving DecidableEq, Repr

/-- A torch module: class name, named parameters, named buffers, named children. -/
inductive Module where
  | mk (cls : String) (parameters buffers : List (String × Tensor)) (children : List (String × Module))

/-- What can be loaded: a tensor, a module, or anything else. -/
inductive Loaded where
  | tensor (t : Tensor)
  | module (m : Module)
  | other

/-- `result.new_zeros(result.size())` (crypten/__init__.py:338), and `p.data.fill_(0)` (crypten/__init__.py:342). -/
def Tensor.zeros (t : Tensor) : Tensor := { t with entries := List.replicate t.entries.length 0 }

mutual
/-- `copy.deepcopy(result)`, then `p.data.fill_(0)` for every parameter of the module and its descendants (crypten/__init__.py:340-342). Buffers are copied as they are. -/
def Module.zeroParameters : Module → Module
  | .mk cls ps bs cs => .mk cls (ps.map fun p => (p.1, p.2.zeros)) bs (zeroChildren cs)
/-- The same for the children of a module (`parameters()` is recursive). -/
def zeroChildren : List (String × Module) → List (String × Module)
  | [] => []
  | (n, m) :: cs => (n, m.zeroParameters) :: zeroChildren cs
end

/-- The object the source broadcasts in `load_from_party` (crypten/__init__.py:336-347); `other` is the code −1 for an unsupported type. -/
def broadcastMessage : Loaded → Loaded
  | .tensor t => .tensor t.zeros
  | .module m => .module m.zeroParameters
  | .other => .other

end CrypTen.Serial

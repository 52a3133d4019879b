import Mathlib.Data.List.Basic

/-!
# The registry of encrypted tensor types

`register_cryptensor`, `set_default_cryptensor_type`, `get_default_cryptensor_type`, `get_cryptensor_type`, `cryptensor`, `rand`, `randn`, and the choice of the class in `cat` and
`stack` (/repo/crypten/__init__.py:104-158, 450-505, /repo/crypten/cryptensor.py:59-91). Classes are names with a list of ancestors (`C.__mro__` without `object`); tensors are objects
with a class.
-/

namespace CrypTen.Registry

/-- A Python class: its name and the classes it inherits from, itself first. -/
structure Cls where
  name : String
  mro : List String
  deriving DecidableEq

/-- `issubclass(c, d)`. -/
def Cls.sub (c d : Cls) : Bool := c.mro.contains d.name

/-- `issubclass(cls, CrypTensor)` (cryptensor.py:83). -/
def Cls.isCrypTensor (c : Cls) : Bool := c.mro.contains "CrypTensor"

/-- `__CRYPTENSOR_TYPES__` in the order of insertion and `__DEFAULT_CRYPTENSOR_TYPE__` (cryptensor.py:59-60). -/
structure State where
  types : List (String × Cls)
  default : String
  deriving DecidableEq

/-- `CrypTensor.__CRYPTENSOR_TYPES__[name]`. -/
def State.find (s : State) (name : String) : Option Cls := s.types.lookup name

/-- `MPCTensor` (mpc/mpc.py:22-23). -/
def mpcCls : Cls := ⟨"MPCTensor", ["MPCTensor", "CrypTensor"]⟩

/-- After `import crypten` (cryptensor.py:59-60, mpc/mpc.py:22). -/
def State.init : State := ⟨[("mpc", mpcCls)], "mpc"⟩

/-- `register_cryptensor(name)(cls)` (cryptensor.py:77-91, __init__.py:104-117); `none` is ValueError. -/
def register (name : String) (c : Cls) (s : State) : Option State :=
  if (s.find name).isSome then none
  else if ¬c.isCrypTensor then none
  else some { s with types := s.types ++ [(name, c)] }

/-- `set_default_cryptensor_type(name)` (__init__.py:120-124). -/
def setDefault (name : String) (s : State) : Option State :=
  if name ∈ s.types.map Prod.fst then some { s with default := name } else none

/-- `get_default_cryptensor_type()` (__init__.py:127-129). -/
def getDefault (s : State) : String := s.default

/-- The class that `cryptensor(…, cryptensor_type=t)`, `rand` and `randn` use (__init__.py:144-158, 483-505); `none` is ValueError or KeyError. -/
def create (t : Option String) (s : State) : Option Cls := s.find (t.getD (getDefault s))

/-- `get_cryptensor_type(tensor)` for a tensor of class `c` (__init__.py:132-141): the first registered class it is an instance of. -/
def getType (c : Cls) (s : State) : Option String :=
  if c.isCrypTensor then (s.types.find? fun e => c.sub e.2).map Prod.fst else none

/-- The class whose `cat` (`stack`) does the work for encrypted tensors of these classes (__init__.py:450-480); `none` is AssertionError or ValueError. One tensor is returned as it is
(`unsqueeze` keeps the class, too). An empty list is refused (by `torch.cat` or by the subscript `tensors[0]`). -/
def joinCls (cs : List Cls) (s : State) : Option Cls := do
  let ts ← cs.mapM fun c => getType c s
  let t ← ts.head?
  if ts.all (· = t) then cs.head? else none

/-- What a program does to the registry. -/
inductive Call
  | register (name : String) (c : Cls)
  | setDefault (name : String)

/-- One call; if it raises, the state is as before (the exception is caught). -/
def step (s : State) : Call → State
  | .register n c => (register n c s).getD s
  | .setDefault n => (setDefault n s).getD s

/-- A history of calls after `import crypten`. -/
def run (h : List Call) : State := h.foldl step State.init

end CrypTen.Registry

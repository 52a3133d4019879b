import Mathlib.Data.List.Basic
import Mathlib.Data.List.Range
import Mathlib.Data.List.Nodup

/-!
# Attributes of modules, lists and dictionaries of modules

/repo/crypten/nn/module.py, class `Module` (attribute access, registration), `ModuleList`, `ModuleDict`. Objects are numbers. A call that raises returns the state it leaves behind together with the exception.
-/

namespace CrypTen.Attr

/-- A Python value: `None`, a `Module`, or anything else (tensors, numbers, …). -/
inductive Val where
  | none
  | module (i : ℕ)
  | plain (i : ℕ)
deriving DecidableEq, Repr

/-- Exceptions. -/
inductive Err where
  | attributeError | typeError | valueError | assertionError | keyError | indexError
deriving DecidableEq, Repr

/-- `OrderedDict` (and `dict`) with string keys. -/
abbrev OD (α : Type) := List (String × α)

/-- `d[k] = v`: the position of an existing key is kept. -/
def OD.set {α : Type} (k : String) (v : α) : OD α → OD α
  | [] => [(k, v)]
  | (k', v') :: d => if k' = k then (k, v) :: d else (k', v') :: OD.set k v d

/-- `del d[k]` for a key that may be missing. -/
def OD.del {α : Type} (k : String) (d : OD α) : OD α := d.filter (·.1 ≠ k)

/-- `d.keys()` -/
def OD.keys {α : Type} (d : OD α) : List String := d.map Prod.fst

/-- `d.values()` -/
def OD.values {α : Type} (d : OD α) : List α := d.map Prod.snd

/-- A module: its `__dict__` (without the three dictionaries that follow), `_parameters`, `_buffers`, `_modules` (/repo/crypten/nn/module.py:27-32). Assigning to the names `_parameters`, `_buffers`, `_modules`
themselves is not modelled. -/
structure Obj where
  dict : OD Val
  parameters : OD Val
  buffers : OD Val
  modules : OD Val
deriving DecidableEq, Repr

/-- What a call leaves behind, and the exception it raised. -/
abbrev Out := Obj × Option Err

/-- Sequencing: stops at the first exception. -/
def Out.andThen (r : Out) (f : Obj → Out) : Out :=
  match r with
  | (o, Option.none) => f o
  | (o, some e) => (o, some e)

/-- `Module.__init__` (/repo/crypten/nn/module.py:27-32): `encrypted = False`, `training = True`. -/
def new : Obj := ⟨[("encrypted", .plain 0), ("training", .plain 1)], [], [], []⟩

/-- What reading an attribute gives: something of the class (a method, a class variable), or a value. -/
inductive Got where
  | ofClass
  | val (v : Val)
deriving DecidableEq, Repr

/-- Reading `m.name` (/repo/crypten/nn/module.py:509-550): `object.__getattribute__` looks in `__dict__`, then in the class; `__getattr__` in the parameters, the modules, the buffers. `cls` tells which names the class
defines (methods and class variables; properties are not modelled). -/
def getattr (cls : String → Bool) (name : String) (o : Obj) : Except Err Got :=
  match o.dict.lookup name with
  | some v => .ok (.val v)
  | none =>
    if cls name then .ok .ofClass
    else
      match o.parameters.lookup name with
      | some v => .ok (.val v)
      | none =>
        match o.modules.lookup name with
        | some v => .ok (.val v)
        | none =>
          match o.buffers.lookup name with
          | some v => .ok (.val v)
          | none => .error .attributeError

/-- `hasattr(m, name)` -/
def hasattr (cls : String → Bool) (name : String) (o : Obj) : Bool :=
  match getattr cls name o with
  | .ok _ => true
  | .error _ => false

/-- `m.name = value` (/repo/crypten/nn/module.py:555-586). The case `_modules` of the last loop (line 582) cannot occur: it was handled before. -/
def setattr (name : String) (value : Val) (o : Obj) : Out :=
  match value with
  | .module i => (⟨o.dict.del name, o.parameters.del name, o.buffers.del name, o.modules.set name (.module i)⟩, none)
  | value =>
    if name ∈ o.modules.keys then
      if value = .none then ({ o with modules := o.modules.set name .none }, none)
      else (o, some .typeError)
    else if name ∈ o.parameters.keys then ({ o with parameters := o.parameters.set name value }, none)
    else if name ∈ o.buffers.keys then ({ o with buffers := o.buffers.set name value }, none)
    else ({ o with dict := o.dict.set name value }, none)

/-- `del m.name`: the class defines no `__delattr__`, so `object.__delattr__`, which looks in `__dict__` only. -/
def delattr (name : String) (o : Obj) : Out :=
  if name ∈ o.dict.keys then ({ o with dict := o.dict.del name }, none) else (o, some .attributeError)

/-- `register_parameter` (/repo/crypten/nn/module.py:119-128). `None` has no attribute `requires_grad`. The flag itself is modelled elsewhere (`ModuleHeap`). -/
def registerParameter (cls : String → Bool) (name : String) (param : Val) (o : Obj) : Out :=
  if name ∈ o.parameters.keys ∨ hasattr cls name o then (o, some .valueError)
  else if param = .none then (o, some .attributeError)
  else setattr name param { o with parameters := o.parameters.set name param }

/-- `set_parameter` (/repo/crypten/nn/module.py:130-138) -/
def setParameter (cls : String → Bool) (name : String) (param : Val) (o : Obj) : Out :=
  if name ∉ o.parameters.keys ∨ ¬hasattr cls name o then (o, some .valueError)
  else setattr name param { o with parameters := o.parameters.set name param }

/-- `register_buffer` (/repo/crypten/nn/module.py:348-357) -/
def registerBuffer (cls : String → Bool) (name : String) (buffer : Val) (o : Obj) : Out :=
  if name ∈ o.buffers.keys ∨ hasattr cls name o then (o, some .valueError)
  else if buffer = .none then (o, some .attributeError)
  else setattr name buffer { o with buffers := o.buffers.set name buffer }

/-- `set_buffer` (/repo/crypten/nn/module.py:359-367) -/
def setBuffer (cls : String → Bool) (name : String) (buffer : Val) (o : Obj) : Out :=
  if name ∉ o.buffers.keys ∨ ¬hasattr cls name o then (o, some .valueError)
  else setattr name buffer { o with buffers := o.buffers.set name buffer }

/-- `register_module` (/repo/crypten/nn/module.py:91-93) -/
def registerModule (name : String) (module : Val) (o : Obj) : Out := ({ o with modules := o.modules.set name module }, none)

/-- `add_module` (/repo/crypten/nn/module.py:588-591) -/
def addModule (name : String) (module : Val) (o : Obj) : Out :=
  if name ∈ o.modules.keys then (o, some .assertionError) else registerModule name module o

/-- `named_parameters(recurse=False)` (/repo/crypten/nn/module.py:190-193) -/
def namedParameters (o : Obj) : List (String × Val) := o.parameters

/-- `named_buffers(recurse=False)` (/repo/crypten/nn/module.py:395-398) -/
def namedBuffers (o : Obj) : List (String × Val) := o.buffers

/-- `named_children()` (/repo/crypten/nn/module.py:85-89): without `None` and without repetitions. -/
def namedChildrenFrom (memo : List Val) : List (String × Val) → List (String × Val)
  | [] => []
  | (name, v) :: rest => if v ≠ .none ∧ v ∉ memo then (name, v) :: namedChildrenFrom (v :: memo) rest else namedChildrenFrom memo rest

/-- `named_children()` -/
def namedChildren (o : Obj) : List (String × Val) := namedChildrenFrom [] o.modules

/-- The calls on a module. -/
inductive Call where
  | set (name : String) (v : Val)
  | del (name : String)
  | registerParameter (name : String) (v : Val)
  | setParameter (name : String) (v : Val)
  | registerBuffer (name : String) (v : Val)
  | setBuffer (name : String) (v : Val)
  | registerModule (name : String) (v : Val)
  | addModule (name : String) (v : Val)
deriving DecidableEq, Repr

/-- One call. -/
def call (cls : String → Bool) (o : Obj) : Call → Out
  | .set name v => setattr name v o
  | .del name => delattr name o
  | .registerParameter name v => registerParameter cls name v o
  | .setParameter name v => setParameter cls name v o
  | .registerBuffer name v => registerBuffer cls name v o
  | .setBuffer name v => setBuffer cls name v o
  | .registerModule name v => registerModule name v o
  | .addModule name v => addModule name v o

/-- A history of calls on one object, and what each raised; exceptions are caught by the caller. -/
def calls (cls : String → Bool) : Obj → List Call → Obj × List (Option Err)
  | o, [] => (o, [])
  | o, c :: cs =>
    let r := call cls o c
    let rest := calls cls r.1 cs
    (rest.1, r.2 :: rest.2)

/-! ### Lists of modules -/

/-- `torch.nn.ModuleList._get_abs_string_index`: a position as Python counts them, as a string (installed in /repo/crypten/nn/module.py:836-852). -/
def absIndex (o : Obj) (idx : ℤ) : Except Err String :=
  if ¬(-(o.modules.length : ℤ) ≤ idx ∧ idx < o.modules.length) then .error .indexError
  else if idx < 0 then .ok (toString (idx + o.modules.length).toNat)
  else .ok (toString idx.toNat)

/-- `torch.nn.ModuleList.extend`, also `__iadd__` (/repo/crypten/nn/module.py:836-852): `add_module(str(offset + i), module)` for all modules. -/
def listExtend (offset : ℕ) : List Val → Obj → Out
  | [], o => (o, none)
  | m :: ms, o => (addModule (toString offset) m o).andThen (listExtend (offset + 1) ms)

/-- `ModuleList.__init__` (/repo/crypten/nn/module.py:815-818) -/
def listNew (ms : List Val) : Out := listExtend 0 ms new

/-- `torch.nn.ModuleList.append` -/
def listAppend (m : Val) (o : Obj) : Out := addModule (toString o.modules.length) m o

/-- `torch.nn.ModuleList.__setitem__`: `setattr(self, str(idx), module)` -/
def listSet (idx : ℤ) (m : Val) (o : Obj) : Out :=
  match absIndex o idx with
  | .error e => (o, some e)
  | .ok name => setattr name m o

/-- `torch.nn.ModuleList.__getitem__` for one position. -/
def listGet (idx : ℤ) (o : Obj) : Except Err Val :=
  match absIndex o idx with
  | .error e => .error e
  | .ok name =>
    match o.modules.lookup name with
    | some v => .ok v
    | none => .error .keyError

/-- The loop of `torch.nn.ModuleList.insert`: `for i in range(len, index, -1): self._modules[str(i)] = self._modules[str(i - 1)]`; the first argument is the number of rounds left. -/
def listShift (index : ℕ) : ℕ → OD Val → OD Val
  | 0, d => d
  | k + 1, d =>
    match d.lookup (toString (index + k)) with
    | some v => listShift index k (d.set (toString (index + k + 1)) v)
    | none => d

/-- `torch.nn.ModuleList.insert` for `0 ≤ index ≤ len`; torch does not treat other positions as Python lists do (not modelled). -/
def listInsert (index : ℕ) (m : Val) (o : Obj) : Out :=
  if index ≤ o.modules.length then
    let d := listShift index (o.modules.length - index) o.modules
    ({ o with modules := d.set (toString index) m }, none)
  else (o, some .indexError)

/-- The renumbering at the end of `__delitem__` (/repo/crypten/nn/module.py:831-832). -/
def renumber (d : OD Val) : OD Val := ((List.range d.length).map fun i => toString i).zip d.values

/-- `del l[idx]` (/repo/crypten/nn/module.py:825-832) -/
def listDel (idx : ℤ) (o : Obj) : Out :=
  match absIndex o idx with
  | .error e => (o, some e)
  | .ok name => ({ o with modules := renumber (o.modules.del name) }, none)

/-- `del l[a:b:c]` (/repo/crypten/nn/module.py:825-832); the first argument is `range(len(l))[a:b:c]`. -/
def listDelSlice (positions : List ℕ) (o : Obj) : Out := ({ o with modules := renumber (positions.foldl (fun d k => d.del (toString k)) o.modules) }, none)

/-- The calls on a `ModuleList`. -/
inductive ListCall where
  | append (m : Val)
  | extend (ms : List Val)
  | set (idx : ℤ) (m : Val)
  | insert (index : ℕ) (m : Val)
  | del (idx : ℤ)
  | delSlice (start stop step : ℕ)
deriving DecidableEq, Repr

/-- `range(len)[start:stop:step]` for non-negative bounds and a positive step. -/
def sliceRange (len start stop step : ℕ) : List ℕ := (List.range (min stop len)).filter fun k => start ≤ k ∧ (k - start) % step = 0

/-- One call. -/
def listCall (o : Obj) : ListCall → Out
  | .append m => listAppend m o
  | .extend ms => listExtend o.modules.length ms o
  | .set idx m => listSet idx m o
  | .insert index m => listInsert index m o
  | .del idx => listDel idx o
  | .delSlice start stop step => listDelSlice (sliceRange o.modules.length start stop step) o

/-- A history of calls on a `ModuleList`. -/
def listCalls : Obj → List ListCall → Obj × List (Option Err)
  | o, [] => (o, [])
  | o, c :: cs =>
    let r := listCall o c
    let rest := listCalls r.1 cs
    (rest.1, r.2 :: rest.2)

/-- `iter(l)`, `list(l)` -/
def listValues (o : Obj) : List Val := o.modules.values

/-! ### Dictionaries of modules -/

/-- `torch.nn.ModuleDict.__setitem__`: `self.add_module(key, module)` (/repo/crypten/nn/module.py:902-921). -/
def dictSet (key : String) (m : Val) (o : Obj) : Out := addModule key m o

/-- `torch.nn.ModuleDict.update`: one key after the other. -/
def dictUpdate : List (String × Val) → Obj → Out
  | [], o => (o, none)
  | (k, m) :: rest, o => (dictSet k m o).andThen (dictUpdate rest)

/-- `torch.nn.ModuleDict.__getitem__` -/
def dictGet (key : String) (o : Obj) : Except Err Val :=
  match o.modules.lookup key with
  | some v => .ok v
  | none => .error .keyError

/-- `torch.nn.ModuleDict.__delitem__`, `pop` without its result. -/
def dictDel (key : String) (o : Obj) : Out :=
  if key ∈ o.modules.keys then ({ o with modules := o.modules.del key }, none) else (o, some .keyError)

end CrypTen.Attr

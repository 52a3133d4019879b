import Mathlib.Data.List.Basic
import Mathlib.Data.Nat.Notation
import Mathlib.Data.Int.Notation

/-!
# Encrypting, saving and loading models

Models `Module.encrypt`, `decrypt`, `state_dict` and `load_state_dict` (/repo/crypten/nn/module.py). Modules are trees; sharing of modules or of tensors between modules is not modelled.
-/

namespace CrypTen.Nn

/-- A tensor: shape and entries (the values, whether encrypted or not). -/
structure Tensor where
  shape : List ℕ
  entries : List ℤ
deriving DecidableEq, Repr

/-- A parameter or buffer: a torch tensor, a CrypTensor, or something else (shapes can be buffers). -/
inductive Val where
  | plain (t : Tensor)
  | enc (t : Tensor)
  | other (n : ℕ)
deriving DecidableEq, Repr

/-- A module: the flag `encrypted`, `_parameters`, `_buffers` and `_modules` (module.py:23-33). -/
inductive Mod where
  | mk (encrypted : Bool) (parameters buffers : List (String × Val)) (children : List (String × Mod))

/-- What an operation leaves behind: the object, what was revealed to all parties, and whether it stopped with an exception. -/
structure Out (α : Type) where
  val : α
  revealed : List Tensor := []
  raised : Bool := false
deriving DecidableEq, Repr

/-- One parameter in `encrypt(mode)` (module.py:475-486). Encrypting a value that is not a torch tensor, and decrypting one that is no CrypTensor, raises. -/
def encryptParam (mode : Bool) : Val → Out Val
  | .plain t => if mode then { val := .enc t } else { val := .plain t, raised := true }
  | .enc t => if mode then { val := .enc t, raised := true } else { val := .plain t, revealed := [t] }
  | .other n => { val := .other n, raised := true }

/-- One buffer in `encrypt(mode)` (module.py:489-499): the second branch does not look at `mode`. -/
def encryptBuffer (mode : Bool) : Val → Out Val
  | .plain t => if mode then { val := .enc t } else { val := .plain t }
  | .enc t => { val := .plain t, revealed := [t] }
  | .other n => { val := .other n }

/-- A loop over the entries of a dictionary, up to the first exception (module.py:475, 489, 465). -/
def loopDict {α : Type} (f : α → Out α) : List (String × α) → Out (List (String × α))
  | [] => { val := [] }
  | (k, v) :: l =>
    let a := f v
    if a.raised then { val := (k, a.val) :: l, revealed := a.revealed, raised := true }
    else
      let b := loopDict f l
      { val := (k, a.val) :: b.val, revealed := a.revealed ++ b.revealed, raised := b.raised }

/-- The flag of a module. -/
def Mod.encrypted : Mod → Bool
  | .mk e _ _ _ => e

/-- Parameters and buffers of one module (module.py:474-499). -/
def encryptOwn (mode : Bool) (ps bs : List (String × Val)) : Out (List (String × Val) × List (String × Val)) :=
  let a := loopDict (encryptParam mode) ps
  if a.raised then { val := (a.val, bs), revealed := a.revealed, raised := true }
  else
    let b := loopDict (encryptBuffer mode) bs
    { val := (a.val, b.val), revealed := a.revealed ++ b.revealed, raised := b.raised }

mutual
/-- `Module.encrypt(mode)` (module.py:470-503): nothing happens if the module's own flag has the value already; otherwise the flag, parameters and buffers, then `self._apply(...)`, whose last call
`fn(self)` finds the flag set. The first argument bounds the depth of the recursion; running out of it counts as an exception. -/
def encrypt : ℕ → Bool → Mod → Out Mod
  | 0, _, m => { val := m, raised := true }
  | fuel + 1, mode, .mk e ps bs cs =>
    if mode = e then { val := .mk e ps bs cs }
    else
      let a := encryptOwn mode ps bs
      if a.raised then { val := .mk mode a.val.1 a.val.2 cs, revealed := a.revealed, raised := true }
      else
        let c := loopDict (applyEncrypt fuel mode) cs
        { val := .mk mode a.val.1 a.val.2 c.val, revealed := a.revealed ++ c.revealed, raised := c.raised }
/-- `module._apply(lambda m: m.encrypt(mode=mode, src=src))` (module.py:463-468, 502): first the children of the module, then the module. -/
def applyEncrypt : ℕ → Bool → Mod → Out Mod
  | 0, _, m => { val := m, raised := true }
  | fuel + 1, mode, .mk e ps bs cs =>
    let c := loopDict (applyEncrypt fuel mode) cs
    if c.raised then { val := .mk e ps bs c.val, revealed := c.revealed, raised := true }
    else
      let r := encrypt fuel mode (.mk e ps bs c.val)
      { val := r.val, revealed := c.revealed ++ r.revealed, raised := r.raised }
end

mutual
/-- `named_parameters()` (module.py:178-196), with the prefix in front of every name (`prefix + "." + name`). -/
def namedParameters (pre : String) : Mod → List (String × Val)
  | .mk _ ps _ cs => ps.map (fun p => (pre ++ p.1, p.2)) ++ namedParametersChildren pre cs
/-- The recursion over the children. -/
def namedParametersChildren (pre : String) : List (String × Mod) → List (String × Val)
  | [] => []
  | (k, m) :: cs => namedParameters (pre ++ k ++ ".") m ++ namedParametersChildren pre cs
end

mutual
/-- `state_dict(prefix)` (module.py:198-229): parameters and buffers of the module, then of its children. -/
def stateDict (pre : String) : Mod → List (String × Val)
  | .mk _ ps bs cs => ps.map (fun p => (pre ++ p.1, p.2)) ++ bs.map (fun p => (pre ++ p.1, p.2)) ++ stateDictChildren pre cs
/-- The recursion over the children. -/
def stateDictChildren (pre : String) : List (String × Mod) → List (String × Val)
  | [] => []
  | (k, m) :: cs => stateDict (pre ++ k ++ ".") m ++ stateDictChildren pre cs
end

/-- `state_dict[key]`: the last entry stored under the key. -/
def lookup (d : List (String × Val)) (k : String) : Option Val := (d.reverse.find? fun p => p.1 = k).map Prod.snd

/-- Copy one parameter from the dictionary (module.py:250-277); `none` is an exception. A missing key raises with and without `strict`. `encrypted` is the flag of the module on which the copying
runs. `param.copy_` takes over the value; copying between a torch tensor and a CrypTensor fails. -/
def copyParam (d : List (String × Val)) (encrypted : Bool) (key : String) (param : Val) : Option Val :=
  match lookup d key, param with
  | some (.plain v), .plain t => if v.shape = t.shape ∧ encrypted = false then some (.plain v) else none
  | some (.enc v), .enc t => if v.shape = t.shape ∧ encrypted = true then some (.enc v) else none
  | _, _ => none

/-- Copy all of a dictionary's parameters. -/
def copyParams (d : List (String × Val)) (encrypted : Bool) (pre : String) : List (String × Val) → Option (List (String × Val))
  | [] => some []
  | (k, p) :: l => match copyParam d encrypted (pre ++ k) p, copyParams d encrypted pre l with
    | some v, some l' => some ((k, v) :: l')
    | _, _ => none

mutual
/-- `_load_from_state_dict_crypten` on one module (module.py:231-277) copies all parameters below the module, with the module's own flag in the check. -/
def loadOne (d : List (String × Val)) (encrypted : Bool) (pre : String) : Mod → Option Mod
  | .mk e ps bs cs => match copyParams d encrypted pre ps, loadOneChildren d encrypted pre cs with
    | some ps', some cs' => some (.mk e ps' bs cs')
    | _, _ => none
/-- The recursion over the children. -/
def loadOneChildren (d : List (String × Val)) (encrypted : Bool) (pre : String) : List (String × Mod) → Option (List (String × Mod))
  | [] => some []
  | (k, m) :: cs => match loadOne d encrypted (pre ++ k ++ ".") m, loadOneChildren d encrypted pre cs with
    | some m', some cs' => some ((k, m') :: cs')
    | _, _ => none
end

/-- The loop over the children of a module, up to the first exception (module.py:304-306). -/
def loopChildren (f : String → Mod → Option Mod) : List (String × Mod) → Option (List (String × Mod))
  | [] => some []
  | (k, m) :: cs => match f k m, loopChildren f cs with
    | some m', some cs' => some ((k, m') :: cs')
    | _, _ => none

/-- `load(module, prefix)` (module.py:299-306): the module with everything below it, then again every child. The first number bounds the depth of the recursion. -/
def loadRec (d : List (String × Val)) : ℕ → String → Mod → Option Mod
  | 0, _, _ => none
  | fuel + 1, pre, m => match loadOne d m.encrypted pre m with
    | some (.mk e ps bs cs) => match loopChildren (fun k => loadRec d fuel (pre ++ k ++ ".")) cs with
      | some cs' => some (.mk e ps bs cs')
      | none => none
    | none => none

/-- `load_state_dict(state_dict, strict)` (module.py:279-310); `version` is the version in the metadata of the dictionary, if it has one. Whether an exception leaves some parameters already copied is
not modelled. -/
def loadStateDict (fuel : ℕ) (version : Option ℤ) (strict : Bool) (d : List (String × Val)) (m : Mod) : Option Mod :=
  if strict ∧ version ≠ some 1 then none else loadRec d fuel "" m

end CrypTen.Nn

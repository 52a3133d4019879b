import Verif.Model.Recording
import Mathlib.Algebra.Order.Field.Basic

/-!
# Python operators on encrypted tensors

Models what Python does with `a + b`, `-a`, `a < b`, `a[i]` and `a += b` when an operand is an encrypted tensor. Python looks the special method up on the *type* of an operand, so
`CrypTensor.__getattribute__` and its table `PYTHON_BUILTIN` are not consulted; only what the class itself defines counts (/repo/crypten/cryptensor.py:453-515,
/repo/crypten/common/functions/logic.py:63-68, common/functions/regular.py:60-67, 285-306). The bodies of these methods call named methods, which do go through `__getattribute__`.

Simplifications: shapes are not modelled, a tensor is the family of its entries; named methods compute exact results (their accuracy is the subject of `Verif.Props.Accuracy`); a subscript picks
entries by a map of positions; the exponent of a power is a natural number.
-/

namespace CrypTen.Operators
open CrypTen.Recording (registry)

/-- An object that an expression can evaluate to: an encrypted tensor, a Python number, a plain torch tensor. `tracked` is `requires_grad`. -/
inductive Val (ι K : Type) where
  | enc (value : ι → K) (tracked : Bool)
  | num (c : K)
  | plain (value : ι → K)

inductive Err where
  | typeError
  | notImplementedError
  | runtimeError
  deriving DecidableEq, Repr

/-- The entries that an operand contributes: numbers are broadcast. -/
def Val.value {ι K : Type} : Val ι K → ι → K
  | .enc v _ => v
  | .num c => fun _ => c
  | .plain v => v

def Val.tracked {ι K : Type} : Val ι K → Bool
  | .enc _ t => t
  | _ => false

def Val.isEnc {ι K : Type} : Val ι K → Bool
  | .enc _ _ => true
  | _ => false

inductive Bin where
  | add | sub | mul | div | matmul
  deriving DecidableEq, Repr

inductive Cmp where
  | lt | le | gt | ge | eq | ne
  deriving DecidableEq, Repr

inductive Un where
  | neg | abs
  deriving DecidableEq, Repr

/-- The special methods of a binary operator, and the reflected ones (Python language reference, 3.3.8). -/
def Bin.special : Bin → String
  | .add => "__add__" | .sub => "__sub__" | .mul => "__mul__" | .div => "__truediv__" | .matmul => "__matmul__"

def Bin.reflected : Bin → String
  | .add => "__radd__" | .sub => "__rsub__" | .mul => "__rmul__" | .div => "__rtruediv__" | .matmul => "__rmatmul__"

def Bin.inPlace : Bin → String
  | .add => "__iadd__" | .sub => "__isub__" | .mul => "__imul__" | .div => "__itruediv__" | .matmul => "__imatmul__"

def Cmp.special : Cmp → String
  | .lt => "__lt__" | .le => "__le__" | .gt => "__gt__" | .ge => "__ge__" | .eq => "__eq__" | .ne => "__ne__"

/-- Comparisons are reflected into each other (Python language reference, 3.3.1). -/
def Cmp.mirror : Cmp → Cmp
  | .lt => .gt | .le => .ge | .gt => .lt | .ge => .le | .eq => .eq | .ne => .ne

/-- What the body of a special method does: `return self.m(other)` (`named`), `return -self + tensor` (`negAdd`), the function `lt`, ... itself (`compare`), `shallow_copy` and the
operation on `_tensor` (`regular`), `return self.m_(other)` (`inPlace`). -/
inductive Body where
  | named (m : String)
  | negAdd
  | compare (c : Cmp)
  | regular
  | inPlace (m : String)
  deriving DecidableEq, Repr

/-- The special methods that class `CrypTensor` has: those written in the class (cryptensor.py:453-515) and those put there from `logic.py:63-68` and `regular.py:14-17` by
the loop at the end of cryptensor.py (723-729). `__pow__`, `__rtruediv__` and `__rmatmul__` are not among them. -/
def classAttr : List (String × Body) :=
  [("__abs__", .named "abs"), ("__add__", .named "add"), ("__radd__", .named "add"), ("__iadd__", .inPlace "add"), ("__sub__", .named "sub"), ("__rsub__", .negAdd),
   ("__isub__", .inPlace "sub"), ("__mul__", .named "mul"), ("__rmul__", .named "mul"), ("__imul__", .inPlace "mul"), ("__div__", .named "div"), ("__truediv__", .named "div"),
   ("__itruediv__", .inPlace "div"), ("__neg__", .named "neg"), ("__matmul__", .named "matmul"), ("__imatmul__", .named "matmul"), ("__eq__", .compare .eq), ("__ge__", .compare .ge),
   ("__gt__", .compare .gt), ("__le__", .compare .le), ("__lt__", .compare .lt), ("__ne__", .compare .ne), ("__getitem__", .regular)]

variable {ι K : Type} [Field K] [LinearOrder K]

/-- The product of matrices, on families of entries; which entries are multiplied depends on the shapes, so it is a parameter. -/
abbrev MatMul (ι K : Type) := (ι → K) → (ι → K) → ι → K

/-- The result of a comparison: 1 or 0. -/
def Cmp.eval (c : Cmp) (a b : K) : K :=
  match c with
  | .lt => if a < b then 1 else 0
  | .le => if a < b ∨ a = b then 1 else 0
  | .gt => if b < a then 1 else 0
  | .ge => if b < a ∨ a = b then 1 else 0
  | .eq => if a = b then 1 else 0
  | .ne => if a = b then 0 else 1

/-- What the named methods compute from `self` and the other operand. -/
def methodValue (M : MatMul ι K) (m : String) (self other : ι → K) : ι → K :=
  if m = "add" then fun i => self i + other i
  else if m = "sub" then fun i => self i - other i
  else if m = "mul" then fun i => self i * other i
  else if m = "div" then fun i => self i / other i
  else if m = "matmul" then M self other
  else if m = "neg" then fun i => - self i
  else if m = "abs" then fun i => if self i < 0 then - self i else self i
  else self

/-- `self.m(other)` (cryptensor.py:368-446): a registered function is recorded if gradients are enabled and an operand requires one. -/
def callMethod (M : MatMul ι K) (enabled : Bool) (m : String) (self other : Val ι K) : Val ι K :=
  .enc (methodValue M m self.value other.value) (registry.contains m && enabled && (self.tracked || other.tracked))

/-- `self.__getitem__(index)` written out: the name is found in the registry of gradient functions (cryptensor.py:416-431, gradients.py:455-467). -/
def callGetitem (enabled : Bool) (σ : ι → ι) (self : Val ι K) : Val ι K :=
  .enc (fun i => self.value (σ i)) (registry.contains "__getitem__" && enabled && self.tracked)

/-- `ge`, `gt`, `le`, `lt`, `eq`, `ne` (logic.py:33-60), given how a difference compares with zero (`_ltz`, whose result is fresh, mpc.py:233-242). -/
def ltz (x : K) : K := if x < 0 then 1 else 0

def compareBody (c : Cmp) (a b : K) : K :=
  match c with
  | .lt => ltz (a - b)
  | .gt => ltz (-a + b)
  | .ge => 1 - ltz (a - b)
  | .le => 1 - ltz (-a + b)
  | .ne => ltz (a - b) + ltz (-(a - b))
  | .eq => 1 - (ltz (a - b) + ltz (-(a - b)))

/-- Running a special method on `self` and `other`. A matrix product with a number raises: torch wants at least one dimension. -/
def runBody (M : MatMul ι K) (enabled : Bool) (self other : Val ι K) : Body → Except Err (Val ι K)
  | .named m => match other with
    | .num c => if m = "matmul" then .error .runtimeError else .ok (callMethod M enabled m self (.num c))
    | other => .ok (callMethod M enabled m self other)
  | .negAdd => .ok (callMethod M enabled "add" (callMethod M enabled "neg" self (.num 0)) other)
  | .compare c => .ok (.enc (fun i => compareBody c (self.value i) (other.value i)) false)
  | .regular => .error .typeError
  | .inPlace _ => .error .typeError

/-- Arithmetic of Python numbers and plain tensors among themselves. -/
def plainBin (M : MatMul ι K) (op : Bin) (l r : ι → K) : ι → K :=
  match op with
  | .add => fun i => l i + r i
  | .sub => fun i => l i - r i
  | .mul => fun i => l i * r i
  | .div => fun i => l i / r i
  | .matmul => M l r

/-- `l op r`. With an encrypted tensor on the left its special method is called. A number on the left returns `NotImplemented`, whereupon the reflected method of the tensor on the
right is tried. A torch tensor on the left calls `__torch_function__` of the operand on the right, which raises an exception (cryptensor.py:285-297). `@` is not defined for two
numbers, nor for a number and a torch tensor. -/
def binary (M : MatMul ι K) (enabled : Bool) (op : Bin) : Val ι K → Val ι K → Except Err (Val ι K)
  | .enc v t, r => match classAttr.lookup op.special with
    | some b => runBody M enabled (.enc v t) r b
    | none => .error .typeError
  | .num c, .enc v t => match classAttr.lookup op.reflected with
    | some b => runBody M enabled (.enc v t) (.num c) b
    | none => .error .typeError
  | .plain _, .enc _ _ => .error .notImplementedError
  | .num c, .num d => match op with
    | .add => .ok (.num (c + d))
    | .sub => .ok (.num (c - d))
    | .mul => .ok (.num (c * d))
    | .div => .ok (.num (c / d))
    | .matmul => .error .typeError
  | .num c, .plain v => if op = .matmul then .error .typeError else .ok (.plain (plainBin M op (fun _ => c) v))
  | .plain v, .num c => if op = .matmul then .error .typeError else .ok (.plain (plainBin M op v (fun _ => c)))
  | .plain v, .plain w => .ok (.plain (plainBin M op v w))

/-- `l < r` and the like; a number on the left hands over to the mirrored comparison of the tensor on the right, a torch tensor raises as above. -/
def compare (M : MatMul ι K) (enabled : Bool) (c : Cmp) : Val ι K → Val ι K → Except Err (Val ι K)
  | .enc v t, r => match classAttr.lookup c.special with
    | some b => runBody M enabled (.enc v t) r b
    | none => .error .typeError
  | .num d, .enc v t => match classAttr.lookup c.mirror.special with
    | some b => runBody M enabled (.enc v t) (.num d) b
    | none => .error .typeError
  | .plain _, .enc _ _ => .error .notImplementedError
  | .num d, .num e => .ok (.num (c.eval d e))
  | l, r => .ok (.plain fun i => c.eval (l.value i) (r.value i))

/-- `-a` and `abs(a)`. -/
def unary (M : MatMul ι K) (enabled : Bool) (u : Un) : Val ι K → Except Err (Val ι K)
  | .enc v t => match classAttr.lookup (match u with | .neg => "__neg__" | .abs => "__abs__") with
    | some b => runBody M enabled (.enc v t) (.num 0) b
    | none => .error .typeError
  | .num c => .ok (.num (match u with | .neg => -c | .abs => if c < 0 then -c else c))
  | .plain v => .ok (.plain (match u with | .neg => fun i => - v i | .abs => fun i => if v i < 0 then - v i else v i))

/-- `a ** n`: the class has no `__pow__` and numbers no suitable `__rpow__`. -/
def power (n : ℕ) : Val ι K → Except Err (Val ι K)
  | .enc v _ => match classAttr.lookup "__pow__" with
    | some _ => .ok (.enc (fun i => v i ^ n) false)
    | none => .error .typeError
  | .num c => .ok (.num (c ^ n))
  | .plain v => .ok (.plain fun i => v i ^ n)

/-- `a[index]`: the function placed in the class copies the object and indexes `_tensor` (regular.py:285-297); the copy does not require a gradient (mpc.py:86-92). -/
def subscript (σ : ι → ι) : Val ι K → Except Err (Val ι K)
  | .enc v _ => match classAttr.lookup "__getitem__" with
    | some .regular => .ok (.enc (fun i => v (σ i)) false)
    | _ => .error .typeError
  | .num _ => .error .typeError
  | .plain v => .ok (.plain fun i => v (σ i))

/-- Expressions a user writes. -/
inductive Expr (ι K : Type) where
  | leaf (v : ι → K) (requiresGrad : Bool)
  | num (c : K)
  | plain (v : ι → K)
  | bin (op : Bin) (a b : Expr ι K)
  | cmp (c : Cmp) (a b : Expr ι K)
  | un (u : Un) (a : Expr ι K)
  | pow (a : Expr ι K) (n : ℕ)
  | index (a : Expr ι K) (σ : ι → ι)

/-- Evaluation of an expression by Python; `enabled` is `CrypTensor.AUTOGRAD_ENABLED`. -/
def eval (M : MatMul ι K) (enabled : Bool) : Expr ι K → Except Err (Val ι K)
  | .leaf v r => .ok (.enc v r)
  | .num c => .ok (.num c)
  | .plain v => .ok (.plain v)
  | .bin op a b => do binary M enabled op (← eval M enabled a) (← eval M enabled b)
  | .cmp c a b => do compare M enabled c (← eval M enabled a) (← eval M enabled b)
  | .un u a => do unary M enabled u (← eval M enabled a)
  | .pow a n => do power n (← eval M enabled a)
  | .index a σ => do subscript σ (← eval M enabled a)

/-! ## Augmented assignment -/

/-- The variables of a program and the objects they are bound to. Objects are numbered; several variables can be bound to one object. -/
structure State (ι K : Type) where
  env : String → ℕ
  objects : List (Val ι K)

/-- The object bound to a variable. -/
def State.get (s : State ι K) (x : String) : Val ι K := (s.objects[s.env x]?).getD (.num 0)

/-- `x = v` for a new object `v`. -/
def State.bindNew (s : State ι K) (x : String) (v : Val ι K) : State ι K :=
  { env := fun y => if y = x then s.objects.length else s.env y, objects := s.objects ++ [v] }

/-- `x = y`: both are bound to one object. -/
def State.alias (s : State ι K) (x y : String) : State ι K := { s with env := fun z => if z = x then s.env y else s.env z }

/-- `x op= r`. An encrypted tensor runs its in-place special method: `add_`, `sub_`, `mul_`, `div_` raise if the tensor requires a gradient, and otherwise copy the result of the
method without the underscore into the object (cryptensor.py:397-414, mpc.py:94-98); `__imatmul__` returns a new tensor (cryptensor.py:503-506), as do operators without an in-place
method. Numbers have no in-place methods. A torch tensor calls `__torch_function__` of an encrypted operand; among themselves torch tensors are changed in place, except
by `@`. -/
def augmented (M : MatMul ι K) (enabled : Bool) (s : State ι K) (x : String) (op : Bin) (r : Val ι K) : Except Err (State ι K) :=
  match s.get x with
  | .enc v t => match classAttr.lookup op.inPlace with
    | some (.inPlace m) =>
      if enabled && t then .error .runtimeError
      else .ok { s with objects := s.objects.set (s.env x) (.enc (callMethod M enabled m (.enc v t) r).value t) }
    | some b => do return s.bindNew x (← runBody M enabled (.enc v t) r b)
    | none => do return s.bindNew x (← binary M enabled op (.enc v t) r)
  | .num c => do return s.bindNew x (← binary M enabled op (.num c) r)
  | .plain v => match r with
    | .enc _ _ => .error .notImplementedError
    | r => do
      let w ← binary M enabled op (.plain v) r
      if op = .matmul then return s.bindNew x w else return { s with objects := s.objects.set (s.env x) w }

end CrypTen.Operators

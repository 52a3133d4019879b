import Verif.Model.OnnxOps
import Verif.Model.Ring

/-!
# Operators of CUDALongTensor

Models the operators and methods of the class `CUDALongTensor` (/repo/crypten/cuda/cuda_tensor.py:53-154, 376-653), which wraps a torch tensor of 64-bit integers on a GPU: how Python
finds the method for an operator whose operands are wrapped tensors, plain tensors or integers, what the method asks of torch, and where the result is stored.

Every variable of a program is a tensor, wrapped or plain, with a place in a heap; several variables may have one place. Views of a part of a tensor, the storage that `clone` makes
for a result that is then replaced, conversions to floating point (`/`, `float`, `div`) and devices are not modelled. `none` is an exception.
-/

namespace CrypTen.CudaT
open NdTensor

/-! ## torch -/

/-- The binary operators of Python that torch defines for integer tensors; `/` gives floating point numbers. -/
inductive BinOp where
  | add | sub | mul | floordiv | mod | and | xor | or | pow | lshift | rshift
deriving DecidableEq

/-- Comparisons. -/
inductive Cmp where
  | eq | ne | lt | gt | le | ge
deriving DecidableEq

/-- A power of words: torch's kernel for integers. With a negative exponent it is 0 unless the base is 1 or -1. -/
def powWord (a b : I64) : I64 :=
  if 0 ≤ b.toInt then a ^ b.toNat
  else if a = 1 then 1 else if a = -1 then (if b.toInt % 2 = 0 then 1 else -1) else 0

/-- What torch's kernels do with two words. `junk` is the unspecified result of a division by zero or a shift by a negative number. -/
def word (junk : BinOp → I64 → I64 → I64) : BinOp → I64 → I64 → I64
  | .add, a, b => a + b
  | .sub, a, b => a - b
  | .mul, a, b => a * b
  | .floordiv, a, b => if b = 0 then junk .floordiv a b else BitVec.ofInt 64 (a.toInt.fdiv b.toInt)
  | .mod, a, b => if b = 0 then junk .mod a b else BitVec.ofInt 64 (a.toInt.fmod b.toInt)
  | .and, a, b => a &&& b
  | .xor, a, b => a ^^^ b
  | .or, a, b => a ||| b
  | .pow, a, b => powWord a b
  | .lshift, a, b => if b.toInt < 0 then junk .lshift a b else a <<< b.toNat
  | .rshift, a, b => if b.toInt < 0 then junk .rshift a b else a.sshiftRight b.toNat

/-- `torch.div(a, b, rounding_mode="trunc")` (called at cuda_tensor.py:397). -/
def truncWord (junk : BinOp → I64 → I64 → I64) (a b : I64) : I64 := if b = 0 then junk .floordiv a b else BitVec.ofInt 64 (a.toInt.tdiv b.toInt)

/-- A comparison of words. -/
def cmpWord : Cmp → I64 → I64 → I64
  | .eq, a, b => if a.toInt = b.toInt then 1 else 0
  | .ne, a, b => if a.toInt ≠ b.toInt then 1 else 0
  | .lt, a, b => if a.toInt < b.toInt then 1 else 0
  | .gt, a, b => if b.toInt < a.toInt then 1 else 0
  | .le, a, b => if a.toInt ≤ b.toInt then 1 else 0
  | .ge, a, b => if b.toInt ≤ a.toInt then 1 else 0

/-- `x.add_(y)`, `x.sub_(y)`, `x.mul_(y)`, `x.copy_(y)`. -/
inductive MethodI where
  | add | sub | mul | copy

/-- What it does with two words. -/
def MethodI.word : MethodI → I64 → I64 → I64
  | .add, a, b => a + b
  | .sub, a, b => a - b
  | .mul, a, b => a * b
  | .copy, _, b => b

/-- An operand as torch sees it. -/
inductive TArg where
  | ten (t : NdTensor I64)
  | int (z : ℤ)

/-- A Python integer as a word; torch raises if it does not fit. -/
def toWord (z : ℤ) : Option I64 := if -2 ^ 63 ≤ z ∧ z < 2 ^ 63 then some (BitVec.ofInt 64 z) else none

/-- Integers to a negative integer power are refused by torch (the exponent is known before the kernel runs only if it is a number). -/
def powerOk : BinOp → ℤ → Bool
  | .pow, z => 0 ≤ z
  | _, _ => true

/-- An elementwise function of two operands, out of place, with broadcasting. -/
def torchZip (k : I64 → I64 → I64) : TArg → TArg → Option (NdTensor I64)
  | .ten x, .ten y => Onnx.zip k x y
  | .ten x, .int z => (toWord z).map fun w => Onnx.mapEntries (fun a => k a w) x
  | .int z, .ten y => (toWord z).map fun w => Onnx.mapEntries (fun b => k w b) y
  | .int _, .int _ => none

/-- The same in place: the right operand is expanded to the shape of the left one, or torch raises. -/
def torchIn (k : I64 → I64 → I64) (x : NdTensor I64) : TArg → Option (NdTensor I64)
  | .ten y => (y.expand x.shape).map fun y => { shape := x.shape, data := fun idx => k (x.data idx) (y.data idx) }
  | .int z => (toWord z).map fun w => Onnx.mapEntries (fun a => k a w) x

/-- `x.add_(b)` … in torch; `copy_` takes a tensor. -/
def torchMethodI (m : MethodI) (x : NdTensor I64) (b : TArg) : Option (NdTensor I64) :=
  match m, b with
  | .copy, .int _ => none
  | m, b => torchIn m.word x b

/-- `a op b` in torch. -/
def torchBin (junk : BinOp → I64 → I64 → I64) (op : BinOp) (a b : TArg) : Option (NdTensor I64) :=
  match b with
  | .int z => if powerOk op z then torchZip (word junk op) a b else none
  | .ten _ => torchZip (word junk op) a b

/-- `x op= b` in torch. -/
def torchInBin (junk : BinOp → I64 → I64 → I64) (op : BinOp) (x : NdTensor I64) (b : TArg) : Option (NdTensor I64) :=
  match b with
  | .int z => if powerOk op z then torchIn (word junk op) x b else none
  | .ten _ => torchIn (word junk op) x b

/-- The shape without the ones in front (torch drops them from a value that is assigned to a part of a tensor). -/
def dropOnes : List ℕ → List ℕ
  | 1 :: s => dropOnes s
  | s => s

/-- A value without the dimensions of size 1 in front. -/
def stripped (y : NdTensor I64) : NdTensor I64 := { shape := dropOnes y.shape, data := fun idx => y.data (List.replicate (y.shape.length - (dropOnes y.shape).length) 0 ++ idx) }

/-- `x[i] = value` in torch for an integer `i`: the result of the assignment. -/
def torchSet (x : NdTensor I64) (i : ℤ) : TArg → Option (NdTensor I64)
  | .ten y =>
    match x.shape with
    | [] => none
    | n :: s => (normDim n i).bind fun k => ((stripped y).expand s).map fun y =>
        { shape := n :: s, data := fun idx => if idx.headD 0 = k then y.data idx.tail else x.data idx }
  | .int z =>
    match x.shape with
    | [] => none
    | n :: s => (normDim n i).bind fun k => (toWord z).map fun w => { shape := n :: s, data := fun idx => if idx.headD 0 = k then w else x.data idx }

/-! ## Programs -/

/-- An operand in a program. -/
inductive Operand where
  | var (v : ℕ)
  | int (z : ℤ)

/-- `x.add(y)`, `x.sub(y)`, `x.mul(y)`, `x.pow(y)`. -/
inductive Method where
  | add | sub | mul | pow

/-- Its operator. -/
def Method.op : Method → BinOp
  | .add => .add
  | .sub => .sub
  | .mul => .mul
  | .pow => .pow

/-- Statements. Those with a result store it in a new variable. -/
inductive Instr where
  /-- `r = a op b` -/
  | bin (op : BinOp) (a b : Operand)
  /-- `v op= b` -/
  | iop (op : BinOp) (v : ℕ) (b : Operand)
  /-- `r = a < b` … -/
  | cmp (c : Cmp) (a b : Operand)
  /-- `r = v.add(b)` … -/
  | method (m : Method) (v : ℕ) (b : Operand)
  /-- `v.add_(b)` … -/
  | methodI (m : MethodI) (v : ℕ) (b : Operand)
  /-- `r = torch.add(v, b)` … -/
  | func (m : Method) (v : ℕ) (b : Operand)
  /-- `r = -v` -/
  | neg (v : ℕ)
  /-- `r = v.clone()` -/
  | clone (v : ℕ)
  /-- `r = CUDALongTensor(v)`, and `v.shallow_copy()` for a wrapped `v` -/
  | wrap (v : ℕ)
  /-- `v[i] = b` -/
  | setitem (v : ℕ) (i : ℤ) (b : Operand)

/-- A variable: whether it is a `CUDALongTensor`, and the place of its entries. -/
structure Var where
  wrapped : Bool
  cell : ℕ

/-- All variables and all entries. -/
structure State where
  vars : List Var
  heap : List (NdTensor I64)

/-- The value of an operand, and whether it is wrapped. -/
def State.arg (st : State) : Operand → Option (Bool × TArg)
  | .var v => st.vars[v]?.bind fun x => st.heap[x.cell]?.map fun t => (x.wrapped, .ten t)
  | .int z => some (false, .int z)

/-- A variable with its entries. -/
def State.ten (st : State) (v : ℕ) : Option (Var × NdTensor I64) := st.vars[v]?.bind fun x => st.heap[x.cell]?.map fun t => (x, t)

/-- A new variable with new storage. -/
def State.push (st : State) (wrapped : Bool) (t : NdTensor I64) : State := { vars := st.vars ++ [⟨wrapped, st.heap.length⟩], heap := st.heap ++ [t] }

/-- New entries in the place of a variable, which may become wrapped. -/
def State.write (st : State) (v : ℕ) (x : Var) (wrapped : Bool) (t : NdTensor I64) : State := { vars := st.vars.set v ⟨wrapped, x.cell⟩, heap := st.heap.set x.cell t }

variable (junk : BinOp → I64 → I64 → I64)

/-- The methods `__add__`, `__sub__`, … of a wrapped tensor (cuda_tensor.py:430-469, 497-518): a clone that is changed in place; `//` is `torch.div` (cuda_tensor.py:394-398); the shifts
take integers only; there is no `__or__` (with a plain right operand Python would ask that one, which is not modelled). -/
def dunder (op : BinOp) (x : NdTensor I64) (y : TArg) : Option (NdTensor I64) :=
  match op with
  | .or => none
  | .floordiv => torchZip (truncWord junk) (.ten x) y
  | .lshift | .rshift =>
    match y with
    | .int _ => torchInBin junk op x y
    | .ten _ => none
  | _ => torchInBin junk op x y

/-- An integer as left operand of a wrapped tensor: the methods `__radd__`, `__rmul__`, `__rpow__` (cuda_tensor.py:524-526: they are `__add__`, `__mul__`, `__pow__`) and `__rsub__`
(cuda_tensor.py:446-449). There are no others. -/
def reflected (op : BinOp) (z : ℤ) (y : NdTensor I64) : Option (NdTensor I64) :=
  match op with
  | .add | .mul | .pow => dunder junk op y (.int z)
  | .sub => torchBin junk .sub (.int z) (.ten y)
  | _ => none

/-- `a op b`. A plain left operand of a wrapped one ends in `__torch_function__` (cuda_tensor.py:82-99), which unwraps the operands, calls torch and wraps the result. -/
def binary (op : BinOp) (a b : Bool × TArg) : Option (Bool × NdTensor I64) :=
  match a, b with
  | (true, .ten x), (_, y) => (dunder junk op x y).map (true, ·)
  | (_, .int z), (true, .ten y) => (reflected junk op z y).map (true, ·)
  | (_, x), (w, y) => (torchBin junk op x y).map (w, ·)

/-- Python asks the right operand with the mirrored comparison if the left one is an integer. -/
def Cmp.mirror : Cmp → Cmp
  | .eq => .eq
  | .ne => .ne
  | .lt => .gt
  | .gt => .lt
  | .le => .ge
  | .ge => .le

/-- `a < b` … (cuda_tensor.py:476-492): the result is converted to integers by the constructor. -/
def compare (c : Cmp) (a b : TArg) : Option (NdTensor I64) :=
  match a, b with
  | .int z, .ten y => torchZip (cmpWord c.mirror) (.ten y) (.int z)
  | x, y => torchZip (cmpWord c) x y

/-- `v op= b` (cuda_tensor.py:376-428, 497-522). `//=` puts the quotient in new storage. There is no `__ior__`, so Python asks for `__or__`. A plain tensor changed by a wrapped one is
wrapped afterwards (cuda_tensor.py:82-99). -/
def augmented (st : State) (op : BinOp) (v : ℕ) (b : Operand) : Option State :=
  (st.ten v).bind fun xt => (st.arg b).bind fun wb =>
    if xt.1.wrapped then
      match op with
      | .or => none
      | .floordiv => (torchZip (truncWord junk) (.ten xt.2) wb.2).map fun r => { vars := st.vars.set v ⟨true, st.heap.length⟩, heap := st.heap ++ [r] }
      | .lshift | .rshift =>
        match wb.2 with
        | .int _ => (torchInBin junk op xt.2 wb.2).map (st.write v xt.1 true)
        | .ten _ => none
      | _ => (torchInBin junk op xt.2 wb.2).map (st.write v xt.1 true)
    else (torchInBin junk op xt.2 wb.2).map (st.write v xt.1 wb.1)

/-- `v[i] = b`: a wrapped tensor takes `value.data`, which an integer does not have (cuda_tensor.py:104-105). -/
def setItem (st : State) (v : ℕ) (i : ℤ) (b : Operand) : Option State :=
  (st.ten v).bind fun xt => (st.arg b).bind fun wb =>
    match xt.1.wrapped, wb.2 with
    | true, .int _ => none
    | _, y => (torchSet xt.2 i y).map (st.write v xt.1 xt.1.wrapped)

/-- One statement. The methods unwrap their arguments (`regular_func`, `inplace_func`, cuda_tensor.py:602-653), and so does a function of torch (`__torch_function__`,
cuda_tensor.py:82-99). `neg` (cuda_tensor.py:471-474), `clone` (cuda_tensor.py:149-154), `shallow_copy` and the constructor (cuda_tensor.py:66-80, 143-147) as in torch. -/
def step (st : State) : Instr → Option State
  | .bin op a b => (st.arg a).bind fun a => (st.arg b).bind fun b => (binary junk op a b).map fun r => st.push r.1 r.2
  | .iop op v b => augmented junk st op v b
  | .cmp c a b => (st.arg a).bind fun a => (st.arg b).bind fun b => (compare c a.2 b.2).map (st.push (a.1 || b.1))
  | .method m v b => (st.ten v).bind fun xt => (st.arg b).bind fun b => (torchBin junk m.op (.ten xt.2) b.2).map (st.push (xt.1.wrapped || b.1))
  | .methodI m v b => (st.ten v).bind fun xt => (st.arg b).bind fun b => (torchMethodI m xt.2 b.2).map (st.write v xt.1 xt.1.wrapped)
  | .func m v b => (st.ten v).bind fun xt => (st.arg b).bind fun b => (torchBin junk m.op (.ten xt.2) b.2).map (st.push (xt.1.wrapped || b.1))
  | .neg v => (st.ten v).map fun xt => st.push xt.1.wrapped (Onnx.mapEntries (fun a => -a) xt.2)
  | .clone v => (st.ten v).map fun xt => st.push xt.1.wrapped xt.2
  | .wrap v => (st.ten v).map fun xt => { st with vars := st.vars ++ [⟨true, xt.1.cell⟩] }
  | .setitem v i b => setItem st v i b

/-- A program. -/
def run (st : State) : List Instr → Option State
  | [] => some st
  | i :: p => (step junk st i).bind fun st => run st p

/-! ## `__torch_function__` -/

/-- An argument of a torch function. -/
inductive Arg where
  | wrapped (t : NdTensor I64)
  | plain (t : NdTensor I64)
  | int (z : ℤ)
  | list (l : List Arg)

mutual
/-- torch looks for objects with a `__torch_function__` in the arguments and in lists. -/
def Arg.overloaded : Arg → Bool
  | .wrapped _ => true
  | .plain _ => false
  | .int _ => false
  | .list l => overloadedAny l

/-- The same for a list. -/
def overloadedAny : List Arg → Bool
  | [] => false
  | a :: l => a.overloaded || overloadedAny l
end

/-- `args = [t.tensor() if hasattr(t, "tensor") else t for t in args]` (cuda_tensor.py:88). -/
def unwrap : Arg → Arg
  | .wrapped t => .plain t
  | a => a

/-- A call of a torch function that has no entry in `HANDLED_FUNCTIONS` (cuda_tensor.py:82-99); `fuel` bounds the depth of Python's stack, and `none` is the RecursionError behind it.
`func` is what torch computes once no argument is overloaded. -/
def torchFunction {R : Type} (func : List Arg → List (String × Arg) → R) : ℕ → List Arg → List (String × Arg) → Option R
  | 0, _, _ => none
  | fuel + 1, args, kwargs =>
    if overloadedAny args || overloadedAny (kwargs.map Prod.snd) then torchFunction func fuel (args.map unwrap) kwargs
    else some (func args kwargs)

/-! ## Comparison methods -/

/-- The type of the entries of the wrapped tensor. -/
inductive DType where
  | bool
  | long
deriving DecidableEq

/-- One entry of `x == y` (cuda_tensor.py:476-477): the constructor calls `long()`. -/
def eqOperator (a b : I64) : DType × I64 := (.long, cmpWord .eq a b)

/-- One entry of `x.eq(y)` (cuda_tensor.py:602-617): the result of torch, of type `bool`, is put in the wrapper as it is. -/
def eqMethod (a b : I64) : DType × I64 := (.bool, cmpWord .eq a b)

/-- One entry of `x.add(y)` in torch for entries of type `bool` or `long`: two of type `bool` give their disjunction. -/
def addTyped : DType × I64 → DType × I64 → DType × I64
  | (.bool, a), (.bool, b) => (.bool, a ||| b)
  | (_, a), (_, b) => (.long, a + b)

end CrypTen.CudaT

import Verif.Model.Onnx
import Verif.Model.Functions
import Mathlib.Data.Rat.Floor
import Mathlib.Algebra.Order.Field.Rat
import Mathlib.Data.List.MinMax

/-!
# More layers imported from ONNX

Models the layers of /repo/crypten/nn/module.py that combine tensors entry by entry (`Add`, `Sub`, `Mul`, `Div`, `Equal`, `Where`, `Pow`), make
tensors (`Constant`, `ConstantOfShape`, `Range`, `Shape`), convert (`Cast`) or concatenate them (`Concat`), as `Graph.forward` calls them.

Exact arithmetic: the entries of plain and of encrypted tensors are rational numbers. `none` is an exception.
-/

namespace CrypTen.Onnx
open NdTensor
variable {R S T : Type}

/-- Size of dimension `k` counted from the right, 1 if the shape is shorter (torch's rule for broadcasting). -/
def sizeR (s : List ℕ) (k : ℕ) : ℕ := s.reverse[k]?.getD 1

/-- The shape torch computes for an operation on tensors of shapes `a` and `b` (called at nn/module.py:1040, 1056, 1072, 1088): shapes are aligned
at the right, and two sizes must agree unless one of them is 1. -/
def commonShape (a b : List ℕ) : Option (List ℕ) :=
  let r := max a.length b.length
  if ∀ k < r, sizeR a k = sizeR b k ∨ sizeR a k = 1 ∨ sizeR b k = 1 then
    some (((List.range r).map fun k => if sizeR a k = 1 then sizeR b k else sizeR a k).reverse)
  else none

/-- An elementwise operation of two tensors with broadcasting (torch). -/
def zip (f : R → S → T) (x : NdTensor R) (y : NdTensor S) : Option (NdTensor T) :=
  (commonShape x.shape y.shape).bind fun s => (x.expand s).bind fun x' => (y.expand s).map fun y' => { shape := s, data := fun idx => f (x'.data idx) (y'.data idx) }

/-- A function applied to every entry. -/
def mapEntries (f : R → S) (x : NdTensor R) : NdTensor S := { shape := x.shape, data := fun idx => f (x.data idx) }

/-- A tensor with a flag that tells whether it is encrypted. -/
structure Tensor where
  encrypted : Bool
  val : NdTensor ℚ

/-- What `Graph.forward` (nn/module.py:706-710) passes to a layer: the list of its inputs, but the input itself if there is only one. -/
inductive Input
  | one (t : Tensor)
  | list (l : List Tensor)

/-- nn/module.py:706-708 -/
def pack : List Tensor → Input
  | [t] => .one t
  | l => .list l

/-- `f(x, y)` on plain or encrypted tensors: the result is encrypted if one of them is. -/
def zipT (f : ℚ → ℚ → ℚ) (x y : Tensor) : Option Tensor := (zip f x.val y.val).map fun z => ⟨x.encrypted || y.encrypted, z⟩

/-- The layers `Add`, `Sub`, `Mul`, `Div` (nn/module.py:1031-1093): two inputs in a list. -/
def arith (f : ℚ → ℚ → ℚ) : Input → Option Tensor
  | .list [x, y] => zipT f x y
  | _ => none

/-- What `Equal` returns: a tensor or the Python object `False`. -/
inductive EqualResult
  | tensor (t : Tensor)
  | pyFalse

/-- `x1.eq(x2)`: 1 or 0 (plain tensors: booleans). -/
def eqEntry (a b : ℚ) : ℚ := if a = b then 1 else 0

/-- `Equal.forward` (nn/module.py:1447-1451). -/
def equal : Input → Option EqualResult
  | .list [x1, x2] => if x1.val.shape ≠ x2.val.shape then some .pyFalse else (zipT eqEntry x1 x2).map .tensor
  | _ => none

/-- The condition of `Where`: a tensor, or the object `False` that `Equal` may have returned. -/
inductive Condition
  | tensor (t : Tensor)
  | pyFalse

/-- `crypten.where(condition, input, other)` (/repo/crypten/__init__.py:437-446). -/
def whereCond (c : Condition) (input other : Tensor) : Option Tensor :=
  match c with
  | .tensor c =>
    if c.encrypted then
      (zipT (· * ·) c input).bind fun a => (zipT (· * ·) ⟨true, mapEntries (1 - ·) c.val⟩ other).bind fun b => zipT (· + ·) a b
    else
      (zipT (· * ·) input c).bind fun a => (zipT (· * ·) other ⟨false, mapEntries (1 - ·) c.val⟩).bind fun b => zipT (· + ·) a b
  | .pyFalse => zipT (· + ·) ⟨input.encrypted, mapEntries (· * 0) input.val⟩ ⟨other.encrypted, mapEntries (· * (1 - 0)) other.val⟩

/-- `Where.forward` (nn/module.py:1464-1466): three inputs. -/
def whereLayer (c : Condition) (rest : List Tensor) : Option Tensor :=
  match rest with
  | [x1, x2] => whereCond c x1 x2
  | _ => none

/-- `Pow.forward` (nn/module.py:1101-1107) for an encrypted base: `power.item()` of a plain tensor with one entry; everything else is not an integer and makes
`pow` (/repo/crypten/common/functions/power.py:16-45, the model of C26 in exact arithmetic) raise. -/
def powLayer (c : FunCfg) (base power : Tensor) : Option Tensor :=
  if power.encrypted then none
  else if power.val.shape.prod = 1 then
    ((exactOps ℚ).pow c base.val.data (power.val.data (unflatIdx power.val.shape 0))).map fun d => ⟨true, ⟨base.val.shape, d⟩⟩
  else none

/-- The types a tensor can be cast to. -/
inductive DType
  | float | int | bool
  deriving DecidableEq

/-- `x.to(dtype)` for one entry (torch): integers are cut towards zero, numbers other than zero are true. (Rounding and overflow are not modelled.) -/
def castEntry : DType → ℚ → ℚ
  | .float, q => q
  | .int, q => if 0 ≤ q then ⌊q⌋ else ⌈q⌉
  | .bool, q => if q = 0 then 0 else 1

/-- `Cast.forward` (nn/module.py:1405-1408). -/
def cast (d : DType) (x : Tensor) : Tensor := if x.encrypted then x else ⟨false, mapEntries (castEntry d) x.val⟩

/-- `torch.arange(start, end, step)` (called at nn/module.py:1436): a step of zero, or one that leads away from the end, raises. -/
def arange (start stop step : ℚ) : Option (NdTensor ℚ) :=
  if (0 < step ∧ start ≤ stop) ∨ (step < 0 ∧ stop ≤ start) then
    some { shape := [⌈(stop - start) / step⌉.toNat], data := fun idx => start + idx.getD 0 0 * step }
  else none

/-- `Range.forward` (nn/module.py:1427-1436) on numbers. -/
def range : List ℚ → Option (NdTensor ℚ)
  | [start, stop] => arange start stop 1
  | [start, stop, step] => arange start stop step
  | _ => none

/-- `Constant` (nn/module.py:973-989): the value, as floats. Without a value `from_onnx` raises. -/
def constant (value : Option (NdTensor ℚ)) : Option (NdTensor ℚ) := value

/-- `ConstantOfShape` (nn/module.py:1007-1028): the value is expanded to the size; `expand()` without sizes raises. Without a value `from_onnx` raises. -/
def constantOfShape (value : Option (NdTensor ℚ)) (size : List ℕ) : Option (NdTensor ℚ) :=
  value.bind fun v => if size = [] then none else v.expand size

/-- `Shape` (nn/module.py:1515-1525): the attributes `start` and `end` are not looked at. -/
def shapeOf (_start _end : Option ℤ) (x : Tensor) : NdTensor ℚ := { shape := [x.val.shape.length], data := fun idx => (x.val.shape.getD (idx.getD 0 0) 0 : ℕ) }

/-- `crypten.cat(tensors, dim)` (/repo/crypten/__init__.py:449-464): plain tensors are concatenated along dimension 0 always. -/
def catTensors (ts : List Tensor) (dim : ℤ) : Option Tensor :=
  if ts.all fun t => !t.encrypted then (ShapeGrad.catPlain (ts.map Tensor.val) dim).map (⟨false, ·⟩)
  else if ts.all fun t => t.encrypted then (NdTensor.cat (ts.map Tensor.val) dim).map (⟨true, ·⟩)
  else none

/-- An imported `Concat` node (nn/module.py:1540-1554): the input must be a list with at least one entry. -/
def concat (axis : Option ℤ) (input : Input) : Option Tensor :=
  axis.bind fun dim =>
    match input with
    | .one _ => none
    | .list ts => if 1 ≤ ts.length then catTensors ts dim else none

end CrypTen.Onnx

import Mathlib.Tactic.Common

/-!
# Calling a method with and without recorded gradients

`x.f(…)` runs the method of the class if no operand requires a gradient and `forward` of the registered class otherwise, with the same positional and keyword arguments
(/repo/crypten/cryptensor.py:299-352, 416-446). The two functions have their own parameter lists, and this file models how Python, and the two bodies, read a call. The outcome of a
call is what the tensor operation behind it is asked to do: the values of its parameters, or `none` for an exception raised while the arguments are read.

Native methods that pass their arguments on to torch have the parameter names of the torch method. Not modelled: keyword-only options of torch (`dtype`, `out`, `sparse_grad`) and the
other names torch accepts for `dim` and `keepdim`; exceptions the operation itself raises for a bad value, which are the same for the same outcome.
-/

namespace CrypTen.Calls

/-- An argument. -/
inductive PyVal where
  | none
  | bool (b : Bool)
  | int (z : Int)
  | str (s : String)
  | ints (l : List Int)
  | object (id : Nat)
deriving DecidableEq

/-- The number, if it is one. -/
def PyVal.toInt? : PyVal → Option Int
  | .int z => some z
  | _ => .none

/-- A call: positional and keyword arguments, without the tensor itself. -/
structure Call where
  pos : List PyVal
  kw : List (String × PyVal)

/-- Python rejects a repeated keyword before the call. `self` and `ctx` are the names of parameters that the caller does not pass. -/
def Call.WF (c : Call) : Prop := (c.kw.map Prod.fst).Nodup ∧ "self" ∉ c.kw.map Prod.fst ∧ "ctx" ∉ c.kw.map Prod.fst

/-- A parameter: its name, the parameter of the operation it stands for, its default. -/
structure Param where
  name : String
  slot : String
  default : Option PyVal
deriving DecidableEq

/-- A parameter list; `extra` if there is a `**kwargs` whose content is not used. -/
structure Sig where
  params : List Param
  extra : Bool := false

/-- What the operation is asked: a value for each of its parameters. -/
abbrev Outcome := Option (List (String × PyVal))

/-- How Python binds one parameter: by position, else by keyword, else by its default. -/
def bindParam (c : Call) (i : Nat) (p : Param) : Option (String × PyVal) :=
  match c.pos[i]?, c.kw.lookup p.name with
  | some _, some _ => .none
  | some v, .none => some (p.slot, v)
  | .none, some v => some (p.slot, v)
  | .none, .none => p.default.map fun v => (p.slot, v)

/-- How Python binds a call: too many positional arguments, an unknown keyword, an argument given twice and a missing argument are `TypeError`s. -/
def Sig.bind (s : Sig) (c : Call) : Outcome :=
  if s.params.length < c.pos.length then .none
  else if ¬s.extra ∧ ∃ k ∈ c.kw, k.1 ∉ s.params.map Param.name then .none
  else (s.params.zipIdx.map fun pi => bindParam c pi.2 pi.1).mapM id

/-- The values in the order of the parameters of the operation. -/
def inOrder (slots : List String) (o : Outcome) : Outcome := o.map fun b => slots.map fun s => (s, (b.lookup s).getD .none)

/-- A required parameter. -/
def req (name slot : String) : Param := ⟨name, slot, .none⟩
/-- A parameter with a default. -/
def opt (name slot : String) (v : PyVal) : Param := ⟨name, slot, some v⟩

/-- torch methods whose first parameter is a list of integers, `permute`, `flip`, `view`, `reshape`: the list, the integers one by one, or the keyword. -/
def variadic (name : String) (c : Call) : Outcome :=
  match c.pos, c.kw with
  | [.ints l], [] => some [(name, .ints l)]
  | [], [(k, .ints l)] => if k = name then some [(name, .ints l)] else .none
  | .int z :: rest, [] => (rest.mapM PyVal.toInt?).map fun l => [(name, .ints (z :: l))]
  | _, _ => .none

/-- A method as it is called natively and while gradients are recorded. -/
structure Entry where
  name : String
  native : Call → Outcome
  recorded : Call → Outcome

/-- The usual case: both are bound by Python to their parameter lists. -/
def Entry.ofSigs (name : String) (slots : List String) (nat rec : Sig) : Entry := ⟨name, fun c => inOrder slots (nat.bind c), fun c => inOrder slots (rec.bind c)⟩

/-- A method with the same parameter list in both. -/
def Entry.both (name : String) (ps : List Param) : Entry := .ofSigs name (ps.map Param.slot) ⟨ps, false⟩ ⟨ps, false⟩

/-- The beginning of `forward` of `sum`, `mean`, `squeeze`, `min` and `max` (/repo/crypten/gradients.py:407-424, 1129-1146, 1187-1204, 1280-1301, 1327-1349): the dimension is the only
positional argument, or the keyword `dim`. -/
def dimOf (c : Call) : Option PyVal :=
  match c.pos with
  | [] => some ((c.kw.lookup "dim").getD .none)
  | [d] => if (c.kw.lookup "dim").isSome then .none else some d
  | _ => .none

/-- `keepdim = kwargs.get("keepdim", False)`, and `one_hot`. -/
def kwGet (c : Call) (k : String) (d : PyVal) : PyVal := (c.kw.lookup k).getD d

/-- The parameters of torch's `sum(dim, keepdim=False)`. -/
def sumSig : Sig := ⟨[req "dim" "dim", opt "keepdim" "keepdim" (.bool false)], false⟩

/-- `sum` and `mean` natively: torch's `sum()` or `sum(dim, keepdim=False)` (/repo/crypten/common/functions/regular.py:151-161, 285-297). -/
def sumNative (c : Call) : Outcome :=
  if c.pos = [] ∧ c.kw = [] then some [] else sumSig.bind c

/-- `AutogradSum.forward`, `AutogradMean.forward` (gradients.py:1132-1146, 1190-1204): other keywords are ignored. -/
def sumRecorded (c : Call) : Outcome :=
  (dimOf c).bind fun d => if d = .none then some [] else some [("dim", d), ("keepdim", kwGet c "keepdim" (.bool false))]

/-- `squeeze` natively: torch's `squeeze()` or `squeeze(dim)`. -/
def squeezeNative (c : Call) : Outcome := if c.pos = [] ∧ c.kw = [] then some [] else Sig.bind ⟨[req "dim" "dim"], false⟩ c

/-- `AutogradSqueeze.forward` (gradients.py:410-424): other keywords are ignored. -/
def squeezeRecorded (c : Call) : Outcome := (dimOf c).bind fun d => if d = .none then some [] else some [("dim", d)]

/-- The parameters of `max` and `min` (/repo/crypten/common/functions/maximum.py:51, 85). -/
def maxSig : Sig := ⟨[opt "dim" "dim" .none, opt "keepdim" "keepdim" (.bool false), opt "one_hot" "one_hot" (.bool true)], false⟩

/-- What `max` and `min` do: with no dimension the other two parameters have no effect (maximum.py:51-92). -/
def maxMeans (o : Outcome) : Outcome := o.map fun b => if b.lookup "dim" = some .none then [] else b

/-- `max` and `min` natively. -/
def maxNative (c : Call) : Outcome := maxMeans (maxSig.bind c)

/-- The keywords left in `kwargs` once `dim` has been taken out (gradients.py:1288, 1335). -/
def restKw (c : Call) : List (String × PyVal) := c.kw.filter fun k => k.1 ≠ "dim"

/-- `AutogradMax.forward` (gradients.py:1330-1349): the other keywords go to `max(dim, …)`, without a dimension to `max(0, …)` of the flattened tensor, whose index tensor is then given
the shape of the tensor, which an index (one number) does not have, if the tensor has several entries. -/
def maxRecorded (c : Call) : Outcome :=
  (dimOf c).bind fun d =>
    if d = .none then
      (maxSig.bind ⟨[.int 0], restKw c⟩).bind fun b => if b.lookup "one_hot" = some (.bool false) then .none else some []
    else maxSig.bind ⟨[d], restKw c⟩

/-- `AutogradMin.forward` (gradients.py:1283-1301): without a dimension the other keywords are not looked at, except that the index that `one_hot=False` asks for is multiplied with the
tensor. -/
def minRecorded (c : Call) : Outcome :=
  (dimOf c).bind fun d =>
    if d = .none then
      if kwGet c "one_hot" (.bool true) = .bool false then some [("sum of the products with the index", .none)] else some []
    else maxSig.bind ⟨[d], restKw c⟩

/-- `var` natively (regular.py:164-181): what is computed, `none` if a local variable is read before it is set (a given dimension `None`). -/
def varNative (c : Call) : Outcome :=
  match c.pos with
  | [] => some [("unbiased", kwGet c "unbiased" (.bool false))]
  | [d] => if d = .none then .none else some [("dim", d), ("unbiased", kwGet c "unbiased" (.bool false)), ("keepdim", kwGet c "keepdim" (.bool false))]
  | [d, u] => if d = .none then .none else some [("dim", d), ("unbiased", u), ("keepdim", kwGet c "keepdim" (.bool false))]
  | d :: u :: k :: _ => if d = .none then .none else some [("dim", d), ("unbiased", u), ("keepdim", k)]

/-- `AutogradVariance.forward` (gradients.py:1227-1266): reads the arguments in the same way, fails at the same place, and then calls `var`. -/
def varRecorded (c : Call) : Outcome :=
  let go (d u k : PyVal) : Outcome := if d = .none then .none else varNative ⟨[d], [("unbiased", u), ("keepdim", k)]⟩
  match c.pos with
  | [] => varNative ⟨[], [("unbiased", kwGet c "unbiased" (.bool false))]⟩
  | [d] => go d (kwGet c "unbiased" (.bool false)) (kwGet c "keepdim" (.bool false))
  | [d, u] => go d u (kwGet c "keepdim" (.bool false))
  | d :: u :: k :: _ => go d u k

/-- `avg_pool2d` natively (/repo/crypten/mpc/primitives/arithmetic.py:552-563): `ceil_mode` raises. -/
def avgPoolSig : Sig := ⟨[req "kernel_size" "kernel_size", opt "stride" "stride" .none, opt "padding" "padding" (.int 0), opt "ceil_mode" "ceil_mode" (.bool false)], false⟩

/-- The same. -/
def avgPoolNative (c : Call) : Outcome :=
  (avgPoolSig.bind c).bind fun b => if b.lookup "ceil_mode" = some (.bool true) then .none else some (b.filter fun s => s.1 ≠ "ceil_mode")

/-- `AutogradAvgPool2D.forward` (gradients.py:1447-1459): `ceil_mode` is not passed on. -/
def avgPoolRecorded (c : Call) : Outcome := (avgPoolSig.bind c).map fun b => b.filter fun s => s.1 ≠ "ceil_mode"

/-- The parameters of a convolution. -/
def convSlots : List String := ["kernel", "stride", "padding", "dilation", "groups"]

/-- `conv1d`, `conv2d` natively: everything but the kernel by keyword (arithmetic.py:488-494, /repo/crypten/mpc/mpc.py:335-342). The keyword `bias` of torch is not modelled. -/
def convNative (c : Call) : Outcome :=
  if 1 < c.pos.length then .none
  else inOrder convSlots (Sig.bind ⟨[req "value" "kernel", opt "stride" "stride" (.int 1), opt "padding" "padding" (.int 0), opt "dilation" "dilation" (.int 1), opt "groups" "groups" (.int 1)], false⟩ c)

/-- A binary operation: natively its parameter is called `value`, `y` or `tensor`, recorded `other`. -/
def Entry.binary (name native : String) : Entry := .ofSigs name ["other"] ⟨[req native "other"], false⟩ ⟨[req "other" "other"], false⟩

/-- The parameter of `log` and `reciprocal` (approximations.py:55, 107); their `forward` has none and calls them without (gradients.py:929-931, 942-944). -/
def in01Sig : Sig := ⟨[opt "input_in_01" "in01" (.bool false)], false⟩

/-- Every method that can be recorded, apart from the functions that join tensors (`cat`, `stack`). Functions without a native method (`relu6`, `cosine_similarity`, `batchnorm`, the
losses, `__rtruediv__`, `_feature_dropout`) run the same `forward` in both cases (cryptensor.py:440-446), so only their parameter list matters.
Sources: gradients.py (the line of each class), regular.py:71-297, logic.py:73-109, approximations.py:34-450, power.py:16-120, maximum.py:51-92, pooling.py:20-28, dropout.py:15,
mpc.py:276-342, arithmetic.py:406-600. -/
def table : List Entry := [
  .both "t" [],
  .ofSigs "transpose" ["a", "b"] ⟨[req "dim0" "a", req "dim1" "b"], false⟩ ⟨[req "dim1" "a", req "dim2" "b"], false⟩,
  ⟨"permute", variadic "dims", fun c => (Sig.bind ⟨[req "dims" "dims"], false⟩ c).bind fun b => variadic "dims" ⟨b.map Prod.snd, []⟩⟩,
  ⟨"flip", variadic "dims", fun c => (Sig.bind ⟨[req "dims" "dims"], false⟩ c).bind fun b => variadic "dims" ⟨b.map Prod.snd, []⟩⟩,
  .both "clone" [],
  ⟨"view", variadic "size", fun c => if c.kw = [] then variadic "size" c else .none⟩,
  ⟨"reshape", variadic "shape", fun c => if c.kw = [] then variadic "shape" c else .none⟩,
  .both "flatten" [opt "start_dim" "start_dim" (.int 0), opt "end_dim" "end_dim" (.int (-1))],
  .both "narrow" [req "dim" "dim", req "start" "start", req "length" "length"],
  .ofSigs "take" ["index", "dim"] ⟨[req "index" "index", opt "dimension" "dim" .none], false⟩ ⟨[req "index" "index", opt "dim" "dim" .none], false⟩,
  .both "index_select" [req "dim" "dim", req "index" "index"],
  .both "gather" [req "dim" "dim", req "index" "index"],
  .both "scatter" [req "dim" "dim", req "index" "index", req "src" "src"],
  .both "roll" [req "shifts" "shifts", opt "dims" "dims" .none],
  ⟨"squeeze", squeezeNative, squeezeRecorded⟩,
  .both "unsqueeze" [req "dim" "dim"],
  .both "__getitem__" [req "index" "index"],
  .both "neg" [],
  .both "relu" [],
  .both "dropout" [opt "p" "p" (.object 0), opt "training" "training" (.bool true), opt "inplace" "inplace" (.bool false)],
  .both "_feature_dropout" [opt "p" "p" (.object 0), opt "training" "training" (.bool true), opt "inplace" "inplace" (.bool false)],
  .both "tanh" [],
  .ofSigs "hardtanh" ["lo", "hi"] ⟨[opt "min_value" "lo" (.int (-1)), opt "max_value" "hi" (.int 1)], false⟩ ⟨[opt "min_val" "lo" (.int (-1)), opt "max_val" "hi" (.int 1)], false⟩,
  .both "erf" [],
  .both "relu6" [],
  .binary "add" "value",
  .binary "sub" "value",
  .binary "__rsub__" "tensor",
  .binary "mul" "value",
  .binary "matmul" "value",
  .binary "div" "y",
  .both "__rtruediv__" [req "other" "other"],
  .both "polynomial" [req "coeffs" "coeffs", opt "func" "func" (.str "mul")],
  .ofSigs "pow" ["power"] ⟨[req "p" "power"], true⟩ ⟨[req "power" "power"], false⟩,
  .ofSigs "pos_pow" ["power"] ⟨[req "p" "power"], false⟩ ⟨[req "power" "power"], false⟩,
  .both "square" [],
  .both "sqrt" [],
  .both "exp" [],
  ⟨"log", in01Sig.bind, fun c => (Sig.bind ⟨[], false⟩ c).bind fun _ => in01Sig.bind ⟨[], []⟩⟩,
  ⟨"reciprocal", in01Sig.bind, fun c => (Sig.bind ⟨[], false⟩ c).bind fun _ => in01Sig.bind ⟨[], []⟩⟩,
  .ofSigs "dot" ["other", "weights"] ⟨[req "y" "other", opt "weights" "weights" .none], false⟩ ⟨[req "other" "other"], false⟩,
  .binary "ger" "y",
  .both "sin" [],
  .both "cos" [],
  .both "cosine_similarity" [req "x2" "x2", opt "dim" "dim" (.int 1), opt "eps" "eps" .none],
  .both "abs" [],
  .both "sign" [],
  .both "norm" [opt "p" "p" (.str "fro"), opt "dim" "dim" .none, opt "keepdim" "keepdim" (.bool false)],
  ⟨"sum", sumNative, sumRecorded⟩,
  .both "cumsum" [req "dim" "dim"],
  .both "trace" [],
  ⟨"mean", sumNative, sumRecorded⟩,
  ⟨"var", varNative, varRecorded⟩,
  ⟨"min", maxNative, minRecorded⟩,
  ⟨"max", maxNative, maxRecorded⟩,
  .both "sigmoid" [],
  .ofSigs "softmax" ["dim"] ⟨[req "dim" "dim"], true⟩ ⟨[req "dim" "dim"], false⟩,
  .ofSigs "log_softmax" ["dim"] ⟨[req "dim" "dim"], true⟩ ⟨[req "dim" "dim"], false⟩,
  .ofSigs "pad" ["pad", "mode", "value"] ⟨[req "pad" "pad", opt "mode" "mode" (.str "constant"), opt "value" "value" (.int 0)], false⟩
    ⟨[req "padding" "pad", opt "value" "value" (.int 0), opt "mode" "mode" (.str "constant")], false⟩,
  ⟨"avg_pool2d", avgPoolNative, avgPoolRecorded⟩,
  .both "max_pool2d" [req "kernel_size" "kernel_size", opt "padding" "padding" (.int 0), opt "stride" "stride" .none, opt "dilation" "dilation" (.int 1), opt "ceil_mode" "ceil_mode" (.bool false),
    opt "return_indices" "return_indices" (.bool false)],
  ⟨"conv1d", convNative, fun c => inOrder convSlots (Sig.bind ⟨[req "kernel" "kernel", opt "padding" "padding" (.int 0), opt "stride" "stride" (.int 1), opt "dilation" "dilation" (.int 1),
    opt "groups" "groups" (.int 1)], false⟩ c)⟩,
  ⟨"conv2d", convNative, fun c => inOrder convSlots (Sig.bind ⟨[req "kernel" "kernel", opt "stride" "stride" (.int 1), opt "padding" "padding" (.int 0), opt "dilation" "dilation" (.int 1),
    opt "groups" "groups" (.int 1)], false⟩ c)⟩,
  .both "batchnorm" [req "weight" "weight", req "bias" "bias", opt "running_mean" "running_mean" .none, opt "running_var" "running_var" .none, opt "training" "training" (.bool false),
    opt "eps" "eps" (.object 1), opt "momentum" "momentum" (.object 2), opt "inv_var" "inv_var" .none],
  .both "binary_cross_entropy" [req "target" "target", opt "skip_forward" "skip_forward" (.bool false)],
  .both "binary_cross_entropy_with_logits" [req "target" "target", opt "skip_forward" "skip_forward" (.bool false)],
  .both "rappor_loss" [req "target" "target", req "alpha" "alpha", opt "skip_forward" "skip_forward" (.bool false)],
  .both "cross_entropy" [req "target" "target", opt "skip_forward" "skip_forward" (.bool false)]]

end CrypTen.Calls

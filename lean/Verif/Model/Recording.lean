import Verif.Model.Autograd
import Mathlib.Algebra.BigOperators.Group.List.Basic

/-!
# Recording computations for autograd

Models how a call on an encrypted tensor is logged on the tape: `CrypTensor.__getattribute__`, `_get_autograd_forward_function`, `_find_all_cryptensors`, `detach`
(/repo/crypten/cryptensor.py:21-34, 279-283, 316-446), and the functions that reach the data without the tape. Tensors are objects numbered by creation, as in `Verif.Model.Autograd`;
only the autograd attributes of a tensor are kept, not its data. Each argument of a call carries the additive map that `grad_fn.backward` returns for it, so that a program of
calls determines both the tape and the true flow of data.
-/

namespace CrypTen.Recording
variable {G : Type} [AddCommGroup G]

/-- An argument of a call. `config`: a number, size or dimension for which `grad_fn.backward` returns no entry. `plain J`: plaintext for which it returns the entry `J`, such as the
second operand of `mul`. `tensor v (some J)`: the encrypted tensor `v` with entry `J`. `tensor v none`: an encrypted tensor passed to `ctx.mark_non_differentiable`, without an
entry, such as the target of a loss. `seq`: a list or tuple of arguments. Dictionaries and sets of tensors are not modelled; no function takes them. -/
inductive Input (G : Type) [AddCommGroup G] where
  | config
  | plain (J : G →+ G)
  | tensor (v : ℕ) (J : Option (G →+ G))
  | seq (l : List (Input G))

mutual
/-- One argument of the traversal of `_find_all_cryptensors` (cryptensor.py:27-33). -/
def flat1 : Input G → List (Input G)
  | .config => [.config]
  | .plain J => [.plain J]
  | .tensor v J => [.tensor v J]
  | .seq k => flat k

/-- The arguments that are not containers, in order: the traversal of `_find_all_cryptensors` (cryptensor.py:21-34) before it picks out the tensors. -/
def flat : List (Input G) → List (Input G)
  | [] => []
  | x :: l => flat1 x ++ flat l
end

/-- `_find_all_cryptensors` (cryptensor.py:21-34), on arguments traversed by `flat`. -/
def tensorsOf : List (Input G) → List ℕ
  | [] => []
  | .tensor v _ :: l => v :: tensorsOf l
  | _ :: l => tensorsOf l

/-- The tuple returned by `grad_fn.backward` (/repo/crypten/gradients.py): one entry for each argument that has one, in the order of the parameters. -/
def entries : List (Input G) → List (G →+ G)
  | [] => []
  | .plain J :: l => J :: entries l
  | .tensor _ (some J) :: l => J :: entries l
  | _ :: l => entries l

/-- `ctx.non_differentiable`: the identities of the tensors passed to `ctx.mark_non_differentiable` (gradients.py:127-130). -/
def nonDiff : List (Input G) → List ℕ
  | [] => []
  | .tensor v none :: l => v :: nonDiff l
  | _ :: l => nonDiff l

/-- The gradients that `backward` will send to the children (cryptensor.py:249-263): the children whose identity is not marked receive the entries one after the other. That there
are enough entries is asserted there; with the arguments of this model there always are. -/
def assign (marked : List ℕ) : List ℕ → List (G →+ G) → List (ℕ × Option (G →+ G))
  | [], _ => []
  | v :: vs, es => if v ∈ marked then (v, none) :: assign marked vs es else (v, es.head?) :: assign marked vs es.tail

/-- `FUNCTION_REGISTRY`: the names given to `register_function` (/repo/crypten/gradients.py:19-37 and the 70 decorated classes after it). -/
def registry : List String :=
  ["__getitem__", "__rsub__", "__rtruediv__", "_feature_dropout", "abs", "add", "avg_pool2d", "batchnorm", "binary_cross_entropy",
   "binary_cross_entropy_with_logits", "cat", "clone", "conv1d", "conv2d", "cos", "cosine_similarity", "cross_entropy", "cumsum", "div", "dot", "dropout", "erf",
   "exp", "flatten", "flip", "gather", "ger", "hardtanh", "index_select", "log", "log_softmax", "matmul", "max", "max_pool2d", "mean", "min", "mul", "narrow",
   "neg", "norm", "pad", "permute", "polynomial", "pos_pow", "pow", "rappor_loss", "reciprocal", "relu", "relu6", "reshape", "roll", "scatter", "sigmoid", "sign",
   "sin", "softmax", "sqrt", "square", "squeeze", "stack", "sub", "sum", "t", "take", "tanh", "trace", "transpose", "unsqueeze", "var", "view"]

/-- `regular.__all__` (/repo/crypten/common/functions/regular.py:14-55). -/
def regularFunctions : List String :=
  ["__getitem__", "__len__", "__setitem__", "cat", "cumsum", "dim", "dot", "expand", "flatten", "flip", "gather", "ger", "index_add", "index_select", "mean", "narrow",
   "nelement", "numel", "pad", "permute", "prod", "repeat", "reshape", "roll", "scatter", "scatter_add", "size", "split", "squeeze", "stack", "sum", "t", "take", "trace",
   "transpose", "unbind", "unfold", "unsqueeze", "var", "view"]

/-- `PROPERTY_FUNCTIONS` (regular.py:58): these return no tensors. -/
def propertyFunctions : List String := ["__len__", "nelement", "dim", "size", "numel"]

/-- The attributes `requires_grad` and `children` of a tensor (cryptensor.py:190-205); each child with the function that computes its gradient. -/
structure Cell (G : Type) [AddCommGroup G] where
  requiresGrad : Bool
  children : List (ℕ × Option (G →+ G))

/-- All tensors in the order of their creation. -/
abbrev Heap (G : Type) [AddCommGroup G] := List (Cell G)

/-- `v.requires_grad` -/
def Heap.requiresGrad (h : Heap G) (v : ℕ) : Bool := ((h[v]?).map Cell.requiresGrad).getD false

/-- `v.children` -/
def Heap.children (h : Heap G) (v : ℕ) : List (ℕ × Option (G →+ G)) := ((h[v]?).map Cell.children).getD []

/-- A tensor that takes no part in autograd: a fresh object made by `shallow_copy` or a constructor (cryptensor.py:182-205). -/
def fresh : Cell G := ⟨false, []⟩

/-- What a call can do to the tape. In a method call the first argument is `self`.
* `leaf`: `crypten.cryptensor(..., requires_grad=...)`.
* `call`: a function with an `AutogradFunction` (cryptensor.py:316-366), with positional and keyword arguments; it returns one differentiable tensor and `extra` tensors marked as
  not differentiable (`max`, `min`, `max_pool2d` with indices).
* `native`: a function without an `AutogradFunction` that works on `_tensor` and returns a `shallow_copy`: `split`, `unbind`, `expand`, `repeat`, `unfold`, `_ltz`
  (/repo/crypten/common/functions/regular.py:119-133, 294-306, mpc/mpc.py:233-242), `conv_transpose1d`, `conv_transpose2d` (mpc/mpc.py:335-343).
* `cloned`: `index_add` and `scatter_add` (regular.py:86-109): `self.clone()`, then a change of the data of the clone.
* `inPlace`: a method whose name ends in an underscore (cryptensor.py:397-414): the same call without the underscore, then `self.copy_(result)`.
* `setItem`: `self[index] = value` (regular.py:60-67).
* `aliased`: `dropout` and `_feature_dropout` with `inplace=True` (gradients.py:496-521, 532-560), which return `self`.
* `detach`: `detach()` (cryptensor.py:279-283). -/
inductive Instr (G : Type) [AddCommGroup G] where
  | leaf (requiresGrad : Bool)
  | call (args kwargs : List (Input G)) (extra : ℕ)
  | native (args : List (Input G))
  | cloned (self : ℕ) (others : List (Input G))
  | inPlace (self : ℕ) (J : G →+ G) (args kwargs : List (Input G))
  | setItem (self : ℕ) (J : G →+ G) (value : Input G)
  | aliased (self : ℕ) (J : G →+ G)
  | detach (self : ℕ)

/-- `autograd_forward` (cryptensor.py:320-366): the autograd attributes of the differentiable result. `enabled` is `CrypTensor.AUTOGRAD_ENABLED`; if it is false, the method is
called directly (cryptensor.py:440-441). -/
def record (enabled : Bool) (h : Heap G) (args kwargs : List (Input G)) : Cell G :=
  let children := tensorsOf (flat args)
  if enabled && children.any h.requiresGrad then
    { requiresGrad := true, children := assign (nonDiff (flat args ++ flat kwargs)) children (entries (flat args ++ flat kwargs)) }
  else fresh

/-- One call, with autograd enabled or not. The result is the tensors afterwards, or `none` if the call raises an exception. -/
def step (enabled : Bool) (h : Heap G) : Instr G → Option (Heap G)
  | .leaf r => some (h ++ [⟨r, []⟩])
  | .call args kwargs extra => some (h ++ record enabled h args kwargs :: List.replicate extra fresh)
  | .native _ => some (h ++ [fresh])
  | .cloned v _ => some (h ++ [record enabled h [.tensor v (some (AddMonoidHom.id G))] []])
  | .inPlace v J args kwargs =>
    if enabled && h.requiresGrad v then none
    else some (h ++ [record enabled h (.tensor v (some J) :: args) kwargs])
  | .setItem _ _ _ => some h
  | .aliased v J =>
    if enabled && h.requiresGrad v then some (h.set v { requiresGrad := true, children := [(v, some J)] })
    else some h
  | .detach v => some (h ++ (if enabled && h.requiresGrad v then [⟨false, [(v, some (AddMonoidHom.id G))]⟩] else [fresh]))

/-- A program: calls, each with the mode in force (see C41 for the modes). -/
abbrev Program (G : Type) [AddCommGroup G] := List (Bool × Instr G)

/-- Runs a program. -/
def run (h : Heap G) : Program G → Option (Heap G)
  | [] => some h
  | (enabled, i) :: p => (step enabled h i).bind fun h' => run h' p

/-- The tape before any `backward`. -/
def Heap.tape (h : Heap G) : Tape G := { grad := fun _ => none, expected := fun _ => 0, received := fun _ => 0, children := h.children }

end CrypTen.Recording

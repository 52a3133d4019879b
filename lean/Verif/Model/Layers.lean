import Verif.Model.Onnx
import Verif.Model.Gradients
import Verif.Model.Program

/-!
# Layers that are built directly

`crypten.nn.Linear`, `MatMul`, `Conv1d` and `Conv2d` as a user builds them (/repo/crypten/nn/module.py:1867-1948, 2027-2295): what the constructors accept, and what `forward` computes.
The parameters are those of the torch layer that the constructor makes; their values are arbitrary. Entries are exact ring elements, as in `Model/Onnx.lean`; the same operations on
shares with their losses are in the second half.
-/

namespace CrypTen.Layers
open NdTensor
variable {R : Type}

/-- An argument that is an integer or a tuple of integers (nn/module.py:2053-2061). -/
inductive Size
  | int (v : ℕ)
  | tuple (vs : List ℕ)

/-- `isinstance(x, int)` (nn/module.py:2124-2125). -/
def Size.isInt : Size → Bool
  | .int _ => true
  | .tuple _ => false

/-- One number per spatial dimension, as torch and gradients.py:1580-1585, 1659-1664 read the argument. A tuple of the wrong length raises (that torch stretches tuples of length one
is not modelled). -/
def Size.read (r : ℕ) : Size → Option (List ℕ)
  | .int v => some (List.replicate r v)
  | .tuple vs => if vs.length = r then some vs else none

/-- `y.add(b)` with broadcasting on both sides (called at nn/module.py:1897, 2157, 2295). -/
def addB [Add R] (y b : NdTensor R) : Option (NdTensor R) := do
  let s ← Grad.broadcastRev y.shape.reverse b.shape.reverse
  let y' ← y.expand s.reverse
  let b' ← b.expand s.reverse
  pure { shape := s.reverse, data := fun idx => y'.data idx + b'.data idx }

/-- `x.matmul(w)` for a tensor with at least one dimension and a matrix (called at nn/module.py:1895, 1940). -/
def matmulLast [CommRing R] (x w : NdTensor R) : Option (NdTensor R) :=
  match x.shape.reverse, w.shape with
  | k :: s, [k', m] =>
    if k = k' then some { shape := s.reverse ++ [m], data := fun idx => ∑ l ∈ Finset.range k, x.data (idx.dropLast ++ [l]) * w.data [l, idx.getLastD 0] } else none
  | _, _ => none

/-- A layer `Linear` (nn/module.py:1885-1892): the attribute `bias` exists only if the argument was true. -/
structure Linear (R : Type) where
  weight : NdTensor R
  bias : Option (NdTensor R)

/-- `Linear.__init__` (nn/module.py:1885-1892) with the parameters `torch.nn.Linear` draws: a weight of shape (out, in) and a bias of shape (out). -/
def Linear.init (inF outF : ℕ) (bias : Bool) (w b : List ℕ → R) : Linear R := { weight := ⟨[outF, inF], w⟩, bias := if bias then some ⟨[outF], b⟩ else none }

/-- `Linear.forward` (nn/module.py:1894-1898). -/
def Linear.forward [CommRing R] (l : Linear R) (x : NdTensor R) : Option (NdTensor R) := do
  let wt ← l.weight.t
  let y ← matmulLast x wt
  match l.bias with
  | some b => addB y b
  | none => pure y

/-- What `MatMul.forward` gets: one tensor, or a list or tuple of tensors (nn/module.py:1938-1945). -/
inductive MatMulInput (R : Type)
  | tensor (x : NdTensor R)
  | list (xs : List (NdTensor R))

/-- `MatMul.forward` (nn/module.py:1938-1945) for matrices as second factors; `weight` is the parameter, if there is one. A list has no method `matmul`. -/
def matMul [CommRing R] (weight : Option (NdTensor R)) (x : MatMulInput R) : Option (NdTensor R) :=
  match weight, x with
  | some w, .tensor x => matmulLast x w
  | some _, .list _ => none
  | none, .tensor _ => none
  | none, .list xs =>
    match xs with
    | [a, b] => matmulLast a b
    | _ => none

/-- A layer `Conv1d` or `Conv2d` (nn/module.py:2127-2146, 2263-2284). -/
structure ConvLayer (R : Type) where
  weight : NdTensor R
  bias : Option (NdTensor R)
  stride : Size
  padding : Size
  dilation : Size
  groups : ℕ

/-- `torch.nn.Conv1d(…)`, `torch.nn.Conv2d(…)` (called at nn/module.py:2128-2137, 2264-2273): the channels must be multiples of the groups, and all sizes must have the right length. -/
def torchConv (r : ℕ) (inC outC : ℕ) (kernel stride padding dilation : Size) (groups : ℕ) : Option (List ℕ) :=
  if 1 ≤ groups ∧ inC % groups = 0 ∧ outC % groups = 0 then
    (kernel.read r).bind fun ks => (stride.read r).bind fun _ => (padding.read r).bind fun _ => (dilation.read r).map fun _ => outC :: inC / groups :: ks
  else none

/-- `Conv1d.__init__` (nn/module.py:2111-2146). -/
def conv1dInit (inC outC : ℕ) (kernel stride padding dilation : Size) (groups : ℕ) (bias : Bool) (w b : List ℕ → R) : Option (ConvLayer R) :=
  if stride.isInt then
    if padding.isInt then
      (torchConv 1 inC outC kernel stride padding dilation groups).map fun s => ⟨⟨s, w⟩, if bias then some ⟨[outC], b⟩ else none, stride, padding, dilation, groups⟩
    else none
  else none

/-- `Conv2d.__init__` (nn/module.py:2249-2284). -/
def conv2dInit (inC outC : ℕ) (kernel stride padding dilation : Size) (groups : ℕ) (bias : Bool) (w b : List ℕ → R) : Option (ConvLayer R) :=
  (torchConv 2 inC outC kernel stride padding dilation groups).map fun s => ⟨⟨s, w⟩, if bias then some ⟨[outC], b⟩ else none, stride, padding, dilation, groups⟩

/-- The convolution itself (called at nn/module.py:2149-2155, 2287-2293). -/
def convCall [CommRing R] (r : ℕ) (l : ConvLayer R) (x : NdTensor R) : Option (NdTensor R) := do
  let ss ← l.stride.read r
  let ps ← l.padding.read r
  let ds ← l.dilation.read r
  let cs ← Onnx.zipDims ss ps ds
  Conv.conv x l.weight cs l.groups

/-- `Conv1d.forward` (nn/module.py:2148-2158). -/
def conv1dForward [CommRing R] (l : ConvLayer R) (x : NdTensor R) : Option (NdTensor R) := do
  let y ← convCall 1 l x
  match l.bias with
  | some b => (b.unsqueeze (-1)).bind fun b => addB y b
  | none => pure y

/-- `Conv2d.forward` (nn/module.py:2286-2296). -/
def conv2dForward [CommRing R] (l : ConvLayer R) (x : NdTensor R) : Option (NdTensor R) := do
  let y ← convCall 2 l x
  match l.bias with
  | some b => (b.unsqueeze (-1)).bind fun b => (b.unsqueeze (-1)).bind fun b => addB y b
  | none => pure y

/-! ## The same on shares -/

/-- `x.matmul(weight.t())` (called at nn/module.py:1895) for a tensor with the index set `β` for all dimensions but the last. -/
def linearOp (β : Type) (inF outF : ℕ) : BilinearOp (β × Fin inF) (Fin outF × Fin inF) (β × Fin outF) := fun o => (List.finRange inF).map fun l => ((o.1, l), (o.2, l))

/-- `Linear.forward` on shares (nn/module.py:1894-1898, /repo/crypten/mpc/primitives/arithmetic.py:341-398). -/
def linearShares {n : ℕ} [NeZero n] {β : Type} {inF outF : ℕ} (x : AST n (β × Fin inF)) (w : AST n (Fin outF × Fin inF)) (b : Option (AST n (Fin outF))) : Proto n (AST n (β × Fin outF)) := do
  let y ← AST.mul (linearOp β inF outF) x w
  match b with
  | some b => y.add (b.reindex fun i => i.2)
  | none => pure y

end CrypTen.Layers

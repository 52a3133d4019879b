import Verif.Model.Arith
import Mathlib.Data.Rat.Defs

/-!
# Tensor objects and shared storage

Models which storage the out-of-place operations of `ArithmeticSharedTensor` write to (/repo/crypten/mpc/primitives/arithmetic.py). A heap has cells (one word at every party) and tensor objects; an
object is a list of cells and the scale of its encoder. Several objects may refer to the same cells (views); the pattern is the same at all parties. Cells that no object refers to stay in the heap.
-/

namespace CrypTen.Alias

/-- A tensor object: the cells of its entries, in order, and the scale of its encoder. -/
structure Obj where
  view : List ℕ
  scale : ℕ

/-- Cells (the word at every party) and objects; `next` and `count` are the first unused numbers. -/
structure Heap (n : ℕ) where
  cell : ℕ → Fin n → I64
  next : ℕ
  obj : ℕ → Obj
  count : ℕ

variable {n : ℕ}

/-- What `get_plain_text()` returns: the revealed words over the scale (see C06 for the decoder). -/
def Heap.plain (h : Heap n) (o : ℕ) : List ℚ := (h.obj o).view.map fun c => (((∑ p, h.cell c p : I64).toInt : ℤ) : ℚ) / (h.obj o).scale

/-- A torch tensor with new storage. -/
def Heap.alloc (h : Heap n) (words : List (Fin n → I64)) : Heap n × List ℕ :=
  ({ h with cell := fun c => if c < h.next then h.cell c else words.getD (c - h.next) 0, next := h.next + words.length }, (List.range words.length).map (h.next + ·))

/-- A new `ArithmeticSharedTensor` object. -/
def Heap.newObj (h : Heap n) (view : List ℕ) (scale : ℕ) : Heap n × ℕ := ({ h with obj := fun o => if o = h.count then ⟨view, scale⟩ else h.obj o, count := h.count + 1 }, h.count)

/-- `o.share = <tensor with new storage>`. -/
def Heap.setShare (h : Heap n) (o : ℕ) (words : List (Fin n → I64)) : Heap n :=
  let (h, v) := h.alloc words
  { h with obj := fun q => if q = o then ⟨v, (h.obj o).scale⟩ else h.obj q }

/-- `o.encoder = <encoder>`. -/
def Heap.setScale (h : Heap n) (o : ℕ) (s : ℕ) : Heap n := { h with obj := fun q => if q = o then ⟨(h.obj o).view, s⟩ else h.obj q }

/-- An in-place torch operation on the share of an object: every cell is changed once. (A view that contains a cell twice cannot be changed in place; torch raises.) -/
def Heap.mapShare (h : Heap n) (o : ℕ) (f : (Fin n → I64) → Fin n → I64) : Heap n := { h with cell := fun c => if c ∈ (h.obj o).view then f (h.cell c) else h.cell c }

/-- The words of the entries of an object. -/
def Heap.words (h : Heap n) (o : ℕ) : List (Fin n → I64) := (h.obj o).view.map h.cell

/-- `clone()` (arithmetic.py:200-204). -/
def Heap.clone (h : Heap n) (o : ℕ) : Heap n × ℕ :=
  let (h', v) := h.alloc (h.words o)
  h'.newObj v (h'.obj o).scale

/-- `encode_` to a larger or equal scale (arithmetic.py:311-322): `self.share *= scale_factor` is in place. (Its other branch is not reached from `add` and `sub`.) -/
def Heap.encodeUp (h : Heap n) (o : ℕ) (s : ℕ) : Heap n :=
  if (h.obj o).scale = s then h
  else (h.mapShare o fun w p => BitVec.ofNat 64 (s / (h.obj o).scale) * w p).setScale o s

/-- The re-encoding in `_arithmetic_function` for `add`, `sub` of two encrypted tensors (arithmetic.py:373-378): either the operand `y` itself, in place, or the clone `r` of the operand `x`. -/
def Heap.align (h : Heap n) (x r y : ℕ) : Heap n :=
  if (h.obj x).scale > (h.obj y).scale then h.encodeUp y (h.obj r).scale
  else if (h.obj x).scale < (h.obj y).scale then h.encodeUp r (h.obj y).scale
  else h

/-- `add`, `sub` of two encrypted tensors (arithmetic.py:354-380). `pairs` are the positions that are combined, by broadcasting. -/
def Heap.addLike (h : Heap n) (neg : Bool) (x y : ℕ) (pairs : List (ℕ × ℕ)) : Heap n × ℕ :=
  let (h, r) := h.clone x
  let h := h.align x r y
  (h.setShare r (pairs.map fun ij => fun p =>
    if neg then ((h.words r).getD ij.1 0) p - ((h.words y).getD ij.2 0) p else ((h.words r).getD ij.1 0) p + ((h.words y).getD ij.2 0) p), r)

/-- The out-of-place operations. -/
inductive Op (n : ℕ) where
  /-- encryption, and every function whose result has new storage computed from the operands (`mul`, `matmul`, `conv`, `square`, `sum`, … of any operands): some words and a scale -/
  | new (words : List (Fin n → I64)) (scale : ℕ)
  /-- `view`, `transpose`, indexing, `expand`, …: an object on the same storage with the same encoder (/repo/crypten/mpc/primitives/arithmetic.py:193-198, regular functions) -/
  | view (x : ℕ) (positions : List ℕ)
  /-- `clone()` -/
  | clone (x : ℕ)
  /-- `neg()`: `self.clone().neg_()` (arithmetic.py:588-595) -/
  | neg (x : ℕ)
  /-- `mul(k)` for an integer (arithmetic.py:422-427) -/
  | mulInt (x : ℕ) (k : I64)
  /-- `div(k)` for an integer, with one or two parties: clone, then in place (arithmetic.py:437-444, 466) -/
  | divInt (x : ℕ) (k : ℤ)
  /-- `x + y` -/
  | add (x y : ℕ) (pairs : List (ℕ × ℕ))
  /-- `x - y` -/
  | sub (x y : ℕ) (pairs : List (ℕ × ℕ))
  /-- comparisons of `x` and `y`: the difference, then new words with scale 1 (/repo/crypten/common/functions/logic.py:33-62) -/
  | compare (x y : ℕ) (pairs : List (ℕ × ℕ)) (words : List (Fin n → I64))

/-- One operation; the result is the new heap and the resulting object. -/
def step (h : Heap n) : Op n → Heap n × ℕ
  | .new words scale => let (h, v) := h.alloc words; h.newObj v scale
  | .view x positions => h.newObj (positions.map fun i => (h.obj x).view.getD i 0) (h.obj x).scale
  | .clone x => h.clone x
  | .neg x => let (h, r) := h.clone x; (h.mapShare r fun w p => -w p, r)
  | .mulInt x k => let (h, r) := h.clone x; (h.setShare r ((h.words x).map fun w p => w p * k), r)
  | .divInt x k => let (h, r) := h.clone x; (h.mapShare r fun w p => BitVec.ofInt 64 ((w p).toInt.tdiv k), r)
  | .add x y pairs => h.addLike false x y pairs
  | .sub x y pairs => h.addLike true x y pairs
  | .compare x y pairs words => let (h, _) := h.addLike true x y pairs; let (h, v) := h.alloc words; h.newObj v 1

/-- A program: the operations, in order. -/
def run (h : Heap n) (ops : List (Op n)) : Heap n := ops.foldl (fun h op => (step h op).1) h

/-- No objects. -/
def empty : Heap n := { cell := fun _ _ => 0, next := 0, obj := fun _ => ⟨[], 1⟩, count := 0 }

end CrypTen.Alias

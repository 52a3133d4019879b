import Verif.Model.Convert
import Mathlib.Data.Rat.Defs

/-!
# Copies of encrypted tensors, in-place writes and changes of the private type

Models `MPCTensor.clone`, `shallow_copy`, `copy_`, `to`, `from_shares` (/repo/crypten/mpc/mpc.py:70-151), the same methods of the two kinds of shared tensors
(/repo/crypten/mpc/primitives/arithmetic.py:151-158, 193-209, 222-229; /repo/crypten/mpc/primitives/binary.py:93-100, 183-201, 317-324), `convert`
(/repo/crypten/mpc/primitives/converters.py:72-83) and `__setitem__` (/repo/crypten/common/functions/regular.py:60-67).

An `MPCTensor` object refers to a shared-tensor object (its `_tensor`); that object refers to storage and has an encoder. Two `MPCTensor`s may refer to the same shared tensor, and two shared tensors
may refer to the same storage. The pattern is the same at all parties. Encoders are kept as their scale: an encoder object is changed only by `_ltz` and `_eqz_2PC`, on an encoder made for their result,
and within `IgnoreEncodings` (see `Model/Context.lean`). Shapes are flattened: a tensor is the list of its entries.
-/

namespace CrypTen.Copies

/-- `crypten.ptype` (/repo/crypten/mpc/ptype.py:13-25); also the class of a shared tensor: `ArithmeticSharedTensor` or `BinarySharedTensor`. -/
inductive Kind where
  | arithmetic
  | binary
  deriving DecidableEq

/-- A shared tensor: its class, the cells of its entries in order, and the scale of its encoder. -/
structure Prim where
  kind : Kind
  view : List ℕ
  scale : ℕ

/-- An `MPCTensor`: its `_tensor` and its `ptype`. -/
structure Obj where
  prim : ℕ
  ptype : Kind

/-- Cells (the word at every party), shared tensors and `MPCTensor`s; `next`, `primCount` and `count` are the first unused numbers. -/
structure Heap (n : ℕ) where
  cell : ℕ → Fin n → I64
  next : ℕ
  prim : ℕ → Prim
  primCount : ℕ
  obj : ℕ → Obj
  count : ℕ

variable {n : ℕ}

/-- `reveal` of one entry (arithmetic.py:296-302, binary.py:364-392): by the class of the shared tensor, the sum or the exclusive or of the words. -/
def open' (k : Kind) (w : Fin n → I64) : I64 := match k with
  | .arithmetic => ∑ p, w p
  | .binary => xorList (List.ofFn w)

/-- One entry of `get_plain_text()` (arithmetic.py:304-309, binary.py:394-399): the revealed word over the scale (see C06 for the decoder). -/
def decode (k : Kind) (scale : ℕ) (w : Fin n → I64) : ℚ := (((open' k w).toInt : ℤ) : ℚ) / scale

/-- The shared tensor of an `MPCTensor`. -/
def Heap.tensor (h : Heap n) (o : ℕ) : Prim := h.prim (h.obj o).prim

/-- `get_plain_text()` of an `MPCTensor` (mpc.py:173-175). -/
def Heap.plain (h : Heap n) (o : ℕ) : List ℚ := (h.tensor o).view.map fun c => decode (h.tensor o).kind (h.tensor o).scale (h.cell c)

/-- The words of the entries. -/
def Heap.words (h : Heap n) (o : ℕ) : List (Fin n → I64) := (h.tensor o).view.map h.cell

/-- A torch tensor with new storage. -/
def Heap.alloc (h : Heap n) (words : List (Fin n → I64)) : Heap n × List ℕ :=
  ({ h with cell := fun c => if c < h.next then h.cell c else words.getD (c - h.next) 0, next := h.next + words.length }, (List.range words.length).map (h.next + ·))

/-- A new shared tensor. -/
def Heap.newPrim (h : Heap n) (p : Prim) : Heap n × ℕ := ({ h with prim := fun q => if q = h.primCount then p else h.prim q, primCount := h.primCount + 1 }, h.primCount)

/-- A new `MPCTensor`. -/
def Heap.newObj (h : Heap n) (o : Obj) : Heap n × ℕ := ({ h with obj := fun q => if q = h.count then o else h.obj q, count := h.count + 1 }, h.count)

/-- A new `MPCTensor` with a new shared tensor with new storage. -/
def Heap.make (h : Heap n) (kind ptype : Kind) (words : List (Fin n → I64)) (scale : ℕ) : Heap n × ℕ :=
  let (h, v) := h.alloc words
  let (h, q) := h.newPrim ⟨kind, v, scale⟩
  h.newObj ⟨q, ptype⟩

/-- Where `l` has the cell `c`, if it has. -/
def position (l : List ℕ) (c : ℕ) : Option ℕ := if c ∈ l then some (l.idxOf c) else none

/-- An in-place torch assignment (`Tensor.copy_`, `Tensor.__setitem__`): the cells `places` get the words `words`, in order. (Source and target may be the same; torch raises if it finds that they overlap in part.) -/
def Heap.write (h : Heap n) (places : List ℕ) (words : List (Fin n → I64)) : Heap n :=
  { h with cell := fun c => match position places c with
      | some i => words.getD i 0
      | none => h.cell c }

/-- The entries `positions` of a list. -/
def pickAt {α : Type} [Inhabited α] (l : List α) (positions : List ℕ) : List α := positions.map fun i => l.getD i default

/-- The words of a shared tensor as shares (one tensor per party). -/
def Heap.shares (h : Heap n) (o : ℕ) : Shares n (Fin (h.words o).length) := fun p i => (h.words o)[i] p

/-- Shares as words. -/
def wordsOf {k : ℕ} (s : Shares n (Fin k)) : List (Fin n → I64) := List.ofFn fun i => fun p => s p i

/-- What the program does. -/
inductive Op (n : ℕ) where
  /-- an encryption, or a function whose result has storage of its own: some words of a kind at a scale (mpc.py:24-61; `ptype` of the result is its kind) -/
  | new (kind : Kind) (words : List (Fin n → I64)) (scale : ℕ)
  /-- `MPCTensor.from_shares(share, ptype=kind, precision=...)` (mpc.py:70-76): the share itself is the storage; here it is nobody else's -/
  | fromShares (kind : Kind) (words : List (Fin n → I64)) (precision : Option ℕ)
  /-- indexing, `view`, `transpose`, `expand`, …: a shallow copy of the shared tensor on a part of its storage (/repo/crypten/common/functions/regular.py) -/
  | view (x : ℕ) (positions : List ℕ)
  /-- `x.clone()` -/
  | clone (x : ℕ)
  /-- `x.shallow_copy()` -/
  | shallow (x : ℕ)
  /-- `x.to(kind, precision=..., bits=...)`; the tuples the conversion uses, and the number of those used before -/
  | toPtype (x : ℕ) (kind : Kind) (precision bits : Option ℕ) (T : Tuples n) (c : ℕ)
  /-- `x.copy_(y)`: entry `i` of `x` is entry `positions[i]` of `y` (by broadcasting); also the end of every method `x.f_(...)` (/repo/crypten/cryptensor.py:397-414) -/
  | copy (x y : ℕ) (positions : List ℕ)
  /-- `x[index] = y`: the entries `into` of `x` are the entries `positions` of `y` -/
  | setItem (x : ℕ) (into : List ℕ) (y : ℕ) (positions : List ℕ)

/-- `_A2B`, `_B2A` (converters.py:18-69); the class and the scale of the result. `default` is `cfg.encoder.precision_bits`. -/
def convert [NeZero n] (default : ℕ) (h : Heap n) (x : ℕ) (precision bits : Option ℕ) (T : Tuples n) (c : ℕ) : Kind × List (Fin n → I64) × ℕ := match (h.tensor x).kind with
  | .arithmetic => (.binary, wordsOf (a2b (h.shares x) T c).val, (h.tensor x).scale)
  | .binary => (.arithmetic, wordsOf (b2a (bits.getD 64) (2 ^ precision.getD default) (h.tensor x).scale (h.shares x) T c).val, 2 ^ precision.getD default)

/-- One operation: the heap and the tensor it returns, or an exception (`none`): an assertion of CrypTen fails, or torch refuses to write to a tensor that has a place twice.
* `clone` (mpc.py:78-84), `shallow_copy` (mpc.py:86-92)
* `copy_` (mpc.py:94-98, arithmetic.py:206-209, binary.py:198-201): storage, encoder and `ptype` are taken over, the class is not
* `to` (mpc.py:119-123, 146-151): a clone if the `ptype` is the one asked for; otherwise `convert`, which returns the shared tensor itself if it is of the class asked for (converters.py:73-75). The clone
  that is made first and not used is left out.
* `__setitem__` (regular.py:60-67, arithmetic.py:222-229, binary.py:317-324): the classes have to agree; encoders are not looked at. (A public value is encrypted first, see `new`.) -/
def step [NeZero n] (default : ℕ) (h : Heap n) : Op n → Option (Heap n × ℕ)
  | .new kind words scale => some (h.make kind kind words scale)
  | .fromShares kind words precision => some (h.make kind kind words (2 ^ precision.getD default))
  | .view x positions =>
    let (h', q) := h.newPrim { h.tensor x with view := pickAt (h.tensor x).view positions }
    some (h'.newObj ⟨q, (h.obj x).ptype⟩)
  | .clone x => some (h.make (h.tensor x).kind (h.obj x).ptype (h.words x) (h.tensor x).scale)
  | .shallow x => some (h.newObj (h.obj x))
  | .toPtype x kind precision bits T c =>
    if (h.obj x).ptype = kind then some (h.make (h.tensor x).kind (h.obj x).ptype (h.words x) (h.tensor x).scale)
    else if (h.tensor x).kind = kind then some (h.newObj ⟨(h.obj x).prim, kind⟩)
    else let (k, words, scale) := convert default h x precision bits T c
      some (h.make k kind words scale)
  | .copy x y positions =>
    if (h.tensor x).view.Nodup then
    let h' := h.write (h.tensor x).view (pickAt (h.words y) positions)
    some ({ h' with
      prim := fun q => if q = (h.obj x).prim then { h.tensor x with scale := (h.tensor y).scale } else h.prim q
      obj := fun o => if o = x then ⟨(h.obj x).prim, (h.obj y).ptype⟩ else h.obj o }, x)
    else none
  | .setItem x into y positions =>
    if (h.tensor x).kind = (h.tensor y).kind ∧ (pickAt (h.tensor x).view into).Nodup then some (h.write (pickAt (h.tensor x).view into) (pickAt (h.words y) positions), x)
    else none

/-- A program: the operations, in order. -/
def run [NeZero n] (default : ℕ) (h : Heap n) : List (Op n) → Option (Heap n)
  | [] => some h
  | op :: ops => match step default h op with
    | some (h', _) => run default h' ops
    | none => none

/-- No tensors. -/
def empty : Heap n := { cell := fun _ _ => 0, next := 0, prim := fun _ => ⟨.arithmetic, [], 1⟩, primCount := 0, obj := fun _ => ⟨0, .arithmetic⟩, count := 0 }

end CrypTen.Copies

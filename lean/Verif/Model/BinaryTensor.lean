import Verif.Model.Convert
import Verif.Model.OnnxOps

/-!
# Tensors of XOR-shared words

Models the class `BinarySharedTensor` (/repo/crypten/mpc/primitives/binary.py) with shapes: the constructor, the operators with broadcasting, in place and out of place, for
operands that are encrypted, public tensors or Python integers, the circuits, selection, sums over a dimension, stacking and writing.

A tensor holds at every index the words of all parties; functions that only move entries act on these. `none` is an exception. The encoder, which only matters when the
words are decoded (C06), and devices are left out.
-/

namespace CrypTen.BinT
open NdTensor Onnx
variable {n : ℕ}

/-- A binary-shared tensor. -/
abbrev BT (n : ℕ) := NdTensor (Fin n → I64)

/-- The words of party `p` (`share`, binary.py:176-179). -/
def words (x : BT n) : Shares n (List ℕ) := fun p idx => x.data idx p

/-- The tensor with these words. -/
def ofWords (s : List ℕ) (w : Shares n (List ℕ)) : BT n := { shape := s, data := fun idx p => w p idx }

/-! ## The constructor -/

/-- What a party passes to the constructor: the tensor (already as words: it is encoded with scale 1, binary.py:80-84), its attribute `src` if it has one, and `size`. -/
structure Args where
  tensor : Option (NdTensor I64) := none
  tensorSrc : Option ℤ := none
  size : Option (List ℕ) := none

/-- How the call ends at one party. `blank` is an object without a share (`src = SENTINEL`), `waits` a call that waits for a message that nobody sends. -/
inductive End where
  | blank
  | fails
  | waits
  | done (share : NdTensor I64)

/-- The assertions of binary.py:62-74 (arithmetic.py:69-81) at party `r`. -/
def argsOk (src : ℤ) (broadcast : Bool) (n : ℕ) (r : Fin n) (a : Args) : Bool :=
  (0 ≤ src && src < n) && (if (r : ℤ) = src then a.tensor.isSome && (a.tensorSrc = none || a.tensorSrc = some src) else true)
    && (broadcast || a.tensor.isSome || a.size.isSome)

/-- The size known at a party before the broadcast (binary.py:81-84): that of its tensor, otherwise the argument. -/
def ownSize (a : Args) : Option (List ℕ) :=
  match a.tensor with
  | some t => some t.shape
  | none => a.size

/-- `BinarySharedTensor(tensor, size, broadcast_size, src)` at all parties (binary.py:35-93; arithmetic.py:38-104 has the same course). `zero r` are the words of party `r`'s
zero-share, which has the size the party asks for; `mask` adds the source's tensor to it (`^=` here, `+=` in arithmetic.py). -/
def construct (mask : I64 → I64 → I64) (zero : Shares n (List ℕ)) (src : ℤ) (broadcast : Bool) (args : Fin n → Args) (r : Fin n) : End :=
  if src = -1 then .blank
  else if !argsOk src broadcast n r (args r) then .fails
  else
    -- size = comm.get().broadcast_obj(size, src), binary.py:87-88
    let size : Option (Option (List ℕ)) :=
      if broadcast then (List.finRange n).findSome? fun q : Fin n => if ((q : ℕ) : ℤ) = src then if argsOk src broadcast n q (args q) then some (ownSize (args q)) else none else none
      else some (ownSize (args r))
    match size with
    | none => .waits
    | some none => .fails
    | some (some s) =>
      if (r : ℤ) = src then
        match (args r).tensor with
        | some t => .done { shape := s, data := fun idx => mask (zero r idx) (t.data idx) }
        | none => .fails
      else .done { shape := s, data := zero r }

/-! ## Operators -/

/-- The right operand of an operator. -/
inductive Arg (n : ℕ) where
  | shared (y : BT n)
  | pub (y : NdTensor I64)
  | int (z : ℤ)

/-- `__ixor__` (binary.py:213-223). A public operand is used by rank 0 only, which expands it to the shape of the share or raises; that the
other ranks carry on in the latter case is not modelled. -/
def ixor [NeZero n] (x : BT n) : Arg n → Option (BT n)
  | .shared y => (y.expand x.shape).map fun y => ofWords x.shape (xorShares (words x) (words y))
  | .pub y => (y.expand x.shape).map fun y => ofWords x.shape (xorPublic (words x) y.data)
  | .int z => some (ofWords x.shape (xorPublic (words x) fun _ => BitVec.ofInt 64 z))

/-- `torch.broadcast_tensors(result.share, y)[0].clone()` (binary.py:228-233, 249-254). -/
def bcast (x : BT n) : Arg n → Option (BT n)
  | .shared y => (commonShape x.shape y.shape).bind fun s => x.expand s
  | .pub y => (commonShape x.shape y.shape).bind fun s => x.expand s
  | .int _ => some x

/-- `__xor__` (binary.py:225-234). -/
def xor [NeZero n] (x : BT n) (a : Arg n) : Option (BT n) := (bcast x a).bind fun r => ixor r a

/-- A protocol on the words of two tensors, after both have been brought to a common shape. -/
def lift2 (f : Shares n (List ℕ) → Shares n (List ℕ) → Proto n (Shares n (List ℕ))) (x y : BT n) : Proto n (Option (BT n)) :=
  match (commonShape x.shape y.shape).bind fun s => (x.expand s).bind fun x' => (y.expand s).map fun y' => (s, x', y') with
  | none => pure none
  | some (s, x', y') => do
    let z ← f (words x') (words y')
    pure (some (ofWords s z))

/-- `__iand__` (binary.py:236-244). With an encrypted operand the share is set to that of `beaver.AND(self, y)`, whose shape is the common one of both (beaver.py:171-190; the triple
is taken to have a component for every entry of that shape). -/
def iand [NeZero n] (x : BT n) : Arg n → Proto n (Option (BT n))
  | .shared y => lift2 Proto.and x y
  | .pub y => pure ((y.expand x.shape).map fun y => ofWords x.shape (andPublic (words x) y.data))
  | .int z => pure (some (ofWords x.shape (andPublic (words x) fun _ => BitVec.ofInt 64 z)))

/-- `__and__` (binary.py:246-256). -/
def and [NeZero n] (x : BT n) (a : Arg n) : Proto n (Option (BT n)) :=
  match bcast x a with
  | none => pure none
  | some r => iand r a

/-- `__ior__` (binary.py:258-261). -/
def ior [NeZero n] (x : BT n) (a : Arg n) : Proto n (Option (BT n)) :=
  match xor x a with
  | none => pure none
  | some xorResult => do
    let z ← iand x a
    pure (z.bind fun z => ixor z (.shared xorResult))

/-- `__or__` (binary.py:263-265). -/
def or [NeZero n] (x : BT n) (a : Arg n) : Proto n (Option (BT n)) := do
  let z ← and x a
  pure (z.bind fun z => (xor z (.shared x)).bind fun w => xor w a)

/-- `__invert__` (binary.py:267-272). -/
def invert [NeZero n] (x : BT n) : BT n := ofWords x.shape (notShares (words x))

/-- `lshift_`, `lshift` (binary.py:274-282). -/
def lshift (x : BT n) (k : ℕ) : BT n := ofWords x.shape (lshiftShares (words x) k)

/-- `rshift_`, `rshift` (binary.py:284-292). -/
def rshift (x : BT n) (k : ℕ) : BT n := ofWords x.shape (rshiftShares (words x) k)

/-- The circuits `add`, `eq`, `ne`, `lt`, `le`, `gt`, `ge`. -/
inductive Circ where
  | add | eq | ne | lt | le | gt | ge
  deriving DecidableEq

/-- binary.py:294-315 for an encrypted operand; the operands are brought to a common shape by the first `&` or `^` of a circuit. -/
def circ [NeZero n] : Circ → BT n → BT n → Proto n (Option (BT n))
  | .add => lift2 addX
  | .eq => lift2 eqX
  | .ne => lift2 neX
  | .lt => lift2 ltX
  | .le => lift2 leX
  | .gt => lift2 gtX
  | .ge => lift2 geX

/-- `where` with an encrypted condition (binary.py:420-429). -/
def whereEnc [NeZero n] (x c : BT n) (y : Arg n) : Proto n (Option (BT n)) := do
  let expanded := ofWords c.shape fun p idx => -(words c p idx &&& 1)
  let yMasked ← and (invert expanded) y
  match yMasked with
  | none => pure none
  | some yMasked => do
    let xMasked ← and x (.shared expanded)
    pure (xMasked.bind fun xm => xor xm (.shared yMasked))

/-- `y & ~condition` of `where` for a public condition (binary.py:412-418), whose entries the assertion restricts to 0 and 1: here they are Booleans. -/
def maskedY [NeZero n] (c : NdTensor Bool) : Arg n → Proto n (Option (Arg n))
  | .shared y => do
    let r ← and y (.pub (mapEntries (fun b => ~~~(-boolI64 b)) c))
    pure (r.map .shared)
  | .pub y => pure ((Onnx.zip (· &&& ·) y (mapEntries (fun b => ~~~(-boolI64 b)) c)).map .pub)
  | .int z => pure (some (.pub (mapEntries (fun b => BitVec.ofInt 64 z &&& ~~~(-boolI64 b)) c)))

/-- `where` with a public condition (binary.py:412-418, 429). -/
def wherePub [NeZero n] (x : BT n) (c : NdTensor Bool) (y : Arg n) : Proto n (Option (BT n)) := do
  let yMasked ← maskedY c y
  match yMasked with
  | none => pure none
  | some yMasked => do
    let xMasked ← and x (.pub (mapEntries (fun b => -boolI64 b) c))
    pure (xMasked.bind fun xm => xor xm yMasked)

/-- The rows of a tensor, the entries `x[0]`, `x[1]`, … of its first dimension. -/
def rows (x : BT n) : List (Shares n (List ℕ)) := (List.range (x.shape.headD 0)).map fun j p idx => x.data (j :: idx) p

/-- A tensor with these rows. -/
def ofRows (s : List ℕ) (l : List (Shares n (List ℕ))) : BT n :=
  { shape := l.length :: s, data := fun idx p => (l.getD (idx.headD 0) fun _ _ => 0#64) p idx.tail }

/-- `sum(dim)` (binary.py:339-362). A dimension of size 0 is left as it is. -/
def sum [NeZero n] (x : BT n) (dim : Option ℤ) : Proto n (Option (BT n)) :=
  match (match dim with | none => x.flatten 0 (-1) | some d => x.transpose 0 d) with
  | none => pure none
  | some y =>
    if y.shape = [] then pure none
    else do
      let l ← sumXLoop (rows y).length (rows y)
      let z := ofRows y.shape.tail l
      pure (match dim with | none => some z.squeezeAll | some d => (z.transpose 0 d).bind fun z => z.squeeze d)

/-- `stack` (binary.py:326-337) of tensors along a dimension; the share of the copy is replaced. -/
def stack (xs : List (BT n)) (dim : ℤ) : Option (BT n) := NdTensor.stack xs dim

/-- A function of torch that only moves entries and is applied to the share of every party (`transpose`, `reshape`, `x[index]`, …, binary.py:448-475 and
/repo/crypten/common/functions/regular.py): the shape of its result (`none` is an exception) and where each entry comes from. -/
structure View where
  size : List ℕ → Option (List ℕ)
  src : List ℕ → List ℕ → List ℕ
  valid : ∀ s s' idx, size s = some s' → List.Forall₂ (fun m i => i < m) s' idx → List.Forall₂ (fun m i => i < m) s (src s idx)

/-- see `View` -/
def View.apply {R : Type} (v : View) (x : NdTensor R) : Option (NdTensor R) := (v.size x.shape).map fun s' => { shape := s', data := fun idx => x.data (v.src x.shape idx) }

/-- An assignment `self[index] = value` or `self.scatter_(dim, index, value)`: whether torch accepts the shapes, and the entry of the value that is written at an entry of `self`, if
one is. (If `index` names an entry twice, which one is written is left to torch, but has to be the same at every party.) -/
structure Write where
  accepts : List ℕ → List ℕ → Bool
  pick : List ℕ → Option (List ℕ)
  valid : ∀ s v idx j, accepts s v = true → pick idx = some j → List.Forall₂ (fun m i => i < m) v j

/-- see `Write` -/
def Write.apply {R : Type} (w : Write) (x v : NdTensor R) : Option (NdTensor R) :=
  if w.accepts x.shape v.shape then some { shape := x.shape, data := fun idx => (w.pick idx).elim (x.data idx) v.data } else none

/-- `__setitem__` (binary.py:317-324) and `scatter_`, `scatter` (binary.py:431-450): a public value is encrypted first, by party 0; an integer is refused. -/
def write [NeZero n] (w : Write) (x : BT n) : Arg n → Proto n (Option (BT n))
  | .shared v => pure (w.apply x v)
  | .pub v => do
    let e ← Proto.encryptX 0 v.data
    pure (w.apply x (ofWords v.shape e))
  | .int _ => pure none

/-! ## Programs -/

/-- An operand: a tensor computed before, a public tensor or an integer. -/
inductive Ref where
  | reg (i : ℕ)
  | pub (y : NdTensor I64)
  | int (z : ℤ)

/-- The operators `^`, `&`, `|`. -/
inductive Op where
  | xor | and | or
  deriving DecidableEq

/-- A statement. Out-of-place statements append their result to the list of tensors, in-place statements replace tensor `a`. Every tensor has storage of its own (see C85 for copies that
share it). -/
inductive Instr (n : ℕ) where
  | encrypt (src : Fin n) (x : NdTensor I64)
  | op (o : Op) (a : ℕ) (b : Ref)
  | iop (o : Op) (a : ℕ) (b : Ref)
  | invert (a : ℕ)
  | lshift (a k : ℕ)
  | rshift (a k : ℕ)
  | circ (c : Circ) (a b : ℕ)
  | whereEnc (a c : ℕ) (b : Ref)
  | wherePub (a : ℕ) (c : NdTensor Bool) (b : Ref)
  | sum (a : ℕ) (dim : Option ℤ)
  | stack (as : List ℕ) (dim : ℤ)
  | view (v : View) (a : ℕ)
  | write (w : Write) (a : ℕ) (b : Ref)

/-- The operand meant by a reference. -/
def Ref.arg (regs : List (BT n)) : Ref → Option (Arg n)
  | .reg i => regs[i]?.map .shared
  | .pub y => some (.pub y)
  | .int z => some (.int z)

/-- `x o y` -/
def opOut [NeZero n] : Op → BT n → Arg n → Proto n (Option (BT n))
  | .xor, x, a => pure (xor x a)
  | .and, x, a => and x a
  | .or, x, a => or x a

/-- `x o= y` -/
def opIn [NeZero n] : Op → BT n → Arg n → Proto n (Option (BT n))
  | .xor, x, a => pure (ixor x a)
  | .and, x, a => iand x a
  | .or, x, a => ior x a

/-- What a statement computes (`none` is an exception), before the result is stored. -/
def Instr.value [NeZero n] (regs : List (BT n)) : Instr n → Proto n (Option (BT n))
  | .encrypt src x => do
    let e ← Proto.encryptX src x.data
    pure (some (ofWords x.shape e))
  | .op o a b =>
    match regs[a]?, b.arg regs with
    | some x, some y => opOut o x y
    | _, _ => pure none
  | .iop o a b =>
    match regs[a]?, b.arg regs with
    | some x, some y => opIn o x y
    | _, _ => pure none
  | .invert a => pure (regs[a]?.map BinT.invert)
  | .lshift a k => pure (regs[a]?.map fun x => BinT.lshift x k)
  | .rshift a k => pure (regs[a]?.map fun x => BinT.rshift x k)
  | .circ c a b =>
    match regs[a]?, regs[b]? with
    | some x, some y => BinT.circ c x y
    | _, _ => pure none
  | .whereEnc a c b =>
    match regs[a]?, regs[c]?, b.arg regs with
    | some x, some c, some y => BinT.whereEnc x c y
    | _, _, _ => pure none
  | .wherePub a c b =>
    match regs[a]?, b.arg regs with
    | some x, some y => BinT.wherePub x c y
    | _, _ => pure none
  | .sum a dim =>
    match regs[a]? with
    | some x => BinT.sum x dim
    | none => pure none
  | .stack as dim => pure ((as.mapM fun a => regs[a]?).bind fun xs => BinT.stack xs dim)
  | .view v a => pure (regs[a]?.bind v.apply)
  | .write w a b =>
    match regs[a]?, b.arg regs with
    | some x, some y => BinT.write w x y
    | _, _ => pure none

/-- Where the result of a statement is stored. -/
def Instr.store {α : Type} (regs : List α) (v : α) : Instr n → List α
  | .iop _ a _ => regs.set a v
  | .write _ a _ => regs.set a v
  | _ => regs ++ [v]

/-- A program; `none` is an exception that ends it. -/
def run [NeZero n] : List (Instr n) → List (BT n) → Proto n (Option (List (BT n)))
  | [], regs => pure (some regs)
  | i :: prog, regs => do
    let v ← i.value regs
    match v with
    | none => pure none
    | some v => run prog (i.store regs v)

end CrypTen.BinT

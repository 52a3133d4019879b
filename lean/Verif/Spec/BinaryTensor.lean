import Verif.Model.BinaryTensor
import Verif.Spec.OnnxOps

/-!
# What programs on binary-shared tensors compute

The same statements on tensors of 64-bit words, with torch's broadcasting.
-/

namespace CrypTen.BinT
open NdTensor Onnx OnnxSpec
variable {n : ℕ}

/-- How a statement ends: with a value, with an exception, or without a promise (see `sumWords` and `inPlace`). -/
inductive Res (α : Type) where
  | ok (a : α)
  | raises
  | unspecified

/-- `none` is an exception. -/
def Res.ofOption {α : Type} : Option α → Res α
  | some a => .ok a
  | none => .raises

/-- The operators on words. -/
def opWord : Op → I64 → I64 → I64
  | .xor, a, b => a ^^^ b
  | .and, a, b => a &&& b
  | .or, a, b => a ||| b

/-- Sum and comparisons of signed words; the result of a comparison is 0 or 1. -/
def circWord : Circ → I64 → I64 → I64
  | .add, a, b => a + b
  | .eq, a, b => if a = b then 1 else 0
  | .ne, a, b => if a = b then 0 else 1
  | .lt, a, b => if a.toInt < b.toInt then 1 else 0
  | .le, a, b => if a.toInt ≤ b.toInt then 1 else 0
  | .gt, a, b => if a.toInt > b.toInt then 1 else 0
  | .ge, a, b => if a.toInt ≥ b.toInt then 1 else 0

/-- An operand of a plain operation, and whether it is encrypted. -/
inductive Operand where
  | tensor (y : NdTensor I64) (encrypted : Bool)
  | int (z : ℤ)

/-- The operand meant by a reference. -/
def Ref.plain (regs : List (NdTensor I64)) : Ref → Option Operand
  | .reg i => regs[i]?.map (.tensor · true)
  | .pub y => some (.tensor y false)
  | .int z => some (.int z)

/-- `x o y` with broadcasting. -/
def outOfPlace (o : Op) (x : NdTensor I64) : Operand → Res (NdTensor I64)
  | .tensor y _ => .ofOption (zip (opWord o) x y)
  | .int z => .ok (mapEntries (fun a => opWord o a (BitVec.ofInt 64 z)) x)

/-- `x o= y`: the operand has to fit the shape of `x`. Nothing is promised for `&=` and `|=` with an encrypted operand that only has a common shape with `x`. -/
def inPlace (o : Op) (x : NdTensor I64) : Operand → Res (NdTensor I64)
  | .tensor y encrypted =>
    match y.expand x.shape with
    | some y => .ok { shape := x.shape, data := fun idx => opWord o (x.data idx) (y.data idx) }
    | none => if encrypted ∧ o ≠ .xor ∧ (commonShape x.shape y.shape).isSome then .unspecified else .raises
  | .int z => .ok (mapEntries (fun a => opWord o a (BitVec.ofInt 64 z)) x)

/-- `where`: all three operands are broadcast. -/
def select (c : NdTensor Bool) (x : NdTensor I64) : Operand → Res (NdTensor I64)
  | .tensor y _ => .ofOption ((commonShape c.shape x.shape).bind fun s => (commonShape s y.shape).map fun s =>
      { shape := s, data := fun idx => if (c.broadcast s).data idx then (x.broadcast s).data idx else (y.broadcast s).data idx })
  | .int z => .ofOption ((commonShape c.shape x.shape).map fun s =>
      { shape := s, data := fun idx => if (c.broadcast s).data idx then (x.broadcast s).data idx else BitVec.ofInt 64 z })

/-- `sum(dim)`, modulo `2 ^ 64`. Nothing is promised if there is nothing to add up, or for a dimension of a tensor without dimensions. -/
def sumWords (x : NdTensor I64) : Option ℤ → Res (NdTensor I64)
  | none => if x.shape.prod = 0 then .unspecified else .ok x.sumAll
  | some d =>
    if x.shape = [] then .unspecified
    else match normDim x.shape.length d with
      | none => .raises
      | some k => if x.shape.getD k 0 = 0 then .unspecified else .ofOption (x.sumDim d false)

/-- A statement on plain tensors. -/
def Instr.plain (regs : List (NdTensor I64)) : Instr n → Res (NdTensor I64)
  | .encrypt _ x => .ok x
  | .op o a b =>
    match regs[a]?, b.plain regs with
    | some x, some y => outOfPlace o x y
    | _, _ => .raises
  | .iop o a b =>
    match regs[a]?, b.plain regs with
    | some x, some y => inPlace o x y
    | _, _ => .raises
  | .invert a => .ofOption (regs[a]?.map (mapEntries fun v => ~~~v))
  | .lshift a k => .ofOption (regs[a]?.map (mapEntries fun v : I64 => v <<< k))
  | .rshift a k => .ofOption (regs[a]?.map (mapEntries fun v : I64 => v.sshiftRight k))
  | .circ c a b =>
    match regs[a]?, regs[b]? with
    | some x, some y => .ofOption (zip (circWord c) x y)
    | _, _ => .raises
  | .whereEnc a c b =>
    match regs[a]?, regs[c]?, b.plain regs with
    | some x, some c, some y => select (mapEntries (fun v => v.getLsbD 0) c) x y
    | _, _, _ => .raises
  | .wherePub a c b =>
    match regs[a]?, b.plain regs with
    | some x, some y => select c x y
    | _, _ => .raises
  | .sum a dim =>
    match regs[a]? with
    | some x => sumWords x dim
    | none => .raises
  | .stack as dim => .ofOption ((as.mapM fun a => regs[a]?).bind fun xs => NdTensor.stack xs dim)
  | .view v a => .ofOption (regs[a]?.bind v.apply)
  | .write w a b =>
    match regs[a]?, b.plain regs with
    | some x, some (.tensor v _) => .ofOption (w.apply x v)
    | _, _ => .raises

/-- The tensor a statement replaces; other statements make a new tensor. -/
def Instr.replaces : Instr n → Option ℕ
  | .iop _ a _ => some a
  | .write _ a _ => some a
  | _ => none

/-- A program on plain tensors. -/
def plainRun : List (Instr n) → List (NdTensor I64) → Res (List (NdTensor I64))
  | [], regs => .ok regs
  | i :: prog, regs =>
    match i.plain regs with
    | .ok v => plainRun prog (match i.replaces with | some a => regs.set a v | none => regs ++ [v])
    | .raises => .raises
    | .unspecified => .unspecified

/-- The tensor of words that opening all shares gives. -/
def revealT (x : BT n) : NdTensor I64 := { shape := x.shape, data := fun idx => revealX (words x) idx }

/-- The encrypted tensors hold the plain ones: same shape, same words. -/
def Holds (xs : List (BT n)) (ts : List (NdTensor I64)) : Prop := List.Forall₂ (fun x t => OnnxSpec.Same (revealT x) t) xs ts

end CrypTen.BinT

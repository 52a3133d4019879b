import Verif.Model.CudaTensor
import Verif.Spec.OnnxOps

/-!
# Specification for C90: programs on torch's own integer tensors

The same statements, where every variable is a torch tensor of 64-bit integers and every operator is the one of torch. `none` is an exception of torch.
-/

namespace CrypTen.CudaT

/-- The places of the variables, and the entries. -/
structure Plain where
  vars : List ℕ
  heap : List (NdTensor I64)

namespace Plain

/-- A variable with its entries. -/
def ten (pl : Plain) (v : ℕ) : Option (ℕ × NdTensor I64) := pl.vars[v]?.bind fun c => pl.heap[c]?.map fun t => (c, t)

/-- The value of an operand. -/
def arg (pl : Plain) : Operand → Option TArg
  | .var v => (pl.ten v).map fun x => .ten x.2
  | .int z => some (.int z)

/-- A new variable with new storage. -/
def push (pl : Plain) (t : NdTensor I64) : Plain := { vars := pl.vars ++ [pl.heap.length], heap := pl.heap ++ [t] }

/-- New entries in the place `c`. -/
def write (pl : Plain) (c : ℕ) (t : NdTensor I64) : Plain := { pl with heap := pl.heap.set c t }

variable (junk : BinOp → I64 → I64 → I64)

/-- The operator that a method or function is named after. -/
def meaning : Method → BinOp
  | .add => .add
  | .sub => .sub
  | .mul => .mul
  | .pow => .pow

/-- One statement. -/
def step (pl : Plain) : Instr → Option Plain
  | .bin op a b => (pl.arg a).bind fun a => (pl.arg b).bind fun b => (torchBin junk op a b).map pl.push
  | .iop op v b => (pl.ten v).bind fun x => (pl.arg b).bind fun b => (torchInBin junk op x.2 b).map (pl.write x.1)
  | .cmp c a b => (pl.arg a).bind fun a => (pl.arg b).bind fun b => (torchZip (cmpWord c) a b).map pl.push
  | .method m v b => (pl.ten v).bind fun x => (pl.arg b).bind fun b => (torchBin junk (meaning m) (.ten x.2) b).map pl.push
  | .methodI m v b => (pl.ten v).bind fun x => (pl.arg b).bind fun b => (torchMethodI m x.2 b).map (pl.write x.1)
  | .func m v b => (pl.ten v).bind fun x => (pl.arg b).bind fun b => (torchBin junk (meaning m) (.ten x.2) b).map pl.push
  | .neg v => (pl.ten v).map fun x => pl.push (Onnx.mapEntries (fun a => -a) x.2)
  | .clone v => (pl.ten v).map fun x => pl.push x.2
  | .wrap v => (pl.ten v).map fun x => { pl with vars := pl.vars ++ [x.1] }
  | .setitem v i b => (pl.ten v).bind fun x => (pl.arg b).bind fun b => (torchSet x.2 i b).map (pl.write x.1)

/-- A program. -/
def run (pl : Plain) : List Instr → Option Plain
  | [] => some pl
  | i :: p => (pl.step junk i).bind fun pl => run pl p

end Plain

/-- The same variables share storage, and all entries are the same. -/
def Rel (st : State) (pl : Plain) : Prop := st.vars.map Var.cell = pl.vars ∧ List.Forall₂ OnnxSpec.Same st.heap pl.heap

/-- Statements without floor division by operators and without a power with a number as its base. -/
def Instr.Sound : Instr → Prop
  | .bin op a _ => op ≠ .floordiv ∧ (op = .pow → ∀ z, a ≠ .int z)
  | .iop op _ _ => op ≠ .floordiv
  | _ => True

/-- The statements that a wrapped tensor accepts: no `|`; shifts by numbers only; an operator with a tensor on the right must not need to stretch the left one; a number on the left
of `+`, `-`, `*` and, if it is not negative, `**` only; no assignment of a number to a part. -/
def Accepts (st : State) : Instr → Prop
  | .bin op a b =>
    match st.arg a, st.arg b with
    | some (true, .ten x), some (_, .ten y) => op ≠ .or ∧ op ≠ .lshift ∧ op ≠ .rshift ∧ (op = .floordiv ∨ OnnxSpec.IsCommonShape [x.shape, y.shape] x.shape)
    | some (true, .ten _), some (_, .int _) => op ≠ .or
    | some (_, .int z), some (true, .ten _) => op = .add ∨ op = .sub ∨ op = .mul ∨ (op = .pow ∧ 0 ≤ z)
    | _, _ => True
  | .iop op v b =>
    match st.ten v, st.arg b with
    | some (⟨true, _⟩, _), some (_, .ten _) => op ≠ .or ∧ op ≠ .lshift ∧ op ≠ .rshift
    | some (⟨true, _⟩, _), some (_, .int _) => op ≠ .or
    | _, _ => True
  | .setitem v _ b =>
    match st.ten v, st.arg b with
    | some (⟨true, _⟩, _), some (_, .int _) => False
    | _, _ => True
  | _ => True

/-- Whether an operand is a wrapped tensor. -/
def State.isWrapped (st : State) : Operand → Bool
  | .var v => (st.vars[v]?.map Var.wrapped).getD false
  | .int _ => false

/-- Which variables are wrapped after a statement: a result is wrapped if one of the operands is, a variable changed by an operator if it or the other operand is, and nothing else
changes. -/
def Instr.wraps (st : State) : Instr → List Bool
  | .bin _ a b | .cmp _ a b => st.vars.map Var.wrapped ++ [st.isWrapped a || st.isWrapped b]
  | .method _ v b | .func _ v b => st.vars.map Var.wrapped ++ [st.isWrapped (.var v) || st.isWrapped b]
  | .neg v | .clone v => st.vars.map Var.wrapped ++ [st.isWrapped (.var v)]
  | .wrap _ => st.vars.map Var.wrapped ++ [true]
  | .iop _ v b => (st.vars.map Var.wrapped).set v (st.isWrapped (.var v) || st.isWrapped b)
  | .methodI _ _ _ | .setitem _ _ _ => st.vars.map Var.wrapped

end CrypTen.CudaT

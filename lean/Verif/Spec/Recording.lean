import Verif.Spec.Autograd
import Verif.Model.Recording

/-!
# Specification for C68: the flow of data in a program of tensor operations

Nothing here knows about `requires_grad` or the tape. Values are numbered; an operation makes a new value from the current values of its operands, and an operation in place makes
a new value for an existing tensor. An edge of the flow carries the derivative of the new value with respect to that operand. Operations under `no_grad`, detached tensors and
operands that are treated as constants make no edges.
-/

namespace CrypTen.Recording
variable {G : Type} [AddCommGroup G]

/-- `val`: the current value of each tensor. `deps`: the operands of each value with the derivatives. -/
structure Flow (G : Type) [AddCommGroup G] where
  val : List ℕ
  deps : List (List (ℕ × (G →+ G)))

namespace Flow

/-- The current value of tensor `v`. -/
def value (f : Flow G) (v : ℕ) : ℕ := f.val.getD v 0

/-- The values of encrypted operands. -/
def operands (f : Flow G) : List (Input G) → List (ℕ × (G →+ G))
  | [] => []
  | .tensor v (some J) :: l => (f.value v, J) :: f.operands l
  | _ :: l => f.operands l

/-- A new tensor with a new value. -/
def new (f : Flow G) (d : List (ℕ × (G →+ G))) : Flow G := ⟨f.val ++ [f.deps.length], f.deps ++ [d]⟩

/-- A new value for tensor `v`. -/
def assign (f : Flow G) (v : ℕ) (d : List (ℕ × (G →+ G))) : Flow G := ⟨f.val.set v f.deps.length, f.deps ++ [d]⟩

/-- Several new constants. -/
def constants (f : Flow G) : ℕ → Flow G
  | 0 => f
  | k + 1 => (f.new []).constants k

/-- What an operation computes from what. An operation in place also leaves its result in a temporary tensor. -/
def step (enabled : Bool) (f : Flow G) : Instr G → Flow G
  | .leaf _ => f.new []
  | .call args kwargs extra => (f.new (if enabled then f.operands (flat args ++ flat kwargs) else [])).constants extra
  | .native args => f.new (if enabled then f.operands (flat args) else [])
  | .cloned v others => f.new (if enabled then (f.value v, AddMonoidHom.id G) :: f.operands (flat others) else [])
  | .inPlace v J args kwargs =>
    let f := f.new (if enabled then f.operands (flat (.tensor v (some J) :: args) ++ flat kwargs) else [])
    ⟨f.val.set v (f.deps.length - 1), f.deps⟩
  | .setItem v J value => f.assign v (if enabled then f.operands (flat [.tensor v (some J), value]) else [])
  | .aliased v J => f.assign v (if enabled then [(f.value v, J)] else [])
  | .detach _ => f.new []

/-- The flow of a program. -/
def run (f : Flow G) : Program G → Flow G
  | [] => f
  | (enabled, i) :: p => (f.step enabled i).run p

/-- The flow as a graph. -/
def graph (f : Flow G) (n : ℕ) : List (ℕ × Option (G →+ G)) := (f.deps.getD n []).map fun c => (c.1, some c.2)

end Flow

/-- The flow of a program from the beginning. -/
def flowOf (p : Program G) : Flow G := (⟨[], []⟩ : Flow G).run p

/-- The derivative of tensor `t` with respect to tensor `w`, applied to `g`: the sum over all paths in the flow of data. -/
def derivative (p : Program G) (t w : ℕ) (g : G) : G :=
  sumOverPaths (flowOf p).graph ((flowOf p).value w) ((flowOf p).value t + 1) ((flowOf p).value t) g

end CrypTen.Recording

import Verif.Model.Logic
import Verif.Model.Maximum
import Verif.Model.Encoder

/-!
# Programs on encrypted tensors

A straight-line program over tensors in registers: a user's function that encrypts data of the parties, computes with the arithmetic methods of `MPCTensor`
(also through the layers of `crypten.nn`, which call the same methods) and reveals the results. Every instruction calls the method modelled elsewhere;
this module only composes them. Register `r` holds a tensor with index set `sh r`; broadcasting, reshaping and slicing are the maps `f`, `g` of the
instructions. All tensors have the default encoding of `k` bits (/repo/configs/default.yaml:3, /repo/crypten/encoder.py:17-39).
-/

namespace CrypTen.Program
variable {n : ℕ}

/-- One method call with its result in register `d`. -/
inductive Op (n : ℕ) (sh : ℕ → Type) (d : ℕ) where
  /-- `crypten.cryptensor(x, src=src)` (/repo/crypten/mpc/mpc.py:34-77, /repo/crypten/mpc/primitives/arithmetic.py:31-107) -/
  | input (src : Fin n) (x : sh d → ℚ)
  /-- `a + b` -/
  | add (a b : ℕ) (f : sh d → sh a) (g : sh d → sh b)
  /-- `a - b` -/
  | sub (a b : ℕ) (f : sh d → sh a) (g : sh d → sh b)
  /-- `-a` -/
  | neg (a : ℕ) (f : sh d → sh a)
  /-- `a + y` for public numbers -/
  | addPub (a : ℕ) (f : sh d → sh a) (y : sh d → ℚ)
  /-- `a * z` for a Python integer -/
  | mulInt (a : ℕ) (f : sh d → sh a) (z : ℤ)
  /-- `a * b`, `a.matmul(b)`, `a.conv2d(b)`, … -/
  | mul (a b : ℕ) (B : BilinearOp (sh a) (sh b) (sh d))
  /-- the same with a public tensor `y` of `m` entries -/
  | mulPub (a : ℕ) (m : ℕ) (B : BilinearOp (sh a) (Fin m) (sh d)) (y : Fin m → ℚ)
  /-- `a.square()` -/
  | square (a : ℕ) (f : sh d → sh a)
  /-- `a.div(z)` for a Python integer -/
  | divInt (a : ℕ) (f : sh d → sh a) (z : ℤ)
  /-- `a.view(...)`, `a[...]`, `a.expand(...)`, `a.t()`, … -/
  | reindex (a : ℕ) (f : sh d → sh a)
  /-- `a.sum(dim)` and sum pooling: `m` entries are added -/
  | sum (a m : ℕ) (f : Fin m × sh d → sh a)
  /-- `a.relu()` -/
  | relu (a : ℕ) (f : sh d → sh a)
  /-- `a.max(dim)[0]` of `m` entries -/
  | max (a m : ℕ) (f : Fin m × sh d → sh a) (method : MaxMethod)

/-- A program: register and method call of every line. -/
abbrev Prog (n : ℕ) (sh : ℕ → Type) : Type := List (Σ d, Op n sh d)

/-- The registers. -/
abbrev Regs (n : ℕ) (sh : ℕ → Type) : Type := ∀ r, AST n (sh r)

/-- Assignment to a register. -/
def set {sh : ℕ → Type} {α : Type → Type} (R : ∀ r, α (sh r)) (d : ℕ) (x : α (sh d)) : ∀ r, α (sh r) :=
  fun r => if h : r = d then h ▸ x else R r

/-- One line of a program (/repo/crypten/mpc/primitives/arithmetic.py:341-475, 588-603; /repo/crypten/common/functions/logic.py:83-85; /repo/crypten/common/functions/maximum.py:51-82;
/repo/crypten/common/functions/regular.py:285-297). -/
def Op.run [NeZero n] {sh : ℕ → Type} (k : ℕ) (R : Regs n sh) {d : ℕ} : Op n sh d → Proto n (AST n (sh d))
  | .input src x => do
    let s ← Proto.encryptA src (encodePublic (2 ^ k) x)
    pure ⟨s, 2 ^ k⟩
  | .add a b f g => ((R a).reindex f).add ((R b).reindex g)
  | .sub a b f g => ((R a).reindex f).sub ((R b).reindex g)
  | .neg a f => pure ((R a).reindex f).neg
  | .addPub a f y => pure (((R a).reindex f).addPub y)
  | .mulInt a f z => pure (((R a).reindex f).mulInt z)
  | .mul a b B => AST.mul B (R a) (R b)
  | .mulPub a _ B y => AST.mulPub B (R a) y
  | .square a f => ((R a).reindex f).square
  | .divInt a f z => ((R a).reindex f).divInt fun _ => z
  | .reindex a f => pure ((R a).reindex f)
  | .sum a _ f => pure ((R a).reindex f).sumFirst
  | .relu a f => ((R a).reindex f).relu (2 ^ k)
  | .max a _ f method => ((R a).reindex f).maxFirst k method

/-- The program run by all parties. -/
def run [NeZero n] {sh : ℕ → Type} (k : ℕ) : Prog n sh → Regs n sh → Proto n (Regs n sh)
  | [], R => pure R
  | ⟨d, op⟩ :: rest, R => do
    let x ← op.run k R
    run k rest (set (α := AST n) R d x)

/-- `get_plain_text()` of a register (/repo/crypten/mpc/mpc.py:171-176, /repo/crypten/mpc/primitives/arithmetic.py:294-309). -/
def plain {sh : ℕ → Type} (R : Regs n sh) (r : ℕ) (i : sh r) : Option ℚ := decode (R r).scale (reveal (R r).share i)

end CrypTen.Program

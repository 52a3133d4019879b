import Verif.Model.Program
import Verif.Model.Functions

/-!
# Programs with activation functions

Programs as in `Verif.Model.Program`, in which lines may also call the approximated functions of /repo/crypten/common/functions/approximations.py. All of them run with the default
configuration (/repo/configs/default.yaml) on two parties; this module only composes the functions modelled in `Verif.Model.Functions`.
-/

namespace CrypTen.Network
open Program

/-- The methods that work entry by entry. -/
inductive Fn where
  | exp | log | reciprocal | sqrt | invSqrt | sigmoid | tanh | cos | sin

/-- A line with its result in register `d`. -/
inductive Line (sh : ℕ → Type) (d : ℕ) where
  /-- a line of arithmetic, comparison or maximum -/
  | basic (op : Op 2 sh d)
  /-- `a.exp()`, `a.log()`, …, `a.sin()` (/repo/crypten/common/functions/approximations.py:34-362) -/
  | fn (f : Fn) (a : ℕ) (g : sh d → sh a)
  /-- `a.softmax(dim)` for `m` classes and `p` rows (/repo/crypten/common/functions/approximations.py:409-424); `f` and `g` are the layout of the operand and of the result -/
  | softmax (a m p : ℕ) (f : Fin m × Fin p → sh a) (g : sh d → Fin m × Fin p)
  /-- `a.log_softmax(dim)` (/repo/crypten/common/functions/approximations.py:427-445) -/
  | logSoftmax (a m p : ℕ) (f : Fin m × Fin p → sh a) (g : sh d → Fin m × Fin p)

/-- The call of a method. `coeffs` are the coefficients of the Chebyshev series, which the default configuration does not use. -/
def Fn.run (method : MaxMethod) (coeffs : ℕ → ℚ) {ι : Type} (x : AST 2 ι) : Fn → Proto 2 (AST 2 ι)
  | .exp => (mpcOps 2 16 method).exp ({} : FunCfg).expIterations x
  | .log => (mpcOps 2 16 method).log {} x
  | .reciprocal => (mpcOps 2 16 method).reciprocal {} x
  | .sqrt => (mpcOps 2 16 method).sqrt {} x
  | .invSqrt => (mpcOps 2 16 method).invSqrt {} x
  | .sigmoid => (mpcOps 2 16 method).sigmoid {} coeffs x
  | .tanh => (mpcOps 2 16 method).tanh {} coeffs x
  | .cos => do
    let z ← (mpcOps 2 16 method).eix ({} : FunCfg).trigIterations x
    pure z.1
  | .sin => do
    let z ← (mpcOps 2 16 method).eix ({} : FunCfg).trigIterations x
    pure z.2

/-- One line. -/
def Line.run (method : MaxMethod) (coeffs : ℕ → ℚ) {sh : ℕ → Type} (R : Regs 2 sh) {d : ℕ} : Line sh d → Proto 2 (AST 2 (sh d))
  | .basic op => op.run 16 R
  | .fn f a g => f.run method coeffs ((R a).reindex g)
  | .softmax a _ _ f g => do
    let z ← (mpcOps 2 16 method).softmax {} ((R a).reindex f)
    pure (z.reindex g)
  | .logSoftmax a _ _ f g => do
    let z ← (mpcOps 2 16 method).logSoftmax {} ((R a).reindex f)
    pure (z.reindex g)

/-- A program. -/
abbrev Net (sh : ℕ → Type) : Type := List (Σ d, Line sh d)

/-- The program run by both parties. -/
def run (method : MaxMethod) (coeffs : ℕ → ℚ) {sh : ℕ → Type} : Net sh → Regs 2 sh → Proto 2 (Regs 2 sh)
  | [], R => pure R
  | ⟨d, l⟩ :: rest, R => do
    let x ← l.run method coeffs R
    run method coeffs rest (set (α := AST 2) R d x)

end CrypTen.Network

import Verif.Model.Backprop
import Verif.Model.SgdShares

/-!
# Training a network on encrypted data

The parties encrypt the parameters of a model (and data that all iterations use), and repeat: `optimizer.zero_grad()`, a forward pass that records its calls, `loss.backward()`, `optimizer.step()` with `crypten.optim.SGD`.
-/

namespace CrypTen.Training
open Program (Regs set)
open Backprop (Tape Grads)
variable {n : ℕ} {sh : ℕ → Type}

/-- `model.encrypt(src=…)` and `crypten.cryptensor(data, src=…)` (/repo/crypten/nn/module.py:470-503): register, party and numbers of every tensor. -/
def encryptAll [NeZero n] (k : ℕ) : List (Σ r, Fin n × (sh r → ℚ)) → Regs n sh → Proto n (Regs n sh)
  | [], R => pure R
  | ⟨r, src, x⟩ :: l, R => do
    let s ← Proto.encryptA src (encodePublic (2 ^ k) x)
    encryptAll k l (set (α := AST n) R r ⟨s, 2 ^ k⟩)

/-- The parameters with their `momentum_buffer`s. -/
abbrev State (n : ℕ) (sh : ℕ → Type) : Type := Regs n sh × Grads n sh

/-- `optimizer.step()` with one parameter group `ps` and the gradients `G` (/repo/crypten/optim/sgd.py:99-139). -/
def stepAll [NeZero n] (D : ℕ) (thr2 : Option ℚ) (h : Sgd.HyperS) (G : Grads n sh) : List ℕ → State n sh → Proto n (State n sh)
  | [], s => pure s
  | p :: ps, s => do
    let r ← Sgd.stepShares D thr2 h (s.1 p, s.2 p) (G p)
    stepAll D thr2 h G ps (set (α := AST n) s.1 p r.1, set (α := fun ι => Option (AST n ι)) s.2 p r.2)

/-- One iteration. `zero_grad` (/repo/crypten/optim/optimizer.py:68-96) removes the gradients, so that those of `run` are used alone. -/
def iteration [NeZero n] (k : ℕ) (thr2 : Option ℚ) (h : Sgd.HyperS) (ps : List ℕ) (out : ℕ) (t : Tape n sh) (s : State n sh) : Proto n (State n sh) := do
  let z ← Backprop.run k t s.1 out
  stepAll (2 ^ k) thr2 h z.2 ps s

/-- All iterations; each has a tape of its own (other examples, or another network). -/
def iterations [NeZero n] (k : ℕ) (thr2 : Option ℚ) (h : Sgd.HyperS) (ps : List ℕ) (out : ℕ) : List (Tape n sh) → State n sh → Proto n (State n sh)
  | [], s => pure s
  | t :: ts, s => do
    let s ← iteration k thr2 h ps out t s
    iterations k thr2 h ps out ts s

/-- Encryption and training. -/
def train [NeZero n] (k : ℕ) (thr2 : Option ℚ) (h : Sgd.HyperS) (l : List (Σ r, Fin n × (sh r → ℚ))) (ps : List ℕ) (out : ℕ) (ts : List (Tape n sh)) (init : Regs n sh) : Proto n (State n sh) := do
  let R ← encryptAll k l init
  iterations k thr2 h ps out ts (R, fun _ => none)

end CrypTen.Training

import Mathlib.Analysis.SpecialFunctions.Log.Basic
import Mathlib.Analysis.SpecialFunctions.Trigonometric.Basic
import Mathlib.Analysis.SpecialFunctions.Pow.Real

/-!
# Normally distributed random numbers

Models `randn` of /repo/crypten/common/functions/sampling.py:20-50 (`crypten.randn`, /repo/crypten/__init__.py:495-502, and
`MPCTensor.randn` call it).

Simplifications: exact arithmetic (`log`, `sqrt`, `cossin` are exact; their approximations are C53), tensors are flat (the
first line flattens, the last restores the size), and the uniform numbers are an argument.
-/

namespace CrypTen.Randn

/-- A vector: its length and its entries. -/
structure Vec where
  /-- `numel()` -/
  len : ℕ
  /-- the entries (beyond `len` meaningless) -/
  get : ℕ → ℝ

/-- `crypten.cat([a, b])` -/
def Vec.cat (a b : Vec) : Vec := ⟨a.len + b.len, fun i => if i < a.len then a.get i else b.get (i - a.len)⟩

/-- `a[:n]` -/
def Vec.take (n : ℕ) (a : Vec) : Vec := ⟨min n a.len, a.get⟩

/-- `a[n:]` -/
def Vec.drop (n : ℕ) (a : Vec) : Vec := ⟨a.len - n, fun i => a.get (n + i)⟩

/-- A function applied to every entry. -/
def Vec.map (f : ℝ → ℝ) (a : Vec) : Vec := ⟨a.len, fun i => f (a.get i)⟩

/-- Elementwise product. -/
def Vec.mul (a b : Vec) : Vec := ⟨a.len, fun i => a.get i * b.get i⟩

/-- The constant in sampling.py:39 that stands for `2 * pi`. -/
noncomputable def tau : ℝ := 6.28318531

/-- /repo/crypten/common/functions/sampling.py:26-50 `randn`; `u` is `rand(*sizes).flatten()`, `extra` is `rand((1,))`, `tau` is the
constant of line 39. -/
noncomputable def randn (tau : ℝ) (u extra : Vec) : Vec :=
  let odd := u.len % 2 = 1
  let u := if odd then u.cat extra else u
  let n := u.len / 2
  let u1 := u.take n
  let u2 := u.drop n
  let r := (u1.map fun a => -2 * Real.log a).map Real.sqrt
  let theta := u2.map fun b => (b - 0.5) * tau
  let x := r.mul (theta.map Real.sin)
  let y := r.mul (theta.map Real.cos)
  let z := x.cat y
  if odd then z.drop 1 else z

end CrypTen.Randn

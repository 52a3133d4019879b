import Verif.Model.BatchNorm

/-!
# Specification of batch normalisation

`IsNormalised` is the documented formula. `agreed` is what a program can rely on about a parameter or buffer: it is encrypted, or a plain tensor that all parties hold.
-/

namespace CrypTen.BatchNormSpec
open BatchNorm
variable {n : ℕ} {C P K : Type}

/-- Every entry `x` becomes `(x - mean) / sqrt(var + eps) * weight + bias`, with the values of its channel; `f v` is `1 / sqrt(v + eps)`. -/
def IsNormalised [Field K] (f : K → K) (x y : C → P → K) (mean var weight bias : C → K) : Prop := ∀ c p, y c p = weight c * ((x c p - mean c) * f (var c)) + bias c

/-- The parameter or buffer has the entries `v`: encrypted, or the same in the clear at every party. -/
def Holds (a : Val n C K) (v : C → K) : Prop := a = .enc v ∨ a = .plain fun _ => v

/-- `m` is the mean of the batch, `v` its variance, where the divisor of the variance is `N` or `N - 1`. -/
def IsMean [Field K] [Fintype P] (x : C → P → K) (m : C → K) : Prop := ∀ c, m c = (∑ p, x c p) / Fintype.card P
def IsVar [Field K] [Fintype P] (x : C → P → K) (divisor : K) (v : C → K) : Prop := ∃ m, IsMean x m ∧ ∀ c, v c = (∑ p, (x c p - m c) ^ 2) / divisor

end CrypTen.BatchNormSpec

import Verif.Model.Cuda

/-! The 64-bit integer operations the GPU operations stand for. -/

namespace CrypTen.Cuda

/-- The orders add `n` terms, each once. -/
def Adds (order : ℕ → Order) (n : ℕ) : Prop := ∀ i, (order i).leaves.Perm (List.range n)

/-- The sum of products modulo 2^64. -/
def dot (terms : List (I64 × I64)) : I64 := (terms.map fun t => t.1 * t.2).sum

/-- Convolution over `ke` kernel positions and `c` channels, modulo 2^64. -/
def convWord (ke c : ℕ) (x : ℕ → ℕ → I64) (y : ℕ → ℕ → ℕ → I64) (o : ℕ) : I64 :=
  ((List.range ke).map fun p => ((List.range c).map fun ch => x p ch * y p o ch).sum).sum

end CrypTen.Cuda

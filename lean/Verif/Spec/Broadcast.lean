import Verif.Model.Broadcast
import Mathlib.Algebra.Ring.Defs

/-!
# Broadcasting

The standard rule: shapes are aligned at the right; a dimension of size 1 is stretched, missing dimensions on the left are added.
-/

namespace CrypTen

/-- Dimension by dimension, `a` can be stretched to `b`. -/
def Stretches (a b : List ℕ) : Prop := List.Forall₂ (fun m n => m = n ∨ m = 1) a b

/-- A tensor of shape `a` can be broadcast to shape `b`. -/
def BroadcastsTo (a b : List ℕ) : Prop := a.length ≤ b.length ∧ Stretches a (b.drop (b.length - a.length))

/-- The entry of the stretched tensor that entry `idx` copies. -/
def stretchIdx (a idx : List ℕ) : List ℕ := List.zipWith (fun n i => if n = 1 then 0 else i) a idx

/-- The tensor of shape `b` obtained by broadcasting. -/
def NdTensor.broadcast {R : Type} (t : NdTensor R) (b : List ℕ) : NdTensor R :=
  { shape := b, data := fun idx => t.data (stretchIdx t.shape (idx.drop (b.length - t.shape.length))) }

/-- `idx` is an index of a tensor of shape `s`. -/
def ValidIdx (s idx : List ℕ) : Prop := List.Forall₂ (fun n i => i < n) s idx

/-- All indices of a tensor of shape `s`. -/
def allIdx : List ℕ → List (List ℕ)
  | [] => [[]]
  | n :: s => (List.range n).flatMap fun i => (allIdx s).map (i :: ·)

/-- The product of two tensors of the same shape, summed over all entries. -/
def inner {R : Type} [Semiring R] (s : List ℕ) (x y : List ℕ → R) : R := ((allIdx s).map fun idx => x idx * y idx).sum

end CrypTen

import Verif.Spec.Onnx
import Mathlib.Data.Rat.Floor
import Mathlib.Algebra.Order.Field.Rat

/-!
# What further ONNX operators mean

Taken from the ONNX operator specification; nothing of this refers to the layers.
-/

namespace CrypTen
namespace OnnxSpec
variable {R S T : Type}

/-- The shape that shapes are broadcast to: dimension by dimension, counted from the right, sizes 1 are stretched to the common size. -/
def IsCommonShape (shapes : List (List ℕ)) (s : List ℕ) : Prop :=
  (∀ a ∈ shapes, a.length ≤ s.length) ∧ (∃ a ∈ shapes, a.length = s.length)
    ∧ ∀ k < s.length, (∀ a ∈ shapes, dimR a k = 1 ∨ dimR a k = dimR s k) ∧ ∃ a ∈ shapes, dimR a k = dimR s k

/-- An operation entry by entry with broadcasting (`Add`, `Sub`, `Mul`, `Div`, `Equal`, …). -/
def IsZip (f : R → S → T) (x : NdTensor R) (y : NdTensor S) (z : NdTensor T) : Prop :=
  IsCommonShape [x.shape, y.shape] z.shape ∧ ∀ idx, ValidIdx z.shape idx → z.data idx = f ((x.broadcast z.shape).data idx) ((y.broadcast z.shape).data idx)

/-- `Where`: all three inputs are broadcast; where the condition is not zero, the entry comes from `x`, elsewhere from `y`. -/
def IsWhere (c x y z : NdTensor ℚ) : Prop :=
  IsCommonShape [c.shape, x.shape, y.shape] z.shape
    ∧ ∀ idx, ValidIdx z.shape idx → z.data idx = if (c.broadcast z.shape).data idx ≠ 0 then (x.broadcast z.shape).data idx else (y.broadcast z.shape).data idx

/-- The entries of a condition are 0 (false) or 1 (true). -/
def IsBoolean (c : NdTensor ℚ) : Prop := ∀ idx, c.data idx = 0 ∨ c.data idx = 1

/-- `Pow` with natural exponents, broadcasting. -/
def IsPow (x : NdTensor ℚ) (e : NdTensor ℕ) (z : NdTensor ℚ) : Prop := IsZip (fun a p => a ^ p) x e z

/-- `Cast` to integers: the part behind the point is cut off. -/
def truncated (q : ℚ) : ℤ := if 0 ≤ q then ⌊q⌋ else -⌊-q⌋

/-- `Range`: `max(ceil((limit - start) / delta), 0)` entries `start + i * delta`. -/
def IsRange (start limit delta : ℚ) (y : NdTensor ℚ) : Prop :=
  y.shape = [(max ⌈(limit - start) / delta⌉ 0).toNat] ∧ ∀ i, ValidIdx y.shape [i] → y.data [i] = start + i * delta

/-- `ConstantOfShape`: the one entry of `value`, 0 if it is missing, everywhere. -/
def IsConstantOfShape (value : Option (NdTensor ℚ)) (size : List ℕ) (y : NdTensor ℚ) : Prop :=
  y.shape = size ∧ ∀ idx, ValidIdx size idx → y.data idx = value.elim 0 fun v => v.data [0]

/-- A bound in `Shape`: negative numbers count from the end, and the result is clamped. -/
def shapeBound (r : ℕ) (b : ℤ) : ℕ := (max 0 (min (r : ℤ) (if b < 0 then b + r else b))).toNat

/-- `Shape`: the sizes from dimension `start` (0) to dimension `end` (all), exclusive. -/
def IsShape (start stop : Option ℤ) (s : List ℕ) (y : NdTensor ℚ) : Prop :=
  let a := start.elim 0 (shapeBound s.length)
  let b := stop.elim s.length (shapeBound s.length)
  y.shape = [b - a] ∧ ∀ i < b - a, y.data [i] = (s.getD (a + i) 0 : ℕ)

/-- `Concat` along dimension `d`: the other sizes agree, and the tensors follow each other. -/
def IsConcat (xs : List (NdTensor R)) (d : ℕ) (y : NdTensor R) : Prop :=
  d < y.shape.length ∧ y.shape.getD d 0 = (xs.map fun x => x.shape.getD d 0).sum
    ∧ (∀ x ∈ xs, x.shape.length = y.shape.length ∧ ∀ e < y.shape.length, e ≠ d → x.shape.getD e 0 = y.shape.getD e 0)
    ∧ ∀ before x behind, xs = before ++ x :: behind → ∀ i, ValidIdx x.shape i → y.data (i.set d ((before.map fun u => u.shape.getD d 0).sum + i.getD d 0)) = x.data i

end OnnxSpec
end CrypTen

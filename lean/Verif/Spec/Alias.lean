import Verif.Model.Alias

/-! What "the operands and every other tensor keep their values" means for a heap of tensor objects. -/

namespace CrypTen.Alias
variable {n : ℕ}

/-- Every object refers to storage that exists. -/
def Heap.Ok (h : Heap n) : Prop := ∀ o, o < h.count → ∀ c ∈ (h.obj o).view, c < h.next

/-- Every tensor of `h` decrypts to the same values in `h'`. -/
def Unchanged (h h' : Heap n) : Prop := ∀ o, o < h.count → h'.plain o = h.plain o

/-- The tensor shares storage with another object. -/
def Heap.Shared (h : Heap n) (y o : ℕ) : Prop := o ≠ y ∧ ∃ c, c ∈ (h.obj y).view ∧ c ∈ (h.obj o).view

/-- The operands of the operation exist. -/
def Op.Ok (h : Heap n) : Op n → Prop
  | .new _ _ => True
  | .view x positions => x < h.count ∧ ∀ i ∈ positions, i < (h.obj x).view.length
  | .clone x | .neg x | .mulInt x _ | .divInt x _ => x < h.count
  | .add x y _ | .sub x y _ | .compare x y _ _ => x < h.count ∧ y < h.count

/-- The operation re-encodes its second operand. -/
def Op.reencodes (h : Heap n) : Op n → Option ℕ
  | .add x y _ | .sub x y _ | .compare x y _ _ => if (h.obj y).scale < (h.obj x).scale then some y else none
  | _ => none

/-- Re-encoding `y` at scale `s` is exact: the scale divides and the scaled words fit 64 bits. -/
def Heap.Exact (h : Heap n) (y s : ℕ) : Prop :=
  0 < (h.obj y).scale ∧ (h.obj y).scale ∣ s ∧ ∀ c ∈ (h.obj y).view, -2 ^ 63 ≤ (∑ p, h.cell c p : I64).toInt * (s / (h.obj y).scale : ℕ) ∧ (∑ p, h.cell c p : I64).toInt * (s / (h.obj y).scale : ℕ) < 2 ^ 63

/-- Every tensor has the scale `s`. -/
def Heap.Uniform (h : Heap n) (s : ℕ) : Prop := ∀ o, o < h.count → (h.obj o).scale = s

end CrypTen.Alias

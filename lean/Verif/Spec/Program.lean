import Verif.Model.Program
import Verif.Spec.Value

/-!
# The same program on exact numbers, and its error bound

`exact` is what the program text means for real (here: rational) numbers. `err` bounds the deviation of the encrypted run, line by line, from the magnitudes
`M r` of the exact values. `Safe` lists, line by line, that nothing leaves the range of 64-bit words.
-/

namespace CrypTen.Program
variable {n : ℕ} {sh : ℕ → Type}

/-- Exact numbers in the registers. -/
abbrev Nums (sh : ℕ → Type) : Type := ∀ r, sh r → ℚ

/-- The largest of `m` numbers. -/
def largest {m : ℕ} (v : Fin m → ℚ) : ℚ := (List.ofFn v).max?.getD 0

/-- One line, exactly. -/
def Op.exact (V : Nums sh) {d : ℕ} : Op n sh d → sh d → ℚ
  | .input _ x => x
  | .add a b f g => fun i => V a (f i) + V b (g i)
  | .sub a b f g => fun i => V a (f i) - V b (g i)
  | .neg a f => fun i => -V a (f i)
  | .addPub a f y => fun i => V a (f i) + y i
  | .mulInt a f z => fun i => V a (f i) * z
  | .mul a b B => bilinearQ B (V a) (V b)
  | .mulPub a _ B y => bilinearQ B (V a) y
  | .square a f => fun i => V a (f i) ^ 2
  | .divInt a f z => fun i => V a (f i) / z
  | .reindex a f => fun i => V a (f i)
  | .sum a _ f => fun i => ∑ j, V a (f (j, i))
  | .relu a f => fun i => Max.max (V a (f i)) 0
  | .max a _ f _ => fun i => largest fun j => V a (f (j, i))

/-- The whole program, exactly. -/
def exact : Prog n sh → Nums sh → Nums sh
  | [], V => V
  | ⟨d, op⟩ :: rest, V => exact rest (set (α := fun ι => ι → ℚ) V d (op.exact V))

/-- The exact values of all lines stay within the magnitudes `M`. -/
def Within (M : ℕ → ℚ) : Prog n sh → Nums sh → Prop
  | [], _ => True
  | ⟨d, op⟩ :: rest, V => (∀ i, |op.exact V i| ≤ M d) ∧ Within M rest (set (α := fun ι => ι → ℚ) V d (op.exact V))

/-- Number of products added in one entry, at most `L`. -/
def Terms {ι ι' κ : Type} (B : BilinearOp ι ι' κ) (L : ℕ) : Prop := ∀ i, (B i).length ≤ L

/-- Side information about one line: the number of products per entry of a bilinear function, and the largest public number. -/
structure Info where
  terms : ℕ := 0
  pub : ℚ := 0

/-- The error of the line's result, from the errors `E` and the magnitudes `M` of its operands; `1 / 2 ^ k` is the unit in the last place. -/
def Op.err (n k : ℕ) (M E : ℕ → ℚ) (c : Info) {d : ℕ} : Op n sh d → ℚ
  | .input .. => 1 / 2 ^ k
  | .add a b .. => E a + E b
  | .sub a b .. => E a + E b
  | .neg a _ => E a
  | .addPub a .. => E a + 1 / 2 ^ k
  | .mulInt a _ z => E a * |(z : ℚ)|
  | .mul a b _ => c.terms * (E a * M b + M a * E b + E a * E b) + n / 2 ^ k
  | .mulPub a .. => c.terms * (E a * c.pub + M a * (1 / 2 ^ k) + E a * (1 / 2 ^ k)) + n / 2 ^ k
  | .square a _ => E a * (2 * M a + E a) + n / 2 ^ k
  | .divInt a _ z => E a / z + (3 * n + 2) / 2 ^ k
  | .reindex a _ => E a
  | .sum a m _ => m * E a
  | .relu a _ => E a
  | .max a .. => E a

/-- Nothing in this line overflows. -/
def Op.Safe (k : ℕ) (M E : ℕ → ℚ) (c : Info) {d : ℕ} : Op n sh d → Prop
  | .input .. => 2 ^ k * (M d + 1 / 2 ^ k) < 2 ^ 63
  | .add a b .. => 2 ^ k * (M d + (E a + E b)) < 2 ^ 63
  | .sub a b .. => 2 ^ k * (M d + (E a + E b)) < 2 ^ 63
  | .neg a _ => 2 ^ k * (M a + E a) < 2 ^ 63
  | .addPub a .. => 2 ^ k * (M d + (E a + 1 / 2 ^ k)) < 2 ^ 63
  | .mulInt a _ z => 2 ^ k * (M d + E a * |(z : ℚ)|) < 2 ^ 63
  | .mul a b B => Terms B c.terms ∧ 2 ^ k * 2 ^ k * (c.terms * ((M a + E a) * (M b + E b))) < 2 ^ 63
  | .mulPub a _ B y => Terms B c.terms ∧ 0 ≤ c.pub ∧ (∀ j, |y j| ≤ c.pub) ∧ 2 ^ k * c.pub < 2 ^ 63 ∧ 2 ^ k * 2 ^ k * (c.terms * ((M a + E a) * (c.pub + 1 / 2 ^ k))) < 2 ^ 63
  | .square a _ => 2 ^ k * 2 ^ k * (M a + E a) ^ 2 < 2 ^ 63
  | .divInt _ _ z => 0 < z ∧ z < 2 ^ 63
  | .reindex .. => True
  | .sum a m _ => 2 ^ k * (M d + m * E a) < 2 ^ 63
  | .relu .. => True
  | .max a m _ _ => 0 < m ∧ 2 ^ k * m < 2 ^ 63 ∧ 2 ^ k * (2 * (M a + E a)) < 2 ^ 63

/-- The error bounds after the program. -/
def errs (k : ℕ) (M : ℕ → ℚ) : List Info → Prog n sh → (ℕ → ℚ) → ℕ → ℚ
  | c :: cs, ⟨d, op⟩ :: rest, E => errs k M cs rest (Function.update E d (op.err n k M E c))
  | _, _, E => E

/-- Nothing overflows in the program. -/
def Safe (k : ℕ) (M : ℕ → ℚ) : List Info → Prog n sh → (ℕ → ℚ) → Prop
  | _, [], _ => True
  | [], _ :: _, _ => False
  | c :: cs, ⟨d, op⟩ :: rest, E => op.Safe k M E c ∧ Safe k M cs rest (Function.update E d (op.err n k M E c))

/-- Every register holds its number up to the error bound, with the default encoding. -/
def Holds (k : ℕ) (R : Regs n sh) (V : Nums sh) (E : ℕ → ℚ) : Prop := ∀ r, (R r).scale = 2 ^ k ∧ ∀ i, |(R r).value i - V r i| ≤ E r

end CrypTen.Program

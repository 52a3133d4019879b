import Verif.Model.Network
import Verif.Spec.Program
import Verif.Spec.Reciprocal
import Mathlib.Analysis.SpecialFunctions.Trigonometric.Deriv
import Mathlib.Analysis.SpecialFunctions.Log.Basic

/-!
# The same program on real numbers, and its error bound
-/

namespace CrypTen.Network
open Program
variable {sh : ℕ → Type}

/-- Real numbers in the registers. -/
abbrev Reals (sh : ℕ → Type) : Type := ∀ r, sh r → ℝ

/-- The largest of `m` real numbers. -/
noncomputable def largestR {m : ℕ} (v : Fin m → ℝ) : ℝ := ⨆ j, v j

/-- A sum of products of real numbers. -/
def bilinearR {ι ι' κ : Type} (B : BilinearOp ι ι' κ) (x : ι → ℝ) (y : ι' → ℝ) (i : κ) : ℝ := ((B i).map fun p => x p.1 * y p.2).sum

/-- One line of arithmetic, on real numbers. -/
noncomputable def opExact (V : Reals sh) {d : ℕ} : Op 2 sh d → sh d → ℝ
  | .input _ x => fun i => x i
  | .add a b f g => fun i => V a (f i) + V b (g i)
  | .sub a b f g => fun i => V a (f i) - V b (g i)
  | .neg a f => fun i => -V a (f i)
  | .addPub a f y => fun i => V a (f i) + y i
  | .mulInt a f z => fun i => V a (f i) * z
  | .mul a b B => bilinearR B (V a) (V b)
  | .mulPub a _ B y => bilinearR B (V a) fun j => y j
  | .square a f => fun i => V a (f i) ^ 2
  | .divInt a f z => fun i => V a (f i) / z
  | .reindex a f => fun i => V a (f i)
  | .sum a _ f => fun i => ∑ j, V a (f (j, i))
  | .relu a f => fun i => Max.max (V a (f i)) 0
  | .max a _ f _ => fun i => largestR fun j => V a (f (j, i))

/-- The true functions. -/
noncomputable def Fn.exact : Fn → ℝ → ℝ
  | .exp, x => Real.exp x
  | .log, x => Real.log x
  | .reciprocal, x => 1 / x
  | .sqrt, x => Real.sqrt x
  | .invSqrt, x => 1 / Real.sqrt x
  | .sigmoid, x => 1 / (1 + Real.exp (-x))
  | .tanh, x => Real.tanh x
  | .cos, x => Real.cos x
  | .sin, x => Real.sin x

/-- One line on real numbers. -/
noncomputable def Line.exact (V : Reals sh) {d : ℕ} : Line sh d → sh d → ℝ
  | .basic op => opExact V op
  | .fn f a g => fun i => f.exact (V a (g i))
  | .softmax a _ _ f g => fun i => Real.exp (V a (f (g i))) / ∑ j, Real.exp (V a (f (j, (g i).2)))
  | .logSoftmax a _ _ f g => fun i => Real.log (Real.exp (V a (f (g i))) / ∑ j, Real.exp (V a (f (j, (g i).2))))

/-- The whole program on real numbers. -/
noncomputable def exact : Net sh → Reals sh → Reals sh
  | [], V => V
  | ⟨d, l⟩ :: rest, V => exact rest (set (α := fun ι => ι → ℝ) V d (l.exact V))

/-- Side information about one line: as for programs without functions; a lower and an upper bound of the operand of a function, and a bound of the (inverse) square root. -/
structure NetInfo where
  info : Info := {}
  lo : ℚ := 0
  hi : ℚ := 0
  root : ℚ := 0

/-- What the errors `E` of the operands contribute to the error of a line of arithmetic. -/
def passed (M E : ℕ → ℚ) (c : Info) {d : ℕ} : Op 2 sh d → ℚ
  | .input .. => 0
  | .add a b .. => E a + E b
  | .sub a b .. => E a + E b
  | .neg a _ => E a
  | .addPub a .. => E a
  | .mulInt a _ z => E a * |(z : ℚ)|
  | .mul a b _ => c.terms * (E a * M b + M a * E b + E a * E b)
  | .mulPub a .. => c.terms * (E a * c.pub)
  | .square a _ => E a * (2 * M a + E a)
  | .divInt a _ z => E a / z
  | .reindex a _ => E a
  | .sum a m _ => m * E a
  | .relu a _ => E a
  | .max a .. => E a

/-- Bounds of the numbers that the parties really have before and after the line `op`. -/
def sizes (M E : ℕ → ℚ) (c : Info) {d : ℕ} (op : Op 2 sh d) : ℕ → ℚ := fun r => M r + E r + if r = d then passed M E c op else 0

/-- The error of a function: its own error, and what it makes of the error `e` of the operand. -/
def Fn.err (c : NetInfo) (e : ℚ) : Fn → ℚ
  | .exp => 1 / 50 + e
  | .log => 1 / 10 + e / c.lo
  | .reciprocal => defaultRecipErr c.hi / c.lo + e / c.lo ^ 2
  | .sqrt => 2 / 25 * c.root + 2 / 2 ^ 16 + 5 / 3 * e
  | .invSqrt => 2 / 25 * c.root + c.root ^ 3 / 2 * e
  | .sigmoid => 1 / 30 + e / 4
  | .tanh => 1 / 15 + e
  | .cos => 3 / 20 + e
  | .sin => 3 / 20 + e

/-- The error of the line's result. -/
def Line.err (M E : ℕ → ℚ) (c : NetInfo) {d : ℕ} : Line sh d → ℚ
  | .basic op => op.err 2 16 (sizes M E c.info op) (fun _ => 0) c.info + passed M E c.info op
  | .fn f a _ => f.err c (E a)
  | .softmax a m _ _ _ => softmaxErr m + 2 * E a / (1 - 2 * E a)
  | .logSoftmax a m _ _ _ => 1 / 10 + (16 / 1000 + m / 400) / (1 - (16 / 1000 + m / 400)) + 2 * E a

/-- The given bounds are in the range of the function. -/
def Fn.Bounds (c : NetInfo) : Fn → Prop
  | .log => 1 / 100 ≤ c.lo
  | .reciprocal => 1 / 4 ≤ c.lo ∧ c.hi ≤ 32
  | .sqrt => 0 ≤ c.root
  | .invSqrt => 1 / 10 ≤ c.lo ∧ 0 ≤ c.root ∧ 1 ≤ c.root ^ 2 * c.lo
  | _ => True

/-- The operand `v` of a function, and every number within `e` of it, is within the bounds. -/
def Fn.Inside (c : NetInfo) (e : ℚ) (v : ℝ) : Fn → Prop
  | .exp => -256 + e ≤ v ∧ v ≤ -e
  | .log => c.lo + e ≤ v ∧ v + e ≤ 100
  | .reciprocal => c.lo + e ≤ v ∧ v + e ≤ c.hi
  | .sqrt => 1 / 10 + e ≤ v ∧ v + e ≤ 128 ∧ v + e ≤ c.root ^ 2
  | .invSqrt => c.lo + e ≤ v ∧ v + e ≤ 128
  | .sigmoid => |v| + e ≤ 128
  | .tanh => |v| + e ≤ 64
  | .cos => |v| + e ≤ 13 / 2
  | .sin => |v| + e ≤ 13 / 2

/-- Nothing in this line overflows, and no function leaves the range for which it was made. -/
def Line.Safe (M E : ℕ → ℚ) (c : NetInfo) (V : Reals sh) {d : ℕ} : Line sh d → Prop
  | .basic op => op.Safe 16 (sizes M E c.info op) (fun _ => 0) c.info
  | .fn f a g => f.Bounds c ∧ ∀ i, f.Inside c (E a) (V a (g i))
  | .softmax a m _ f _ => 2 ≤ m ∧ m ≤ 31 ∧ 2 * E a < 1 ∧ ∀ j j' i, V a (f (j, i)) - V a (f (j', i)) + 2 * E a ≤ 256
  | .logSoftmax a m _ f _ => 2 ≤ m ∧ m ≤ 98 ∧ ∀ j j' i, V a (f (j, i)) - V a (f (j', i)) + 2 * E a ≤ 256

/-- The error bounds after the program. -/
def errs (M : ℕ → ℚ) : List NetInfo → Net sh → (ℕ → ℚ) → ℕ → ℚ
  | c :: cs, ⟨d, l⟩ :: rest, E => errs M cs rest (Function.update E d (l.err M E c))
  | _, _, E => E

/-- The real numbers of all lines stay within the magnitudes `M`, nothing overflows and all functions are used within their range. -/
def Safe (M : ℕ → ℚ) : List NetInfo → Net sh → (ℕ → ℚ) → Reals sh → Prop
  | _, [], _, _ => True
  | [], _ :: _, _, _ => False
  | c :: cs, ⟨d, l⟩ :: rest, E, V => (∀ i, |l.exact V i| ≤ M d) ∧ l.Safe M E c V ∧ Safe M cs rest (Function.update E d (l.err M E c)) (set (α := fun ι => ι → ℝ) V d (l.exact V))

/-- Every register holds its number up to the error bound, with the default encoding. -/
def Holds (R : Regs 2 sh) (V : Reals sh) (E : ℕ → ℚ) : Prop := ∀ r, (R r).scale = 2 ^ 16 ∧ ∀ i, |((R r).value i : ℝ) - V r i| ≤ E r

end CrypTen.Network

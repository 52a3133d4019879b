import Verif.Spec.Program

/-!
# How often a program fails

A finite set `Ω` of equally likely outcomes; `T ω` is everything the provider hands out in outcome `ω`. The hypotheses on `T` say that the tuples are split at random; what the tuples are need not be random.
-/

namespace CrypTen.Failure
open CrypTen.Program
variable {n : ℕ} {sh : ℕ → Type}

/-- The two streams agree on all requests before request `c`. -/
structure SameBefore (c : ℕ) (T T' : Tuples n) : Prop where
  mul : ∀ k < c, ∀ {ι ι' κ : Type} (B : BilinearOp ι ι' κ), T.mul k B = T'.mul k B
  square : ∀ k < c, ∀ ι, T.square k ι = T'.square k ι
  bin : ∀ k < c, ∀ ι, T.bin k ι = T'.bin k ι
  b2a : ∀ k < c, ∀ ι, T.b2a k ι = T'.b2a k ι
  wrap : ∀ k < c, ∀ ι, T.wrap k ι = T'.wrap k ι
  zeroA : ∀ k < c, ∀ ι, T.zeroA k ι = T'.zeroA k ι
  zeroX : ∀ k < c, ∀ ι, T.zeroX k ι = T'.zeroX k ι
  kbit : ∀ k < c, ∀ bits ι, T.kbit k bits ι = T'.kbit k bits ι

/-- Events that are decided by what is handed out before request `c` and by `x`. -/
def Decided {Ω τ : Type} (T : Ω → Tuples n) (c : ℕ) (x : Ω → τ) (A : Finset Ω) : Prop := ∀ ω ω', SameBefore c (T ω) (T ω') → x ω = x ω' → ω ∈ A → ω' ∈ A

/-- No word is likely: given any event that is decided by what is handed out before request `c` and by `x`, the word `y ω` takes each value in at most one of `2 ^ 64 - 1` cases. (`torch.randint` draws the masks from `2 ^ 64 - 1` of the
`2 ^ 64` words, /repo/crypten/common/rng.py:19-26.) -/
def Spread {Ω τ : Type} (T : Ω → Tuples n) (c : ℕ) (x : Ω → τ) (y : Ω → I64) : Prop :=
  ∀ A : Finset Ω, Decided T c x A → ∀ w : I64, (A.filter fun ω => y ω = w).card * (2 ^ 64 - 1) ≤ A.card

/-- The first `N` requests for what the program uses are answered with tuples split at random, whatever was handed out before. For products and squares, every party's share of the product of the masks is random, given the masks, if there is more than one party
(/repo/crypten/mpc/provider/tfp_provider.py:28-30, 40: `ArithmeticSharedTensor(…, src=0)` splits with fresh zero-shares); for the correction of wraps every party's part of the mask is random, given the parts of the others (lines 60-66). -/
structure RandomSplit {Ω : Type} (N : ℕ) (prog : Prog n sh) (T : Ω → Tuples n) : Prop where
  valid : ∀ ω, (T ω).Valid
  mul : 1 < n → ∀ c < N, ∀ d a b B, ⟨d, .mul a b B⟩ ∈ prog → ∀ p i, Spread T c (fun ω => (((T ω).mul c B).a, ((T ω).mul c B).b)) fun ω => ((T ω).mul c B).c p i
  square : 1 < n → ∀ c < N, ∀ d a f, ⟨d, .square a f⟩ ∈ prog → ∀ p i, Spread T c (fun ω => ((T ω).square c (sh d)).r) fun ω => ((T ω).square c (sh d)).r2 p i
  wrap : ∀ c < N, ∀ d op, ⟨d, op⟩ ∈ prog → ∀ p i, Spread T c (fun ω (q : {q : Fin n // q ≠ p}) => ((T ω).wrap c (sh d)).r q.1) fun ω => ((T ω).wrap c (sh d)).r p i

/-- Bound on the magnitude of what the line divides, as a 64-bit integer; `none` for lines that do not divide. -/
def Op.divided (k : ℕ) (M E : ℕ → ℚ) (c : Info) {d : ℕ} : Op n sh d → Option ℚ
  | .mul a b _ => some (2 ^ k * 2 ^ k * (c.terms * ((M a + E a) * (M b + E b))))
  | .mulPub a .. => some (2 ^ k * 2 ^ k * (c.terms * ((M a + E a) * (c.pub + 1 / 2 ^ k))))
  | .square a _ => some (2 ^ k * 2 ^ k * (M a + E a) ^ 2)
  | .divInt a .. => some (2 ^ k * (M a + E a))
  | _ => none

/-- The risk of a line: for every entry of its result, the magnitude of what is divided, plus twice the number of parties, out of `2 ^ 64 - 1`. -/
noncomputable def Op.risk (k : ℕ) (M E : ℕ → ℚ) (c : Info) {d : ℕ} [Fintype (sh d)] (op : Op n sh d) : ℚ :=
  match Op.divided k M E c op with
  | some X => Fintype.card (sh d) * ((X + 2 * n) / (2 ^ 64 - 1))
  | none => 0

/-- The risk of a program: the sum of the risks of its lines. -/
noncomputable def risk [∀ d, Fintype (sh d)] (k : ℕ) (M : ℕ → ℚ) : List Info → Prog n sh → (ℕ → ℚ) → ℚ
  | c :: cs, ⟨d, op⟩ :: rest, E => Op.risk k M E c op + risk k M cs rest (Function.update E d (op.err n k M E c))
  | _, _, _ => 0

/-- The program does not divide by public numbers and does not multiply by public fractions. -/
def NoPublic (prog : Prog n sh) : Prop := ∀ l ∈ prog, ∀ d, (∀ a m B y, l ≠ ⟨d, .mulPub a m B y⟩) ∧ ∀ a f z, l ≠ ⟨d, .divInt a f z⟩

end CrypTen.Failure

import Verif.Model.Backprop
import Verif.Spec.Program
import Verif.Spec.SgdShares

/-!
# The same computation on exact numbers, its gradients, and error bounds

`eval` is what the tape means for the parameters `W`; `δ` is added to the leaves and the parameters. `grads` are the gradients by the chain rule. `M`, `K` are the magnitudes of the values and of the gradients, `P` the errors of
the parameters.
-/

namespace CrypTen.Backprop
open Program (Nums set)
variable {n : ℕ} {sh : ℕ → Type}

/-- The result of a call, in the rational or the real numbers. -/
def Call.eval {F : Type} [Field F] [LinearOrder F] (W : Nums sh) (δ V : ∀ r, sh r → F) {d : ℕ} : Call n sh d → sh d → F
  | .leaf _ x => fun i => (x i : F) + δ d i
  | .param => fun i => (W d i : F) + δ d i
  | .addPub a f y => fun i => V a (f.map i) + (y i : F)
  | .bilPub a _ B y => fun i => ((B.op i).map fun p => V a p.1 * (y p.2 : F)).sum
  | .add a b f g => fun i => V a (f.map i) + V b (g.map i)
  | .sub a b f g => fun i => V a (f.map i) - V b (g.map i)
  | .neg a e => fun i => -V a (e i)
  | .mul a b f g => fun i => V a (f.map i) * V b (g.map i)
  | .mulNum a e c => fun i => V a (e i) * (c : F)
  | .bil a b B => fun i => ((B.op i).map fun p => V a p.1 * V b p.2).sum
  | .square a e => fun i => V a (e i) ^ 2
  | .sum a f => fun i => ∑ j, V a (f.back (j, i))
  | .mean a f => fun i => (∑ j, V a (f.back (j, i))) / (f.size : F)
  | .view a e => fun i => V a (e i)
  | .relu a e => fun i => max (V a (e i)) 0
  | .part a f => fun i => (f.pick i).elim 0 (V a)
  | .cat a b e => fun i => (e i).elim (V a) (V b)
  | .avg a f => fun i => ((f.win i).map (V a)).sum / (f.size : F)
  | .maximum a _ _ f => fun i => Finset.univ.sup' ⟨0, Finset.mem_univ _⟩ fun l => V a (f.win (l, i))

/-- All results, when `δ` is added to the leaves; 0 for registers that are not on the tape. -/
def eval {F : Type} [Field F] [LinearOrder F] (W : Nums sh) (δ : ∀ r, sh r → F) : Tape n sh → ∀ r, sh r → F
  | [] => fun _ _ => 0
  | ⟨d, c⟩ :: t => set (α := fun ι => ι → F) (eval W δ t) d (c.eval W δ (eval W δ t))

/-- The results of the computation itself. -/
def values (W : Nums sh) (t : Tape n sh) : Nums sh := eval W (fun _ _ => 0) t

/-- The leaves and parameters of a tape. -/
def leaves : Tape n sh → List ℕ
  | [] => []
  | ⟨d, .leaf ..⟩ :: t | ⟨d, .param⟩ :: t => d :: leaves t
  | _ :: t => leaves t

/-- Place `l` has the greatest value of its window. -/
def Places.Best {m : ℕ} {α β : Type} (f : Places m α β) (v : β → ℚ) (p : Fin m × α) : Prop := ∀ l, v (f.win (l, p.2)) ≤ v (f.win p)

instance {m : ℕ} {α β : Type} (f : Places m α β) (v : β → ℚ) (p : Fin m × α) : Decidable (f.Best v p) := inferInstanceAs (Decidable (∀ l, _))

/-- What a call hands to its operands when its result has the gradient `g`. -/
def Call.contrib (V : Nums sh) {d : ℕ} (g : sh d → ℚ) : Call n sh d → List (Σ a, sh a → ℚ)
  | .leaf .. | .param => []
  | .addPub a f _ => [⟨a, fun j => ∑ p, g (f.back (p, j))⟩]
  | .bilPub a _ B y => [⟨a, bilinearQ B.left g y⟩]
  | .add a b f h => [⟨a, fun j => ∑ p, g (f.back (p, j))⟩, ⟨b, fun j => ∑ p, g (h.back (p, j))⟩]
  | .sub a b f h => [⟨a, fun j => ∑ p, g (f.back (p, j))⟩, ⟨b, fun j => -∑ p, g (h.back (p, j))⟩]
  | .neg a e => [⟨a, fun j => -g (e.symm j)⟩]
  | .mul a b f h => [⟨a, fun j => ∑ p, g (f.back (p, j)) * V b (h.map (f.back (p, j)))⟩, ⟨b, fun j => ∑ p, g (h.back (p, j)) * V a (f.map (h.back (p, j)))⟩]
  | .mulNum a e c => [⟨a, fun j => g (e.symm j) * c⟩]
  | .bil a b B => [⟨a, bilinearQ B.left g (V b)⟩, ⟨b, fun j => ∑ m, bilinearQ B.right (V a) g (m, j)⟩]
  | .square a e => [⟨a, fun j => g (e.symm j) * (V a j * 2)⟩]
  | .sum a f => [⟨a, fun j => g (f.map j)⟩]
  | .mean a f => [⟨a, fun j => g (f.map j) * (1 / f.size)⟩]
  | .view a e => [⟨a, fun j => g (e.symm j)⟩]
  | .relu a e => [⟨a, fun j => g (e.symm j) * if 0 < V a j then 1 else 0⟩]
  | .part a f => [⟨a, fun j => (f.back j).elim 0 g⟩]
  | .cat a b e => [⟨a, fun j => g (e.symm (.inl j))⟩, ⟨b, fun j => g (e.symm (.inr j))⟩]
  | .avg a f => [⟨a, fun j => ((f.back j).map fun i => g i * (1 / f.size)).sum⟩]
  | .maximum a _ _ f => [⟨a, fun j => ((f.back j).map fun p => g p.2 * if f.Best (V a) p then 1 else 0).sum⟩]

/-- Addition of contributions. -/
def gather : List (Σ a, sh a → ℚ) → Nums sh → Nums sh
  | [], G => G
  | c :: l, G => gather l (set (α := fun ι => ι → ℚ) G c.1 fun i => G c.1 i + c.2 i)

/-- The gradients after the backward pass, from the gradients `G`. -/
def grads (V : Nums sh) : Tape n sh → Nums sh → Nums sh
  | [], G => G
  | ⟨d, c⟩ :: t, G => grads V t (gather (c.contrib V (G d)) G)

/-- A bilinear function with the right functions for its gradients: those of the linear maps `B(·, v)` and `B(u, ·)`, transposed. -/
structure Bil.Right {α β γ : Type} [Fintype α] [Fintype β] [Fintype γ] (B : Bil α β γ) : Prop where
  left : ∀ u v g, ∑ i, g i * bilinearQ B.op u v i = ∑ j, bilinearQ B.left g v j * u j
  right : ∀ u v g, ∑ i, g i * bilinearQ B.op u v i = ∑ j, (∑ m, bilinearQ B.right u g (m, j)) * v j

/-- The same when the second operand is public. -/
def Bil.RightPub {α β γ : Type} [Fintype α] [Fintype γ] (B : Bil α β γ) : Prop := ∀ u v g, ∑ i, g i * bilinearQ B.op u v i = ∑ j, bilinearQ B.left g v j * u j

/-- Numbers of products per entry. -/
def Bil.Sized {α β γ : Type} (B : Bil α β γ) : Prop := (∀ i, (B.op i).length ≤ B.terms) ∧ (∀ i, (B.left i).length ≤ B.termsLeft) ∧ ∀ i, (B.right i).length ≤ B.termsRight

/-- Windows and their transpose. -/
def Windows.Right {α β : Type} [Fintype α] [Fintype β] (f : Windows α β) : Prop := ∀ u g : _ → ℚ, ∑ i, g i * ((f.win i).map u).sum = ∑ j, ((f.back j).map g).sum * u j

/-- The lists have the right lengths. -/
def Windows.Sized {α β : Type} (f : Windows α β) : Prop := (∀ i, (f.win i).length ≤ f.size) ∧ ∀ j, (f.back j).length ≤ f.uses

/-- Places of windows and where the entries are used. -/
def Places.Right {m : ℕ} {α β : Type} [Fintype α] [Fintype β] (f : Places m α β) : Prop := ∀ (F : Fin m × α → ℚ) (u : β → ℚ), ∑ p, F p * u (f.win p) = ∑ j, ((f.back j).map F).sum * u j

/-- All bilinear functions and windows have the right functions for their gradients. -/
def Right [∀ r, Fintype (sh r)] : Tape n sh → Prop
  | [] => True
  | ⟨_, .bil _ _ B⟩ :: t => B.Right ∧ Right t
  | ⟨_, .bilPub _ _ B _⟩ :: t => B.RightPub ∧ Right t
  | ⟨_, .avg _ f⟩ :: t => f.Right ∧ Right t
  | ⟨_, .maximum _ _ _ f⟩ :: t => f.Right ∧ Right t
  | _ :: t => Right t

/-- In every window, one place has a value that exceeds the others by more than `e`. -/
def Places.Gap {m : ℕ} {α β : Type} (f : Places m α β) (v : β → ℚ) (e : ℚ) : Prop := ∀ i, ∃ j, ∀ l, l ≠ j → v (f.win (l, i)) + e < v (f.win (j, i))

/-- No operand of `relu` is 0, where it has no derivative, and no maximum is attained twice. -/
def Smooth (W : Nums sh) : Tape n sh → Prop
  | [] => True
  | ⟨_, .relu a _⟩ :: t => (∀ i, values W t a i ≠ 0) ∧ Smooth W t
  | ⟨_, .maximum a _ _ f⟩ :: t => f.Gap (values W t a) 0 ∧ Smooth W t
  | _ :: t => Smooth W t

/-! ## Errors -/

/-- The greatest absolute value. -/
def top {m : ℕ} (y : Fin m → ℚ) : ℚ := Finset.univ.fold max 0 fun j => |y j|

/-- The error of a result. -/
def Call.err (n k : ℕ) (P M E : ℕ → ℚ) {d : ℕ} : Call n sh d → ℚ
  | .leaf .. => 1 / 2 ^ k
  | .param => P d
  | .addPub a .. => E a + 1 / 2 ^ k
  | .bilPub a _ B y => B.terms * (E a * top y + M a * (1 / 2 ^ k) + E a * (1 / 2 ^ k)) + n / 2 ^ k
  | .add a b .. | .sub a b .. => E a + E b
  | .neg a _ | .view a _ | .relu a _ | .part a _ | .maximum a .. => E a
  | .cat a b _ => max (E a) (E b)
  | .avg a f => f.size * E a / f.size + (3 * n + 2) / 2 ^ k
  | .mul a b .. => E a * M b + M a * E b + E a * E b + n / 2 ^ k
  | .mulNum a _ c => E a * |c| + M a * (1 / 2 ^ k) + E a * (1 / 2 ^ k) + n / 2 ^ k
  | .bil a b B => B.terms * (E a * M b + M a * E b + E a * E b) + n / 2 ^ k
  | .square a _ => E a * (2 * M a + E a) + n / 2 ^ k
  | .sum a f => f.size * E a
  | .mean a f => f.size * E a / f.size + (3 * n + 2) / 2 ^ k

/-- The result has magnitude `M d`, nothing overflows on the way, `relu` sees the right signs, and maxima are
attained at the right places. -/
def Call.Safe (k : ℕ) (M E : ℕ → ℚ) (W V : Nums sh) {d : ℕ} (c : Call n sh d) : Prop :=
  (∀ i, |c.eval W (fun _ _ => (0 : ℚ)) V i| ≤ M d) ∧
  match c with
  | .leaf .. => 2 ^ k * (M d + 1 / 2 ^ k) < 2 ^ 63
  | .param => True
  | .addPub a .. => 2 ^ k * (M d + (E a + 1 / 2 ^ k)) < 2 ^ 63
  | .bilPub a _ B y => B.Sized ∧ 2 ^ k * top y < 2 ^ 63 ∧ 2 ^ k * 2 ^ k * (B.terms * ((M a + E a) * (top y + 1 / 2 ^ k))) < 2 ^ 63
  | .add a b .. | .sub a b .. => 2 ^ k * (M d + (E a + E b)) < 2 ^ 63
  | .neg a _ => 2 ^ k * (M a + E a) < 2 ^ 63
  | .mul a b .. => 2 ^ k * 2 ^ k * ((M a + E a) * (M b + E b)) < 2 ^ 63
  | .mulNum a _ c => 2 ^ k * |c| < 2 ^ 63 ∧ 2 ^ k * 2 ^ k * ((M a + E a) * (|c| + 1 / 2 ^ k)) < 2 ^ 63
  | .bil a b B => B.Sized ∧ 2 ^ k * 2 ^ k * (B.terms * ((M a + E a) * (M b + E b))) < 2 ^ 63
  | .square a _ => 2 ^ k * 2 ^ k * (M a + E a) ^ 2 < 2 ^ 63
  | .sum a f => 2 ^ k * (M d + f.size * E a) < 2 ^ 63
  | .mean a f => 0 < f.size ∧ f.size < 2 ^ 63 ∧ 2 ^ k * (f.size * M d + f.size * E a) < 2 ^ 63
  | .view .. | .part .. | .cat .. => True
  | .avg a f => f.Sized ∧ 0 < f.size ∧ f.size < 2 ^ 63 ∧ 2 ^ k * (f.size * M d + f.size * E a) < 2 ^ 63
  | .maximum a _ m f => 2 ^ k * ((m + 1) * 2 ^ k) < 2 ^ 63 ∧ 2 ^ k * (2 * (M a + E a)) < 2 ^ 63 ∧ f.Gap (V a) (2 * E a)
  | .relu a _ => 2 ^ k * (M a + E a) < 2 ^ 63 ∧ ∀ i, E a < |V a i|

/-- The errors of all results. -/
def errs (n k : ℕ) (P M : ℕ → ℚ) : Tape n sh → ℕ → ℚ
  | [] => fun _ => 0
  | ⟨d, c⟩ :: t => Function.update (errs n k P M t) d (c.err n k P M (errs n k P M t))

/-- Nothing overflows in the forward pass. -/
def SafeForward (k : ℕ) (P M : ℕ → ℚ) (W : Nums sh) : Tape n sh → Prop
  | [] => True
  | ⟨_, c⟩ :: t => c.Safe k M (errs n k P M t) W (values W t) ∧ SafeForward k P M W t

/-- The errors of what a call hands to its operands, for a gradient of magnitude `κ` and error `ε`. -/
def Call.contribErr (n k : ℕ) (M E : ℕ → ℚ) (κ ε : ℚ) {d : ℕ} : Call n sh d → List ℚ
  | .leaf .. | .param => []
  | .addPub _ f _ => [f.size * ε]
  | .bilPub _ _ B y => [B.termsLeft * (ε * top y + κ * (1 / 2 ^ k) + ε * (1 / 2 ^ k)) + n / 2 ^ k]
  | .add _ _ f h | .sub _ _ f h => [f.size * ε, h.size * ε]
  | .neg .. | .view .. | .relu .. | .part .. => [ε]
  | .cat .. => [ε, ε]
  | .avg _ f => [f.uses * (ε * (1 / f.size) + κ * (1 / 2 ^ k) + ε * (1 / 2 ^ k)) + n / 2 ^ k]
  | .maximum _ _ _ f => [f.uses * ε]
  | .mul a b f h => [f.size * (ε * M b + κ * E b + ε * E b + n / 2 ^ k), h.size * (ε * M a + κ * E a + ε * E a + n / 2 ^ k)]
  | .mulNum _ _ c => [ε * |c| + κ * (1 / 2 ^ k) + ε * (1 / 2 ^ k) + n / 2 ^ k]
  | .bil a b B => [B.termsLeft * (ε * M b + κ * E b + ε * E b) + n / 2 ^ k, B.batch * (B.termsRight * (E a * κ + M a * ε + E a * ε) + n / 2 ^ k)]
  | .square a _ =>
    let e := E a * 2 + M a * (1 / 2 ^ k) + E a * (1 / 2 ^ k) + n / 2 ^ k
    [ε * (M a * 2) + κ * e + ε * e + n / 2 ^ k]
  | .sum .. => [ε * 1 + κ * (1 / 2 ^ k) + ε * (1 / 2 ^ k) + n / 2 ^ k]
  | .mean _ f => [ε * (1 / f.size) + κ * (1 / 2 ^ k) + ε * (1 / 2 ^ k) + n / 2 ^ k]

/-- Nothing overflows in the call's `backward`. -/
def Call.SafeContrib (k : ℕ) (M E : ℕ → ℚ) (κ ε : ℚ) {d : ℕ} : Call n sh d → Prop
  | .leaf .. | .param | .view .. | .relu .. | .part .. | .cat .. => True
  | .avg _ f => f.Sized ∧ 2 ^ k * (1 / f.size : ℚ) < 2 ^ 63 ∧ 2 ^ k * 2 ^ k * (f.uses * ((κ + ε) * (1 / f.size + 1 / 2 ^ k))) < 2 ^ 63
  | .maximum a _ _ f => (∀ j, (f.back j).length ≤ f.uses) ∧ 2 ^ k * (f.uses * κ + f.uses * ε) < 2 ^ 63
  | .addPub _ f _ => 2 ^ k * (f.size * κ + f.size * ε) < 2 ^ 63
  | .bilPub _ _ B y => B.Sized ∧ 2 ^ k * top y < 2 ^ 63 ∧ 2 ^ k * 2 ^ k * (B.termsLeft * ((κ + ε) * (top y + 1 / 2 ^ k))) < 2 ^ 63
  | .add _ _ f h | .sub _ _ f h => 2 ^ k * (f.size * κ + f.size * ε) < 2 ^ 63 ∧ 2 ^ k * (h.size * κ + h.size * ε) < 2 ^ 63
  | .neg .. => 2 ^ k * (κ + ε) < 2 ^ 63
  | .mul a b f h => 2 ^ k * 2 ^ k * ((κ + ε) * (M b + E b)) < 2 ^ 63 ∧ 2 ^ k * 2 ^ k * ((κ + ε) * (M a + E a)) < 2 ^ 63 ∧
    2 ^ k * (f.size * (κ * M b) + f.size * (ε * M b + κ * E b + ε * E b + n / 2 ^ k)) < 2 ^ 63 ∧ 2 ^ k * (h.size * (κ * M a) + h.size * (ε * M a + κ * E a + ε * E a + n / 2 ^ k)) < 2 ^ 63
  | .mulNum _ _ c => 2 ^ k * |c| < 2 ^ 63 ∧ 2 ^ k * 2 ^ k * ((κ + ε) * (|c| + 1 / 2 ^ k)) < 2 ^ 63
  | .bil a b B => B.Sized ∧ 2 ^ k * 2 ^ k * (B.termsLeft * ((κ + ε) * (M b + E b))) < 2 ^ 63 ∧ 2 ^ k * 2 ^ k * (B.termsRight * ((M a + E a) * (κ + ε))) < 2 ^ 63 ∧
    2 ^ k * (B.batch * (B.termsRight * (M a * κ)) + B.batch * (B.termsRight * (E a * κ + M a * ε + E a * ε) + n / 2 ^ k)) < 2 ^ 63
  | .square a _ => 2 ^ k * 2 ^ k * ((M a + E a) * (2 + 1 / 2 ^ k)) < 2 ^ 63 ∧ (2 : ℚ) ^ k * 2 < 2 ^ 63 ∧
    2 ^ k * 2 ^ k * ((κ + ε) * (M a * 2 + (E a * 2 + M a * (1 / 2 ^ k) + E a * (1 / 2 ^ k) + n / 2 ^ k))) < 2 ^ 63
  | .sum .. => (2 : ℚ) ^ k * 1 < 2 ^ 63 ∧ 2 ^ k * 2 ^ k * ((κ + ε) * (1 + 1 / 2 ^ k)) < 2 ^ 63
  | .mean _ f => 2 ^ k * (1 / f.size : ℚ) < 2 ^ 63 ∧ 2 ^ k * 2 ^ k * ((κ + ε) * (1 / f.size + 1 / 2 ^ k)) < 2 ^ 63

/-- The errors of the gradients after contributions. -/
def gatherErr : List (Σ a, sh a → ℚ) → List ℚ → (ℕ → ℚ) → ℕ → ℚ
  | c :: l, e :: es, D => gatherErr l es (Function.update D c.1 (D c.1 + e))
  | _, _, D => D

/-- The sums of contributions stay within the magnitudes `K` and do not overflow. -/
def SafeGather (k : ℕ) (K : ℕ → ℚ) : List (Σ a, sh a → ℚ) → List ℚ → Nums sh → (ℕ → ℚ) → Prop
  | c :: l, e :: es, G, D => (∀ i, |G c.1 i + c.2 i| ≤ K c.1) ∧ 2 ^ k * (K c.1 + (D c.1 + e)) < 2 ^ 63 ∧
    SafeGather k K l es (set (α := fun ι => ι → ℚ) G c.1 fun i => G c.1 i + c.2 i) (Function.update D c.1 (D c.1 + e))
  | _, _, _, _ => True

/-- The errors of the gradients after the backward pass. -/
def gradErrs (n k : ℕ) (M E K : ℕ → ℚ) (V : Nums sh) : Tape n sh → Nums sh → (ℕ → ℚ) → ℕ → ℚ
  | [], _, D => D
  | ⟨d, c⟩ :: t, G, D => gradErrs n k M E K V t (gather (c.contrib V (G d)) G) (gatherErr (c.contrib V (G d)) (c.contribErr n k M E (K d) (D d)) D)

/-- Nothing overflows in the backward pass. -/
def SafeBackward (k : ℕ) (M E K : ℕ → ℚ) (V : Nums sh) : Tape n sh → Nums sh → (ℕ → ℚ) → Prop
  | [], _, _ => True
  | ⟨d, c⟩ :: t, G, D => c.SafeContrib k M E (K d) (D d) ∧ SafeGather k K (c.contrib V (G d)) (c.contribErr n k M E (K d) (D d)) G D ∧
    SafeBackward k M E K V t (gather (c.contrib V (G d)) G) (gatherErr (c.contrib V (G d)) (c.contribErr n k M E (K d) (D d)) D)

/-- The tensors that get a gradient when those in `Q` have one. -/
def reach : Tape n sh → (ℕ → Bool) → ℕ → Bool
  | [], Q => Q
  | ⟨d, c⟩ :: t, Q => reach t (if Q d then fun r => Q r || decide (r ∈ c.operands) else Q)

/-- The gradient that the result has at first. -/
def seed (out : ℕ) : Nums sh := set (α := fun ι => ι → ℚ) (fun _ _ => 0) out fun _ => 1

end CrypTen.Backprop

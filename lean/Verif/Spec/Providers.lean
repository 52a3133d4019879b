import Verif.Model.Providers

/-! What a provider has to deliver. -/

namespace CrypTen
variable {n : ℕ}

/-- The result answers the request with a correct correlation. -/
inductive TupleOk {D : Type} : TupleReq D → TupleRes n → Prop
  /-- `c = op(a, b)` -/
  | additive (d : D) {k0 k1 k2 : ℕ} (B : BilinearOp (Fin k0) (Fin k1) (Fin k2)) (t : MulTriple n (Fin k0) (Fin k1) (Fin k2))
      (h : reveal t.c = B.apply (reveal t.a) (reveal t.b)) : TupleOk (.additive d B) (.additive t)
  /-- `r2 = r * r` -/
  | square (d : D) {k : ℕ} (t : SquarePair n (Fin k)) (h : ∀ i, reveal t.r2 i = reveal t.r i * reveal t.r i) : TupleOk (.square d k) (.square t)
  /-- `c = a & b`, broadcast -/
  | binary (d : D) {k0 k1 k2 : ℕ} (f : Fin k2 → Fin k0) (g : Fin k2 → Fin k1) (a : Shares n (Fin k0)) (b : Shares n (Fin k1)) (c : Shares n (Fin k2))
      (h : ∀ i, revealX c i = revealX a (f i) &&& revealX b (g i)) : TupleOk (.binary d f g) (.binary a b c)
  /-- `theta` is the wrap count of the shares of `r` -/
  | wraps (d : D) {k : ℕ} (t : WrapPair n (Fin k)) (h : ∀ i, reveal t.theta i = countWraps (List.ofFn fun p => t.r p i)) : TupleOk (.wraps d k) (.wraps t)
  /-- both components share the same bit -/
  | b2a (d : D) {k : ℕ} (t : B2APair n (Fin k)) (h : ∀ i, (reveal t.rA i = 0 ∨ reveal t.rA i = 1) ∧ revealX t.rB i = reveal t.rA i) : TupleOk (.b2a d k) (.b2a t)

/-- `torch.randint(low, high)` returns values in `[low, high)`. -/
def Prng.InRange (P : Prng) : Prop :=
  ∀ (low high : ℤ) (k : ℕ) (g : P.σ) (i : Fin k), low < high → -2 ^ 63 ≤ low → high ≤ 2 ^ 63 →
    low ≤ ((P.randint low high k g).1 i).toInt ∧ ((P.randint low high k g).1 i).toInt < high

end CrypTen

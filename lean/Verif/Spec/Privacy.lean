import Verif.Model.Program

/-!
# What a coalition sees

All parties except `h` put together what they know: their parts of every tuple, their shares, and everything that is sent. The dealer of the tuples is not part of the coalition.
-/

namespace CrypTen.Privacy
variable {n : ℕ}

/-- Every party except `h` gets the same from both streams. -/
structure SameForOthers (h : Fin n) (T T' : Tuples n) : Prop where
  mul : ∀ k {ι ι' κ : Type} (B : BilinearOp ι ι' κ) p, p ≠ h → (T.mul k B).a p = (T'.mul k B).a p ∧ (T.mul k B).b p = (T'.mul k B).b p ∧ (T.mul k B).c p = (T'.mul k B).c p
  square : ∀ k ι p, p ≠ h → (T.square k ι).r p = (T'.square k ι).r p ∧ (T.square k ι).r2 p = (T'.square k ι).r2 p
  bin : ∀ k ι p, p ≠ h → (T.bin k ι).a p = (T'.bin k ι).a p ∧ (T.bin k ι).b p = (T'.bin k ι).b p ∧ (T.bin k ι).c p = (T'.bin k ι).c p
  b2a : ∀ k ι p, p ≠ h → (T.b2a k ι).rA p = (T'.b2a k ι).rA p ∧ (T.b2a k ι).rB p = (T'.b2a k ι).rB p
  wrap : ∀ k ι p, p ≠ h → (T.wrap k ι).r p = (T'.wrap k ι).r p ∧ (T.wrap k ι).theta p = (T'.wrap k ι).theta p
  zeroA : ∀ k ι p, p ≠ h → T.zeroA k ι p = T'.zeroA k ι p
  zeroX : ∀ k ι p, p ≠ h → T.zeroX k ι p = T'.zeroX k ι p
  kbit : ∀ k bits ι p, p ≠ h → T.kbit k bits ι p = T'.kbit k bits ι p

/-- The two streams are the same except for the tuples that were used in the transcript `seen`. -/
structure SameUnused (seen : ℕ → Option (Event n)) (T T' : Tuples n) : Prop where
  mul : ∀ k {ι ι' κ : Type} (B : BilinearOp ι ι' κ), (∀ e d, seen k ≠ some (.mul B e d)) → T.mul k B = T'.mul k B
  square : ∀ k ι, (∀ e : Shares n ι, seen k ≠ some (.square e)) → T.square k ι = T'.square k ι
  bin : ∀ k ι, (∀ e d : Shares n ι, seen k ≠ some (.bin e d)) → T.bin k ι = T'.bin k ι
  b2a : ∀ k ι, (∀ z : Shares n ι, seen k ≠ some (.b2a z)) → T.b2a k ι = T'.b2a k ι
  wrap : ∀ k ι, (∀ z : Shares n ι, seen k ≠ some (.wrap z)) → T.wrap k ι = T'.wrap k ι
  zeroA : ∀ k ι, T.zeroA k ι = T'.zeroA k ι
  zeroX : ∀ k ι, T.zeroX k ι = T'.zeroX k ι
  kbit : ∀ k bits ι, T.kbit k bits ι = T'.kbit k bits ι

/-- The programs differ at most in the numbers that party `h` enters. -/
def SameBut (h : Fin n) {sh : ℕ → Type} (P P' : Program.Prog n sh) : Prop :=
  List.Forall₂ (fun l l' => l = l' ∨ ∃ d x x', l = ⟨d, .input h x⟩ ∧ l' = ⟨d, .input h x'⟩) P P'

/-- Every party except `h` holds the same in all registers. -/
def SameRegs (h : Fin n) {sh : ℕ → Type} (R R' : Program.Regs n sh) : Prop := ∀ r, (R r).scale = (R' r).scale ∧ ∀ p, p ≠ h → (R r).share p = (R' r).share p

/-- Every party except `h` holds the same of a tensor. -/
def SameTensor (h : Fin n) {ι : Type} (x x' : AST n ι) : Prop := x.scale = x'.scale ∧ ∀ p, p ≠ h → x.share p = x'.share p

/-- All parties except `h` together cannot tell the run `r` with the stream `T` from the run `r'` with the stream `T'`: they got the same parts of all tuples, the same was sent in the same order, and they hold the same
results (`R`). Tuples that were not used are the same anyway. -/
structure SameView (h : Fin n) {α : Type} (R : α → α → Prop) (T : Tuples n) (r : Run n α) (T' : Tuples n) (r' : Run n α) : Prop where
  others : SameForOthers h T T'
  unused : SameUnused r.seen T T'
  requests : r'.ctr = r.ctr
  transcript : r'.seen = r.seen
  result : R r.val r'.val

/-- For the parties except `h`, the protocols `m` and `m'` look the same: to every choice of the tuples in a run of `m` belongs exactly one in a run of `m'` that gives the others the same view, and the other way round.
So, when all correct tuples are equally likely, every view is equally likely in both. -/
def Private (h : Fin n) {α : Type} (R : α → α → Prop) (m m' : Proto n α) : Prop :=
  ∀ c, ∃ φ : {T : Tuples n // T.Valid} ≃ {T : Tuples n // T.Valid}, ∀ T : {T : Tuples n // T.Valid}, SameView h R T.1 (m T.1 c) (φ T).1 (m' (φ T).1 c) ∧
    ∀ T' : Tuples n, T'.Valid → SameView h R T.1 (m T.1 c) T' (m' T' c) → T' = (φ T).1

end CrypTen.Privacy

import Verif.Model.Maximum
import Verif.Model.Sharing

/-!
# Dropout

Models /repo/crypten/common/functions/dropout.py (tensors that do not require a gradient) and `AutogradDropout`, `AutogradFeatureDropout` (/repo/crypten/gradients.py:496-568).
`b` is `cfg.encoder.precision_bits`, `q` the drop probability. `1 / (1 - q)` is exact here (the code computes it in single precision). `inplace` only decides into which object the result is written.
-/

namespace CrypTen
variable {n k : ℕ} {ι : Type}

/-- `rand_tensor > p` (dropout.py:43-44). -/
def dropoutKeep [NeZero n] (b : ℕ) (q : ℚ) : Proto n (AST n ι) := do
  let r ← mpcRand b ι
  r.gt (2 ^ b) (.pub fun _ => q)

/-- `self.div(1 - p).mul(dropout_tensor)` (dropout.py:45-51). -/
def dropoutApply [NeZero n] (q : ℚ) (x keep : AST n ι) : Proto n (AST n ι) := do
  let y ← AST.mulPub (elementwise ι) x fun _ => 1 / (1 - q)
  AST.mul (elementwise ι) y keep

/-- `dropout` (dropout.py:15-51): `none` is the failed assertion. -/
def dropoutFn [NeZero n] (b : ℕ) (q : ℚ) (training : Bool) (x : AST n ι) : Option (Proto n (AST n ι)) :=
  if q = 0 then some (pure x)
  else if q = 1 then some (x.sub x)
  else if ¬(0 < q ∧ q < 1) then none
  else if !training then some (pure x)
  else some (dropoutKeep b q >>= dropoutApply q x)

/-- gradients.py:511-515, 548-551: the mask a party draws from its global generator. `torch.rand` returns multiples of `2^-24`. -/
def globalMask (P : Prng) (k : ℕ) (q : ℚ) (g : PartyGens P) : (Fin k → Bool) × PartyGens P :=
  let v := P.randint 0 (2 ^ 24) k g.glob
  (fun i => decide (q < ((v.1 i).toNat : ℚ) / 2 ^ 24), { g with glob := v.2 })

/-- `input.mul(boolean_mask.div(1.0 - p))` where every party uses its own mask (gradients.py:516-519, 555-558); `ch` maps an entry to the entry of the mask used for it (itself, or its channel). -/
def maskedMul [NeZero n] (q : ℚ) (ch : ι → Fin k) (masks : Fin n → Fin k → Bool) (x : AST n ι) : Proto n (AST n ι) := do
  let s : Shares n ι := fun r i => x.share r i * encodePublic x.scale (fun i => (if masks r (ch i) then 1 else 0) / (1 - q)) i
  if x.scale > 1 then do
    let s' ← Proto.divInt s fun _ => (x.scale : ℤ)
    pure ⟨s', x.scale⟩
  else pure ⟨s, x.scale⟩

/-- `AutogradDropout.forward`, `AutogradFeatureDropout.forward` (gradients.py:498-521, 533-560) with the generators of all parties; for `q ≠ 1` (with `q = 1` the code divides zero by zero). -/
def dropoutGrad [NeZero n] {P : Prng} (w : World P n) (d : Device) (q : ℚ) (training : Bool) (ch : ι → Fin k) (x : AST n ι) : Proto n (AST n ι) × World P n :=
  if !training then (pure x, w)
  else
    let m := w.onAll d (globalMask P k q)
    (maskedMul q ch m.1 x, m.2)

/-- The masks of `n` parties that are threads of one process: they draw one after the other from the one global generator (see `przsArithThreads`; /repo/crypten/__init__.py:36, 82-84). -/
def masksThreads (P : Prng) (k : ℕ) (q : ℚ) : (n : ℕ) → PartyGens P → List (Fin k → Bool)
  | 0, _ => []
  | n + 1, g => (globalMask P k q g).1 :: masksThreads P k q n (globalMask P k q g).2

end CrypTen

import Verif.Model.Arith

/-!
# Plaintext meaning of the linear operations

What a user of plain torch tensors would compute.  Independent of parties and shares.
-/

namespace CrypTen

/-- Effect of a statement on plain registers. -/
def LinOp.stepPlain (ρ : ℕ → Tensor ℕ) : LinOp → ℕ → Tensor ℕ
  | .add d a b => Function.update ρ d (ρ a + ρ b)
  | .sub d a b => Function.update ρ d (ρ a - ρ b)
  | .addPub d a y => Function.update ρ d (ρ a + y)
  | .subPub d a y => Function.update ρ d (ρ a - y)
  | .rsubPub d a y => Function.update ρ d (y - ρ a)
  | .neg d a => Function.update ρ d (-ρ a)
  | .mulPub d a y => Function.update ρ d (ρ a * y)
  | .bilinearPub d a T y => Function.update ρ d (T.apply (ρ a) y)
  | .reindex d a g => Function.update ρ d (Torch.reindex g (ρ a))
  | .sums d a src => Function.update ρ d (Torch.sums src (ρ a))
  | .padPub d a g v => Function.update ρ d (Torch.pad g (ρ a) v)
  | .indexAddPub d a e tgt t => Function.update ρ d (Torch.indexAdd e tgt (ρ a) t)
  | .indexAdd d a b e tgt => Function.update ρ d (Torch.indexAdd e tgt (ρ a) (ρ b))
  | .overwrite d a b pick => Function.update ρ d (Torch.overwrite pick (ρ a) (ρ b))

end CrypTen

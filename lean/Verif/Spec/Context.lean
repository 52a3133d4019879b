import Verif.Model.Context

/-!
# What scoped settings should mean

The gradient mode read lexically: a block has its own mode, that of its header, and a call of `set_grad_enabled` affects the rest of the innermost block only.
-/

namespace CrypTen

/-- Lexical reading: given the mode at this point of the block, the mode at the end of this part of the block, how it ends, and what `look` sees. The mode inside a nested block does not
flow out. -/
inductive GradProg.Lexical : GradProg → Bool → Bool → Exit → List Bool → Prop
  | skip (m) : Lexical .skip m m .normal []
  | look (m) : Lexical .look m m .normal [m]
  | raise (m) : Lexical .raise m m .raised []
  | setEnabled (m m') : Lexical (.setEnabled m') m m' .normal []
  | seq {p q m m1 m2 e l1 l2} : Lexical p m m1 .normal l1 → Lexical q m1 m2 e l2 → Lexical (.seq p q) m m2 e (l1 ++ l2)
  | seqRaised {p q m m1 l1} : Lexical p m m1 .raised l1 → Lexical (.seq p q) m m1 .raised l1
  | tryNormal {p q m m1 l1} : Lexical p m m1 .normal l1 → Lexical (.tryExcept p q) m m1 .normal l1
  | tryExcept {p q m m1 m2 e l1 l2} : Lexical p m m1 .raised l1 → Lexical q m1 m2 e l2 → Lexical (.tryExcept p q) m m2 e (l1 ++ l2)
  | noGrad {body m m' e l} : Lexical body false m' e l → Lexical (.noGrad body) m m e l
  | enableGrad {body m m' e l} : Lexical body true m' e l → Lexical (.enableGrad body) m m e l

/-- The program assigns only through `cfg`, not through references it holds to configuration objects. -/
def CfgProg.NoHeld : CfgProg → Prop
  | .assignHeld .. | .setConfig .. => False
  | .seq p q | .tryExcept p q => NoHeld p ∧ NoHeld q
  | .override _ body => NoHeld body
  | _ => True

end CrypTen

import Verif.Model.ArithFunc

/-!
# `cat` and `stack`

Models `__cat_stack_helper` (/repo/crypten/common/functions/regular.py:246-281) and `ArithmeticSharedTensor.stack`, `cat`
(/repo/crypten/mpc/primitives/arithmetic.py:265-279, 675-678).
-/

namespace CrypTen
variable {n : ℕ}

/-- An element of the list given to `cat` / `stack`: an encrypted tensor, or a plain tensor or number. -/
inductive CatArg (n : ℕ) (κ : Type) where
  | enc (x : AST n κ)
  | pub (y : κ → ℚ)

inductive CatError where
  | assertion
  | attribute
  deriving DecidableEq

/-- The "type coordination" of the helper (regular.py:257-261) followed by taking `_tensor` of every element (line 265). The loop runs over
`enumerate(tensors[1:])`, so element `i` is replaced when element `i + 1` is plain; element `i` is then required to be encrypted. Position `i` of the result depends
on the elements `i` and `i + 1` only; the last element is never replaced. `new` is the encryption of a plain tensor. -/
def coordinate {κ : Type} (new : (κ → ℚ) → AST n κ) : List (CatArg n κ) → Except CatError (List (AST n κ))
  | [] => .error .assertion
  | [.enc x] => .ok [x]
  | [.pub _] => .error .attribute
  | a :: b :: rest => do
    let h ← match b, a with
      | .pub y, _ => .ok (new y)
      | .enc _, .enc x => .ok x
      | .enc _, .pub _ => .error .assertion
    let t ← coordinate new (b :: rest)
    .ok (h :: t)

/-- The concatenation: the shares of the operands one after the other, the encoder of the first (regular.py:263-266: the result is a clone of the first operand
with the concatenated `_tensor`; arithmetic.py: the same for the shares). Operand `t` has index set `J t`; the result is indexed by operand and index. -/
def catAST {m : ℕ} {J : Fin (m + 1) → Type} (x : (t : Fin (m + 1)) → AST n (J t)) : AST n (Σ t, J t) :=
  ⟨fun p k => (x k.1).share p k.2, (x 0).scale⟩

end CrypTen

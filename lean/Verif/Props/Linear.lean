import Verif.Spec.Linear
import Verif.Lemmas.Linear

/-!
# C08: linear operations are exact
-/

namespace CrypTen
variable {n : ℕ} {ι ι' κ : Type}

/-- **C08 (public operands are counted once).** Adding, subtracting or subtracting from a public tensor changes the revealed value by
exactly that tensor, for every number of parties. -/
theorem C08_public_operand_counted_once [NeZero n] (s : Shares n ι) (y : Tensor ι) :
    reveal (addPublic s y) = reveal s + y ∧ reveal (subPublic s y) = reveal s - y ∧
    reveal (rsubPublic s y) = y - reveal s :=
  ⟨reveal_addPublic s y, reveal_subPublic s y, reveal_rsubPublic s y⟩

/-- **C08 (encrypted operands).** -/
theorem C08_add_sub_neg (s t : Shares n ι) :
    reveal (addShares s t) = reveal s + reveal t ∧ reveal (subShares s t) = reveal s - reveal t ∧
    reveal (negShares s) = -reveal s :=
  ⟨reveal_addShares s t, reveal_subShares s t, reveal_negShares s⟩

/-- **C08 (public multiplication).** Public scalar, elementwise, matrix and convolution products. -/
theorem C08_public_products (T : BilinearOp ι ι' κ) (s : Shares n ι) (y : Tensor ι') (z : Tensor ι) :
    reveal (bilinearPublic T s y) = T.apply (reveal s) y ∧ reveal (mulInt s z) = reveal s * z :=
  ⟨reveal_bilinearPublic T s y, reveal_mulInt s z⟩

/-- **C08 (whole programs).** For every number of parties, every program made of the linear operations, and every initial sharing: the
values revealed from the encrypted registers after running the program are those of running the same program on the revealed inputs. -/
theorem C08_linear_programs_exact [NeZero n] (prog : List LinOp) (ρ : ℕ → Shares n ℕ) (r : ℕ) :
    reveal (prog.foldl LinOp.stepShared ρ r) = prog.foldl LinOp.stepPlain (fun q => reveal (ρ q)) r := by
  induction prog generalizing ρ with
  | nil => rfl
  | cons op prog ih =>
    rw [List.foldl_cons, List.foldl_cons, ih]
    have key : (fun q => reveal (LinOp.stepShared ρ op q)) = LinOp.stepPlain (fun q => reveal (ρ q)) op := by
      funext q
      cases op <;> simp only [LinOp.stepShared, LinOp.stepPlain, Function.update_apply] <;> split <;>
        simp only [reveal_addShares, reveal_subShares, reveal_negShares, reveal_addPublic, reveal_subPublic, reveal_rsubPublic,
        reveal_mulInt, reveal_bilinearPublic, reveal_reindex, reveal_sums, reveal_padPublic, reveal_indexAddPublic,
        reveal_indexAddPrivate, reveal_overwritePrivate]
    rw [key]

/-- **C08 (padding with an encrypted value).** -/
theorem C08_pad_private (g : κ → Option ι) (s : Shares n ι) (v : Fin n → I64) :
    reveal (padPrivate g s v) = Torch.pad g (reveal s) (∑ p, v p) := reveal_padPrivate g s v

/-- Non-vacuity: a three-party run of a program with additions, a public addition and a reduction; the result is the plain one and is
not trivial. -/
example : reveal ([LinOp.addPub 2 0 (fun _ => 5), .sub 3 2 1, .sums 4 3 (fun k => [k, k + 1])].foldl LinOp.stepShared
    (fun q p i => if p = (0 : Fin 3) then (BitVec.ofNat 64 (q + i)) else 7) 4) 0 = 8 := by
  rw [C08_linear_programs_exact]
  decide

end CrypTen

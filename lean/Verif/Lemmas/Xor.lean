import Verif.Model.Ring

/-! XOR sums over parties: `revealX` as a sum in the group `(BitVec 64, ^^^)`. -/

namespace CrypTen

/-- 64-bit words with XOR as addition (proof device only). -/
def XW := BitVec 64

instance : Add XW := ⟨fun a b => BitVec.xor a b⟩
instance : Zero XW := ⟨(0#64 : BitVec 64)⟩
instance : Neg XW := ⟨fun a => a⟩

/-- Regard a word as an element of the XOR group. -/
def toX (a : I64) : XW := a
/-- Back to a word. -/
def ofX (a : XW) : I64 := a

instance : AddCommGroup XW where
  add_assoc a b c := BitVec.xor_assoc (x := a) (y := b) (z := c)
  zero_add a := BitVec.zero_xor (x := a)
  add_zero a := BitVec.xor_zero (x := a)
  neg_add_cancel a := BitVec.xor_self (x := a)
  add_comm a b := BitVec.xor_comm (x := a) (y := b)
  nsmul := nsmulRec
  zsmul := zsmulRec

/-- XOR over all parties. -/
def xsum {n : ℕ} (f : Fin n → I64) : I64 := ofX (∑ p, toX (f p))

theorem xorList_ofFn {n : ℕ} (f : Fin n → I64) : xorList (List.ofFn f) = xsum f := by
  unfold xsum
  induction n with
  | zero => simp [xorList]; rfl
  | succ n ih =>
    rw [List.ofFn_succ, Fin.sum_univ_succ]
    show f 0 ^^^ xorList _ = _
    rw [ih]; rfl

theorem revealX_apply {n : ℕ} {ι : Type} (s : Shares n ι) (i : ι) :
    revealX s i = xsum (fun p => s p i) := xorList_ofFn _

theorem xsum_xor {n : ℕ} (f g : Fin n → I64) :
    xsum (fun p => f p ^^^ g p) = xsum f ^^^ xsum g := by
  unfold xsum
  exact Finset.sum_add_distrib (M := XW) (f := fun p => toX (f p)) (g := fun p => toX (g p))

theorem xsum_zero {n : ℕ} : xsum (fun _ : Fin n => 0#64) = 0#64 := by
  unfold xsum
  exact Finset.sum_const_zero (M := XW)

/-- XOR-linear maps commute with the XOR over parties. -/
theorem xsum_map {n : ℕ} (φ : I64 → I64) (h0 : φ 0#64 = 0#64) (hx : ∀ a b, φ (a ^^^ b) = φ a ^^^ φ b)
    (f : Fin n → I64) : xsum (fun p => φ (f p)) = φ (xsum f) := by
  unfold xsum
  let Φ : XW →+ XW := { toFun := φ, map_zero' := h0, map_add' := hx }
  exact (map_sum Φ (fun p => toX (f p)) Finset.univ).symm

/-- A word contributed by exactly one party. -/
theorem xsum_single {n : ℕ} (q : Fin n) (v : I64) :
    xsum (fun p => if p = q then v else 0#64) = v := by
  unfold xsum
  have := Finset.sum_ite_eq' (M := XW) Finset.univ q (fun _ => toX v)
  simp only [Finset.mem_univ] at this
  have h2 : ∀ p, toX (if p = q then v else 0#64) = if p = q then toX v else 0 := by
    intro p; split <;> rfl
  simp only [h2]
  exact this

/-- Reindexing an XOR by a permutation of the parties. -/
theorem xsum_perm {n : ℕ} (e : Fin n ≃ Fin n) (f : Fin n → I64) :
    xsum (fun p => f (e p)) = xsum f := by
  unfold xsum
  exact congrArg ofX (Equiv.sum_comp e (fun p => toX (f p)))

end CrypTen

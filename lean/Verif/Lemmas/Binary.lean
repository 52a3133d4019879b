import Verif.Model.Binary
import Verif.Lemmas.Xor

/-! `revealX` of the local binary operations. -/

namespace CrypTen
variable {n : ℕ} {ι κ : Type}

theorem revealX_xorShares (s t : Shares n ι) (i : ι) : revealX (xorShares s t) i = revealX s i ^^^ revealX t i := by
  simp only [revealX_apply, xorShares, xsum_xor]

theorem revealX_xorPublic [NeZero n] (s : Shares n ι) (y : Tensor ι) (i : ι) :
    revealX (xorPublic s y) i = revealX s i ^^^ y i := by
  have : ∀ p, xorPublic s y p i = s p i ^^^ (if p = 0 then y i else 0#64) := by
    intro p; simp only [xorPublic]; split <;> simp
  simp only [revealX_apply, this, xsum_xor, xsum_single]

theorem revealX_notShares [NeZero n] (s : Shares n ι) (i : ι) : revealX (notShares s) i = ~~~revealX s i := by
  have h : notShares s = xorPublic s (fun _ => -1#64) := rfl
  rw [h, revealX_xorPublic]
  rw [show (-1#64 : I64) = BitVec.allOnes 64 by decide, BitVec.xor_allOnes]

theorem and_xor_distrib (a b c : I64) : (a ^^^ b) &&& c = (a &&& c) ^^^ (b &&& c) := by
  ext k hk
  simp [BitVec.getElem_and, BitVec.getElem_xor, Bool.and_xor_distrib_right]

theorem revealX_andPublic (s : Shares n ι) (y : Tensor ι) (i : ι) : revealX (andPublic s y) i = revealX s i &&& y i := by
  simp only [revealX_apply, andPublic]
  exact xsum_map (fun a => a &&& y i) (BitVec.zero_and) (fun a b => and_xor_distrib a b (y i)) _

theorem revealX_lshift (s : Shares n ι) (k : ℕ) (i : ι) : revealX (lshiftShares s k) i = revealX s i <<< k := by
  simp only [revealX_apply, lshiftShares]
  exact xsum_map (fun a => a <<< k) (by simp) (fun a b => BitVec.shiftLeft_xor_distrib a b k) _

theorem sshiftRight_xor (a b : I64) (k : ℕ) : (a ^^^ b).sshiftRight k = a.sshiftRight k ^^^ b.sshiftRight k :=
  BitVec.sshiftRight_xor_distrib a b k

theorem revealX_rshift (s : Shares n ι) (k : ℕ) (i : ι) : revealX (rshiftShares s k) i = (revealX s i).sshiftRight k := by
  simp only [revealX_apply, rshiftShares]
  exact xsum_map (fun a => a.sshiftRight k) (by simp) (fun a b => sshiftRight_xor a b k) _

theorem revealX_map (φ : I64 → I64) (h0 : φ 0#64 = 0#64) (hx : ∀ a b, φ (a ^^^ b) = φ a ^^^ φ b) (s : Shares n ι) (i : ι) :
    revealX (fun p j => φ (s p j)) i = φ (revealX s i) := by
  simp only [revealX_apply]
  exact xsum_map φ h0 hx _

theorem revealX_reindex (g : κ → ι) (s : Shares n ι) (k : κ) : revealX (fun p j => s p (g j)) k = revealX s (g k) := by
  simp only [revealX_apply]

end CrypTen

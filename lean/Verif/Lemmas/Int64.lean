import Verif.Model.Ring
import Mathlib.Tactic.Ring
import Mathlib.Tactic.Linarith

/-! Conversions between `BitVec 64` and the integers in `[-2^63, 2^63)`. -/

namespace CrypTen

theorem toInt_ofInt64 {z : ℤ} (h1 : -2 ^ 63 ≤ z) (h2 : z < 2 ^ 63) : (BitVec.ofInt 64 z).toInt = z := by
  rw [BitVec.toInt_ofInt]
  norm_num at h1 h2
  unfold Int.bmod
  norm_num
  omega

theorem toInt_ge (a : I64) : -2 ^ 63 ≤ a.toInt := by
  have := BitVec.le_toInt a; simpa using this

theorem toInt_lt (a : I64) : a.toInt < 2 ^ 63 := by
  have := BitVec.toInt_lt (x := a); simpa using this

theorem ofInt_toInt (a : I64) : BitVec.ofInt 64 a.toInt = a := BitVec.ofInt_toInt

/-- `toInt` of a ring operation agrees with the integer operation as soon as that is in range. -/
theorem toInt_add_of_range {a b : I64} (h1 : -2 ^ 63 ≤ a.toInt + b.toInt) (h2 : a.toInt + b.toInt < 2 ^ 63) :
    (a + b).toInt = a.toInt + b.toInt := by
  rw [BitVec.toInt_add]; norm_num at h1 h2; unfold Int.bmod; norm_num; omega

theorem toInt_sub_of_range {a b : I64} (h1 : -2 ^ 63 ≤ a.toInt - b.toInt) (h2 : a.toInt - b.toInt < 2 ^ 63) :
    (a - b).toInt = a.toInt - b.toInt := by
  rw [BitVec.toInt_sub]; norm_num at h1 h2; unfold Int.bmod; norm_num; omega

theorem toInt_mul_of_range {a b : I64} (h1 : -2 ^ 63 ≤ a.toInt * b.toInt) (h2 : a.toInt * b.toInt < 2 ^ 63) :
    (a * b).toInt = a.toInt * b.toInt := by
  rw [BitVec.toInt_mul]
  generalize a.toInt * b.toInt = z at *
  norm_num at h1 h2; unfold Int.bmod; norm_num; omega

theorem ofInt_add64 (a b : ℤ) : BitVec.ofInt 64 (a + b) = BitVec.ofInt 64 a + BitVec.ofInt 64 b := BitVec.ofInt_add ..

theorem ofInt_mul64 (a b : ℤ) : BitVec.ofInt 64 (a * b) = BitVec.ofInt 64 a * BitVec.ofInt 64 b := BitVec.ofInt_mul ..

theorem ofInt_eq_intCast (z : ℤ) : BitVec.ofInt 64 z = (z : I64) := rfl

theorem ofInt_eq_iff {a b : ℤ} : BitVec.ofInt 64 a = BitVec.ofInt 64 b ↔ (2 ^ 64 : ℤ) ∣ a - b := by
  constructor
  · intro h
    have := congrArg BitVec.toInt h
    rw [BitVec.toInt_ofInt, BitVec.toInt_ofInt] at this
    unfold Int.bmod at this
    norm_num at this ⊢
    omega
  · rintro ⟨k, hk⟩
    apply BitVec.eq_of_toInt_eq
    rw [BitVec.toInt_ofInt, BitVec.toInt_ofInt]
    unfold Int.bmod
    norm_num at hk ⊢
    omega

theorem toInt_eq_sub_iff (a : I64) (z : ℤ) : a = BitVec.ofInt 64 z ↔ (2 ^ 64 : ℤ) ∣ a.toInt - z := by
  rw [← ofInt_eq_iff, ofInt_toInt]

end CrypTen

import Verif.Model.Circuit
import Mathlib.Data.Nat.Bitwise
import Mathlib.Tactic.Ring
import Mathlib.Tactic.IntervalCases
import Mathlib.Algebra.BigOperators.Ring.Finset

/-! The set/propagate tree on plain words. -/

namespace CrypTen

/-- Bits of a number written with digits `d k < 2^B`. -/
theorem testBit_digits (B : ℕ) (d : ℕ → ℕ) (hd : ∀ k, d k < 2 ^ B) (m : ℕ) :
    (∑ k ∈ Finset.range m, d k * 2 ^ (B * k)) < 2 ^ (B * m) ∧
    ∀ j, j < B * m → (∑ k ∈ Finset.range m, d k * 2 ^ (B * k)).testBit j = (d (j / B)).testBit (j % B) := by
  induction m with
  | zero => simp
  | succ m ih =>
    obtain ⟨h1, h2⟩ := ih
    rw [Finset.sum_range_succ]
    have e : (∑ k ∈ Finset.range m, d k * 2 ^ (B * k)) + d m * 2 ^ (B * m) = 2 ^ (B * m) * d m + ∑ k ∈ Finset.range m, d k * 2 ^ (B * k) := by ring
    rw [e]
    constructor
    · have : d m + 1 ≤ 2 ^ B := hd m
      calc 2 ^ (B * m) * d m + ∑ k ∈ Finset.range m, d k * 2 ^ (B * k) < 2 ^ (B * m) * d m + 2 ^ (B * m) := by omega
        _ = 2 ^ (B * m) * (d m + 1) := by ring
        _ ≤ 2 ^ (B * m) * 2 ^ B := Nat.mul_le_mul_left _ this
        _ = 2 ^ (B * (m + 1)) := by rw [← pow_add]; congr 1
    · intro j hj
      rw [Nat.testBit_two_pow_mul_add _ h1]
      split
      · next h => exact h2 j h
      · next h =>
        have hB : 0 < B := by
          rcases Nat.eq_zero_or_pos B with h0 | h0
          · subst h0; simp at hj
          · exact h0
        have hj' : j < B * m + B := by rw [Nat.mul_add, Nat.mul_one] at hj; exact hj
        have hq : j / B = m := by
          apply Nat.div_eq_of_lt_le
          · rw [mul_comm]; omega
          · rw [Nat.add_mul, Nat.one_mul, mul_comm m]; exact hj'
        have hr : j % B = j - B * m := by
          have := Nat.div_add_mod j B; rw [hq] at this; omega
        rw [hq, hr]

/-- Position of the source bit of the arrows ending at `j` in stage `i`. -/
def spkSrc (i j : ℕ) : ℕ := j / 2 ^ (i + 1) * 2 ^ (i + 1) + 2 ^ i - 1

theorem spkMask_bits : ∀ i < 6, ∀ j < 64, (spkMask i).getLsbD j = decide (j % 2 ^ (i + 1) = 2 ^ i - 1) := by decide +kernel

theorem spkMult_toNat : ∀ i < 6, (spkMult i).toNat = 2 * (2 ^ 2 ^ i - 1) := by decide +kernel

theorem blocks_eq : ∀ i < 6, 2 ^ (i + 1) * 2 ^ (5 - i) = 64 := by decide +kernel

theorem testBit_two_pow_mul_pred (h r : ℕ) (hr : r < 2 * h) : (2 ^ h * (2 ^ h - 1)).testBit r = decide (h ≤ r) := by
  rw [mul_comm, Nat.testBit_mul_two_pow, Nat.testBit_two_pow_sub_one]
  by_cases h1 : h ≤ r
  · simp [h1]; omega
  · simp [h1]

/-- Masking and multiplying copies the source bit of each block to the upper half of the block. -/
theorem fanout_bits (i : ℕ) (hi : i < 6) (x : I64) (j : ℕ) (hj : j < 64) :
    ((x &&& spkMask i) * spkMult i).getLsbD j = (decide (2 ^ i ≤ j % 2 ^ (i + 1)) && x.getLsbD (spkSrc i j)) := by
  set h := 2 ^ i with hh
  have hpos : 0 < h := by positivity
  have hB : 2 ^ (i + 1) = 2 * h := by rw [hh, pow_succ]; ring
  have hblk := blocks_eq i hi
  set m := 2 ^ (5 - i) with hm
  rw [hB] at hblk
  set bit : ℕ → ℕ := fun k => if x.getLsbD (k * (2 * h) + h - 1) then 1 else 0 with hbit
  have hbit1 : ∀ k, bit k ≤ 1 := by intro k; simp only [hbit]; split <;> omega
  have hpowh : 2 ^ (2 * h) = 2 ^ h * 2 ^ h := by rw [two_mul, pow_add]
  have h2h : 2 ≤ 2 ^ h := by
    calc 2 = 2 ^ 1 := rfl
      _ ≤ 2 ^ h := Nat.pow_le_pow_right (by norm_num) hpos
  have hpm : 2 ^ h = 2 * 2 ^ (h - 1) := by
    conv_lhs => rw [show h = (h - 1) + 1 by omega, pow_succ]
    ring
  -- the masked word in digits
  have hd1 : ∀ k, bit k * 2 ^ (h - 1) < 2 ^ (2 * h) := by
    intro k
    have := hbit1 k
    calc bit k * 2 ^ (h - 1) ≤ 1 * 2 ^ (h - 1) := Nat.mul_le_mul_right _ this
      _ < 2 ^ (2 * h) := by rw [one_mul]; exact Nat.pow_lt_pow_right (by norm_num) (by omega)
  obtain ⟨hlt1, hbits1⟩ := testBit_digits (2 * h) (fun k => bit k * 2 ^ (h - 1)) hd1 m
  rw [hblk] at hlt1 hbits1
  have hmask : (x &&& spkMask i).toNat = ∑ k ∈ Finset.range m, bit k * 2 ^ (h - 1) * 2 ^ (2 * h * k) := by
    apply Nat.eq_of_testBit_eq
    intro t
    by_cases ht : t < 64
    · rw [hbits1 t ht, ← BitVec.getLsbD, BitVec.getLsbD_and, spkMask_bits i hi t ht, hB, ← hh, Nat.testBit_mul_two_pow]
      by_cases hc : t % (2 * h) = h - 1
      · have ht' : t / (2 * h) * (2 * h) + h - 1 = t := by
          have := Nat.div_add_mod t (2 * h); rw [mul_comm] at this; omega
        rw [hc]
        simp only [hbit, ht', decide_true, Bool.and_true, le_refl, Nat.sub_self, Bool.true_and]
        cases x.getLsbD t <;> rfl
      · simp only [hc, decide_false, Bool.and_false]
        symm
        rw [Bool.and_eq_false_iff]
        by_cases hle : h - 1 ≤ t % (2 * h)
        · right
          have : t % (2 * h) - (h - 1) ≠ 0 := by omega
          obtain ⟨q, hq⟩ := Nat.exists_eq_succ_of_ne_zero this
          rw [hq, Nat.testBit_succ]
          have : bit (t / (2 * h)) / 2 = 0 := by have := hbit1 (t / (2 * h)); omega
          rw [this, Nat.zero_testBit]
        · left; simp [hle]
    · rw [Nat.testBit_lt_two_pow (lt_of_lt_of_le (BitVec.isLt _) (Nat.pow_le_pow_right (by norm_num) (by omega))),
        Nat.testBit_lt_two_pow (lt_of_lt_of_le hlt1 (Nat.pow_le_pow_right (by norm_num) (by omega)))]
  -- the product in digits
  have hd2 : ∀ k, bit k * (2 ^ h * (2 ^ h - 1)) < 2 ^ (2 * h) := by
    intro k
    have := hbit1 k
    calc bit k * (2 ^ h * (2 ^ h - 1)) ≤ 1 * (2 ^ h * (2 ^ h - 1)) := Nat.mul_le_mul_right _ this
      _ = 2 ^ h * (2 ^ h - 1) := one_mul _
      _ < 2 ^ h * 2 ^ h := Nat.mul_lt_mul_of_pos_left (by omega) (by positivity)
      _ = 2 ^ (2 * h) := hpowh.symm
  obtain ⟨hlt2, hbits2⟩ := testBit_digits (2 * h) (fun k => bit k * (2 ^ h * (2 ^ h - 1))) hd2 m
  rw [hblk] at hlt2 hbits2
  have hprod : ((x &&& spkMask i) * spkMult i).toNat = ∑ k ∈ Finset.range m, bit k * (2 ^ h * (2 ^ h - 1)) * 2 ^ (2 * h * k) := by
    rw [BitVec.toNat_mul, spkMult_toNat i hi, hmask, Finset.sum_mul]
    have : ∀ k ∈ Finset.range m, bit k * 2 ^ (h - 1) * 2 ^ (2 * h * k) * (2 * (2 ^ h - 1)) = bit k * (2 ^ h * (2 ^ h - 1)) * 2 ^ (2 * h * k) := by
      intro k _
      conv_rhs => rw [hpm]
      conv_lhs => rw [hpm]
      ring
    rw [Finset.sum_congr rfl this]
    exact Nat.mod_eq_of_lt hlt2
  rw [BitVec.getLsbD, hprod, hbits2 j hj, spkSrc, hB, ← hh]
  simp only [hbit]
  have hjr : j % (2 * h) < 2 * h := Nat.mod_lt _ (by omega)
  by_cases hx : x.getLsbD (j / (2 * h) * (2 * h) + h - 1)
  · rw [if_pos hx, hx, one_mul, testBit_two_pow_mul_pred h _ hjr, Bool.and_true]
  · rw [if_neg hx, zero_mul, Nat.zero_testBit]
    simp only [Bool.not_eq_true] at hx
    rw [hx, Bool.and_false]

theorem outMask_bits (i : ℕ) (hi : i < 6) (j : ℕ) (hj : j < 64) : (spkOutMask i).getLsbD j = decide (2 ^ i ≤ j % 2 ^ (i + 1)) := by
  have h := fanout_bits i hi (BitVec.allOnes 64) j hj
  rw [BitVec.allOnes_and] at h
  rw [spkOutMask, h, BitVec.getLsbD_allOnes]
  by_cases hc : 2 ^ i ≤ j % 2 ^ (i + 1)
  · have : spkSrc i j < 64 := by
      have h1 := Nat.div_add_mod j (2 ^ (i + 1)); rw [mul_comm] at h1
      unfold spkSrc; omega
    simp [this]
  · simp [hc]

/-- The local masking and fanning out respects XOR, so it can be done on shares. -/
theorem fanout_xor (i : ℕ) (hi : i < 6) (a b : I64) :
    ((a ^^^ b) &&& spkMask i) * spkMult i = ((a &&& spkMask i) * spkMult i) ^^^ ((b &&& spkMask i) * spkMult i) := by
  apply BitVec.eq_of_getLsbD_eq
  intro j hj
  rw [BitVec.getLsbD_xor, fanout_bits i hi _ j hj, fanout_bits i hi _ j hj, fanout_bits i hi _ j hj, BitVec.getLsbD_xor]
  cases decide (2 ^ i ≤ j % 2 ^ (i + 1)) <;> simp

/-- One stage on plain words. -/
def plainStage (i : ℕ) (SP : I64 × I64) : I64 × I64 :=
  let P0 := SP.2 &&& spkOutMask i
  (SP.1 ^^^ (P0 &&& ((SP.1 &&& spkMask i) * spkMult i)),
    (SP.2 &&& (spkOutMask i ^^^ (-1))) ^^^ (P0 &&& ((SP.2 &&& spkMask i) * spkMult i)))

/-- `m` stages from stage `i`. -/
def plainLoop : (m i : ℕ) → I64 × I64 → I64 × I64
  | 0, _, SP => SP
  | m + 1, i, SP => plainLoop m (i + 1) (plainStage i SP)

/-- Bit `lo + l` of the scan that starts at bit `lo`: set there, or propagated from the scan below. -/
def scan (s p : ℕ → Bool) (lo : ℕ) : ℕ → Bool
  | 0 => s lo
  | l + 1 => s (lo + l + 1) ^^ (p (lo + l + 1) && scan s p lo l)

/-- All of `lo .. lo + l` propagate. -/
def allProp (p : ℕ → Bool) (lo : ℕ) : ℕ → Bool
  | 0 => p lo
  | l + 1 => p (lo + l + 1) && allProp p lo l

theorem scan_append (s p : ℕ → Bool) (lo a : ℕ) : ∀ b,
    scan s p lo (a + 1 + b) = (scan s p (lo + a + 1) b ^^ (allProp p (lo + a + 1) b && scan s p lo a)) ∧
    allProp p lo (a + 1 + b) = (allProp p (lo + a + 1) b && allProp p lo a) := by
  intro b
  induction b with
  | zero => exact ⟨rfl, rfl⟩
  | succ b ih =>
    obtain ⟨h1, h2⟩ := ih
    have e : lo + (a + 1 + b) + 1 = lo + a + 1 + b + 1 := by omega
    constructor
    · show (s (lo + (a + 1 + b) + 1) ^^ (p (lo + (a + 1 + b) + 1) && scan s p lo (a + 1 + b))) = _
      rw [h1, e]
      show _ = ((s (lo + a + 1 + b + 1) ^^ (p (lo + a + 1 + b + 1) && scan s p (lo + a + 1) b)) ^^ ((p (lo + a + 1 + b + 1) && allProp p (lo + a + 1) b) && scan s p lo a))
      cases s (lo + a + 1 + b + 1) <;> cases p (lo + a + 1 + b + 1) <;> cases scan s p (lo + a + 1) b <;> cases allProp p (lo + a + 1) b <;>
        cases scan s p lo a <;> rfl
    · show (p (lo + (a + 1 + b) + 1) && allProp p lo (a + 1 + b)) = _
      rw [h2, e]
      show _ = ((p (lo + a + 1 + b + 1) && allProp p (lo + a + 1) b) && allProp p lo a)
      rw [Bool.and_assoc]

/-- After `i` stages bit `j` holds the scan of its block of length `2^i`. -/
def StageInv (s p : ℕ → Bool) (i : ℕ) (SP : I64 × I64) : Prop :=
  ∀ j < 64, SP.1.getLsbD j = scan s p (j / 2 ^ i * 2 ^ i) (j % 2 ^ i) ∧ SP.2.getLsbD j = allProp p (j / 2 ^ i * 2 ^ i) (j % 2 ^ i)

theorem stageInv_zero (S P : I64) : StageInv S.getLsbD P.getLsbD 0 (S, P) := by
  intro j hj
  simp [Nat.mod_one, scan, allProp]

theorem stageInv_step (s p : ℕ → Bool) (i : ℕ) (hi : i < 6) (SP : I64 × I64) (h : StageInv s p i SP) : StageInv s p (i + 1) (plainStage i SP) := by
  intro j hj
  obtain ⟨hS, hP⟩ := h j hj
  have hneg : (-1 : I64).getLsbD j = true := by
    have : (-1 : I64) = BitVec.allOnes 64 := by decide
    rw [this, BitVec.getLsbD_allOnes]; simp [hj]
  simp only [plainStage, BitVec.getLsbD_xor, BitVec.getLsbD_and]
  simp only [fanout_bits i hi _ j hj, outMask_bits i hi j hj, hneg, hS, hP]
  set q := 2 ^ i with hq
  have hqpos : 0 < q := by positivity
  have hB : 2 ^ (i + 1) = 2 * q := by rw [hq, pow_succ]; ring
  have h1 := Nat.div_add_mod j (2 * q)
  have hr := Nat.mod_lt j (show 0 < 2 * q by omega)
  rw [hB]
  by_cases hc : q ≤ j % (2 * q)
  · set b := j / (2 * q) with hb
    set r := j % (2 * q) with hrdef
    have hsrc : spkSrc i j = 2 * q * b + (q - 1) := by
      unfold spkSrc; rw [hB, ← hq, ← hb, mul_comm b]; omega
    have hsrc64 : spkSrc i j < 64 := by rw [hsrc]; omega
    obtain ⟨hS1, hP1⟩ := h _ hsrc64
    rw [← hq, hsrc] at hS1 hP1
    have e1 : (2 * q * b + (q - 1)) / q = 2 * b := by
      apply Nat.div_eq_of_lt_le
      · nlinarith
      · have : (2 * b + 1) * q = 2 * q * b + q := by ring
        omega
    have e2 : (2 * q * b + (q - 1)) % q = q - 1 := by
      have := Nat.div_add_mod (2 * q * b + (q - 1)) q
      rw [e1] at this
      have : q * (2 * b) = 2 * q * b := by ring
      omega
    have e3 : j / q = 2 * b + 1 := by
      apply Nat.div_eq_of_lt_le
      · have : (2 * b + 1) * q = 2 * q * b + q := by ring
        omega
      · have : (2 * b + 1 + 1) * q = 2 * q * b + 2 * q := by ring
        omega
    have e4 : j % q = r - q := by
      have := Nat.div_add_mod j q
      rw [e3] at this
      have : q * (2 * b + 1) = 2 * q * b + q := by ring
      omega
    rw [hsrc, hS1, hP1, e1, e2, e3, e4]
    obtain ⟨A1, A2⟩ := scan_append s p (2 * b * q) (q - 1) (r - q)
    have e5 : q - 1 + 1 + (r - q) = r := by omega
    have e6 : 2 * b * q + (q - 1) + 1 = (2 * b + 1) * q := by
      have : (2 * b + 1) * q = 2 * b * q + q := by ring
      omega
    rw [e5, e6] at A1 A2
    have e7 : b * (2 * q) = 2 * b * q := by ring
    rw [e7, A1, A2]
    simp only [hc, decide_true, Bool.and_true, Bool.true_and, Bool.true_xor, Bool.not_true, Bool.and_false, Bool.false_xor]
    simp
  · have hlt : j % (2 * q) < q := by omega
    have e3 : j / q = 2 * (j / (2 * q)) := by
      apply Nat.div_eq_of_lt_le
      · have : 2 * (j / (2 * q)) * q = 2 * q * (j / (2 * q)) := by ring
        omega
      · have : (2 * (j / (2 * q)) + 1) * q = 2 * q * (j / (2 * q)) + q := by ring
        omega
    have e4 : j % q = j % (2 * q) := by
      have := Nat.div_add_mod j q
      rw [e3] at this
      have : q * (2 * (j / (2 * q))) = 2 * q * (j / (2 * q)) := by ring
      omega
    rw [e3, e4, show j / (2 * q) * (2 * q) = 2 * (j / (2 * q)) * q by ring]
    simp [hc]

theorem stageInv_loop (s p : ℕ → Bool) : ∀ (m i : ℕ) (SP : I64 × I64), i + m ≤ 6 → StageInv s p i SP → StageInv s p (i + m) (plainLoop m i SP) := by
  intro m
  induction m with
  | zero => intro i SP _ h; exact h
  | succ m ih =>
    intro i SP hle h
    have := ih (i + 1) (plainStage i SP) (by omega) (stageInv_step s p i (by omega) SP h)
    rw [show i + (m + 1) = i + 1 + m by omega]
    exact this

/-- The six stages compute, at every bit, the scan from bit 0. -/
theorem plainLoop_spec (S P : I64) (j : ℕ) (hj : j < 64) :
    (plainLoop 6 0 (S, P)).1.getLsbD j = scan S.getLsbD P.getLsbD 0 j ∧ (plainLoop 6 0 (S, P)).2.getLsbD j = allProp P.getLsbD 0 j := by
  have h := stageInv_loop S.getLsbD P.getLsbD 6 0 (S, P) le_rfl (stageInv_zero S P) j hj
  have e1 : j / 2 ^ (0 + 6) = 0 := Nat.div_eq_of_lt (by norm_num; exact hj)
  have e2 : j % 2 ^ (0 + 6) = j := Nat.mod_eq_of_lt (by norm_num; exact hj)
  rw [e1, e2] at h
  simpa using h

end CrypTen

import Verif.Model.OT
import Mathlib.NumberTheory.LucasPrimality
import Mathlib.Tactic.NormNum.Prime
import Mathlib.Tactic.NormNum.DivMod

/-! The modulus of `BaseOT` is a prime and 3 a primitive root: a certificate checked by the kernel. -/

namespace CrypTen.OT

/-- Binary exponentiation, as a function the kernel evaluates quickly. -/
def powMod (b m : ℕ) : ℕ → ℕ → ℕ
  | 0, _ => 1 % m
  | f + 1, e => if e = 0 then 1 % m else
    let r := powMod b m f (e / 2)
    if e % 2 = 0 then r * r % m else r * r % m * b % m

theorem powMod_eq (b m f e : ℕ) (h : e < 2 ^ f) : powMod b m f e = b ^ e % m := by
  induction f generalizing e with
  | zero => obtain rfl : e = 0 := by simpa using h
            rfl
  | succ f ih =>
    unfold powMod
    by_cases h0 : e = 0
    · subst h0; rfl
    · rw [if_neg h0]
      dsimp only
      rw [ih (e / 2) (by rw [pow_succ] at h; omega), ← Nat.mul_mod, ← pow_add]
      by_cases h1 : e % 2 = 0
      · rw [if_pos h1, show e / 2 + e / 2 = e by omega]
      · rw [if_neg h1, Nat.mod_mul_mod, ← pow_succ, show e / 2 + e / 2 + 1 = e by omega]

theorem zmod_pow_eq_one_iff {p : ℕ} (hp : 1 < p) (b e f : ℕ) (h : e < 2 ^ f) : ((b : ZMod p) ^ e = 1) ↔ powMod b p f e = 1 := by
  rw [powMod_eq b p f e h, ← Nat.cast_pow, show (1 : ZMod p) = ((1 : ℕ) : ZMod p) by simp, ZMod.natCast_eq_natCast_iff, Nat.ModEq, Nat.mod_eq_of_lt hp]

/-- Pratt certificates. -/
theorem prime_of_cert {p : ℕ} (b f : ℕ) (fs : List ℕ) (hp : 1 < p) (hf : p - 1 < 2 ^ f) (hprime : ∀ q ∈ fs, q.Prime) (hprod : p - 1 = fs.prod)
    (h1 : powMod b p f (p - 1) = 1) (h2 : ∀ q ∈ fs, powMod b p f ((p - 1) / q) ≠ 1) : p.Prime := by
  refine lucas_primality p (b : ZMod p) ((zmod_pow_eq_one_iff hp b _ f hf).2 h1) fun q hq hdvd => ?_
  rw [hprod] at hdvd
  obtain ⟨r, hr, hqr⟩ := (Prime.dvd_prod_iff hq.prime).1 hdvd
  obtain rfl : q = r := (Nat.prime_dvd_prime_iff_eq hq (hprime r hr)).1 hqr
  exact fun e => h2 q hr ((zmod_pow_eq_one_iff hp b _ f (lt_of_le_of_lt (Nat.div_le_self _ _) hf)).1 e)

theorem p1 : Nat.Prime 337698923 := by
  refine prime_of_cert 2 40 [2, 11, 15349951] (by norm_num) (by norm_num) ?_ (by norm_num) (by decide +kernel) (by decide +kernel)
  simp only [List.mem_cons, List.not_mem_nil, or_false, forall_eq_or_imp, forall_eq]
  refine ⟨by norm_num, by norm_num, by norm_num⟩

theorem p2 : Nat.Prime 59435010449 := by
  refine prime_of_cert 7 40 [2, 2, 2, 2, 11, 337698923] (by norm_num) (by norm_num) ?_ (by norm_num) (by decide +kernel) (by decide +kernel)
  simp only [List.mem_cons, List.not_mem_nil, or_false, forall_eq_or_imp, forall_eq]
  refine ⟨by norm_num, by norm_num, by norm_num, by norm_num, by norm_num, p1⟩

theorem p3 : Nat.Prime 773562405661 := by
  refine prime_of_cert 2 40 [2, 2, 3, 5, 11, 2857, 410243] (by norm_num) (by norm_num) ?_ (by norm_num) (by decide +kernel) (by decide +kernel)
  simp only [List.mem_cons, List.not_mem_nil, or_false, forall_eq_or_imp, forall_eq]
  refine ⟨by norm_num, by norm_num, by norm_num, by norm_num, by norm_num, by norm_num, by norm_num⟩

/-- The prime factors of the group order. -/
def orderFactors : List ℕ := [2, 2, 2, 2, 2, 7, 53, 167, 14159, 489113, 59435010449, 773562405661]

theorem orderFactors_prime : ∀ q ∈ orderFactors, q.Prime := by
  simp only [orderFactors, List.mem_cons, List.not_mem_nil, or_false, forall_eq_or_imp, forall_eq]
  refine ⟨by norm_num, by norm_num, by norm_num, by norm_num, by norm_num, by norm_num, by norm_num, by norm_num, by norm_num, by norm_num, p2, p3⟩

theorem order_eq : prime - 1 = orderFactors.prod := by decide +kernel

theorem prime_prime : Nat.Prime prime :=
  prime_of_cert 3 130 orderFactors (by decide) (by decide +kernel) orderFactors_prime order_eq (by decide +kernel) (by decide +kernel)

instance : Fact (Nat.Prime prime) := ⟨prime_prime⟩

theorem gen_pow_eq_one_iff (e : ℕ) : ((3 : ZMod prime) ^ e = 1) ↔ prime - 1 ∣ e := by
  have ho : orderOf (3 : ZMod prime) = prime - 1 := by
    refine orderOf_eq_of_pow_and_pow_div_prime (by decide) ?_ fun q hq hdvd => ?_
    · exact_mod_cast (zmod_pow_eq_one_iff (by decide : 1 < prime) 3 (prime - 1) 130 (by decide +kernel)).2 (by decide +kernel)
    · rw [order_eq] at hdvd
      obtain ⟨r, hr, hqr⟩ := (Prime.dvd_prod_iff hq.prime).1 hdvd
      obtain rfl : q = r := (Nat.prime_dvd_prime_iff_eq hq (orderFactors_prime r hr)).1 hqr
      intro e
      have h2 : ∀ q ∈ orderFactors, powMod 3 prime 130 ((prime - 1) / q) ≠ 1 := by decide +kernel
      exact h2 q hr ((zmod_pow_eq_one_iff (by decide : 1 < prime) 3 _ 130 (lt_of_le_of_lt (Nat.div_le_self _ _) (by decide +kernel))).1 (by exact_mod_cast e))
  rw [← ho]; exact orderOf_dvd_iff_pow_eq_one.symm

end CrypTen.OT

import Verif.Spec.OT
import Verif.Lemmas.Prime
import Mathlib.Tactic.FieldSimp
import Mathlib.Tactic.IntervalCases
import Mathlib.FieldTheory.Finite.Basic

/-! # C49: oblivious transfer -/

namespace CrypTen.OT

theorem nat_of_zmod {a b : ℕ} (ha : a < prime) (hb : b < prime) (h : (a : ZMod prime) = b) : a = b := by
  rw [ZMod.natCast_eq_natCast_iff, Nat.ModEq, Nat.mod_eq_of_lt ha, Nat.mod_eq_of_lt hb] at h; exact h

theorem prime_pos : 0 < prime := by decide

theorem powp_lt (b e : ℕ) : powp b e < prime := Nat.mod_lt _ prime_pos

theorem cast_powp (b e : ℕ) : ((powp b e : ℕ) : ZMod prime) = (b : ZMod prime) ^ e := by
  unfold powp; rw [ZMod.natCast_mod, Nat.cast_pow]

theorem cast_gen : ((generator : ℕ) : ZMod prime) = 3 := by unfold generator; norm_num

theorem gen_ne_zero : (3 : ZMod prime) ≠ 0 := by
  intro h
  have := (gen_pow_eq_one_iff (prime - 1)).2 (dvd_refl _)
  rw [h, zero_pow (by decide)] at this
  exact zero_ne_one this

theorem cast_inv : ((inverseGenerator : ℕ) : ZMod prime) = (3 : ZMod prime)⁻¹ := by
  unfold inverseGenerator
  rw [cast_powp, cast_gen]
  refine eq_inv_of_mul_eq_one_left ?_
  rw [← pow_succ]
  exact (gen_pow_eq_one_iff _).2 (dvd_refl _)

theorem cast_senderMask (a : ℕ) : ((senderMask a : ℕ) : ZMod prime) = 3 ^ a := by unfold senderMask; rw [cast_powp, cast_gen]

theorem cast_receiverMask (b : ℕ) (c : Bool) (a : ℕ) : ((receiverMask b c (senderMask a) : ℕ) : ZMod prime) = 3 ^ (b + if c then a else 0) := by
  unfold receiverMask
  cases c
  · simp [cast_powp, cast_gen]
  · simp only [if_true]
    rw [ZMod.natCast_mod, Nat.cast_mul, cast_powp, cast_gen, cast_senderMask, pow_add]

theorem receiverMask_lt (b : ℕ) (c : Bool) (m : ℕ) : receiverMask b c m < prime := by
  unfold receiverMask; cases c
  · exact powp_lt _ _
  · exact Nat.mod_lt _ prime_pos

theorem cast_divider (a : ℕ) : ((powp inverseGenerator (a * a % (prime - 1)) : ℕ) : ZMod prime) = ((3 : ZMod prime) ^ (a * a))⁻¹ := by
  rw [cast_powp, cast_inv, inv_pow]
  congr 1
  conv_rhs => rw [← Nat.div_add_mod (a * a) (prime - 1), pow_add, pow_mul, (gen_pow_eq_one_iff (prime - 1)).2 (dvd_refl _), one_pow, one_mul]

theorem cast_pads (a m : ℕ) : (((padElements a m).1 : ℕ) : ZMod prime) = (m : ZMod prime) ^ a ∧ (((padElements a m).2 : ℕ) : ZMod prime) = (m : ZMod prime) ^ a * ((3 : ZMod prime) ^ (a * a))⁻¹ := by
  unfold padElements
  refine ⟨cast_powp _ _, ?_⟩
  dsimp only
  rw [ZMod.natCast_mod, Nat.cast_mul, cast_powp, cast_divider]

theorem pads_lt (a m : ℕ) : (padElements a m).1 < prime ∧ (padElements a m).2 < prime := ⟨powp_lt _ _, Nat.mod_lt _ prime_pos⟩

/-- The receiver's key element is the pad element of the chosen message. -/
theorem key_eq (a b : ℕ) (c : Bool) : keyElement b (senderMask a) = if c then (padElements a (receiverMask b c (senderMask a))).2 else (padElements a (receiverMask b c (senderMask a))).1 := by
  have hk : ((keyElement b (senderMask a) : ℕ) : ZMod prime) = 3 ^ (a * b) := by unfold keyElement; rw [cast_powp, cast_senderMask, ← pow_mul]
  obtain ⟨h1, h2⟩ := cast_pads a (receiverMask b c (senderMask a))
  rw [cast_receiverMask] at h1 h2
  cases c
  · simp only [Bool.false_eq_true, if_false] at h1 ⊢
    refine nat_of_zmod (powp_lt _ _) (pads_lt _ _).1 ?_
    rw [hk, h1, add_zero, ← pow_mul, Nat.mul_comm]
  · simp only [if_true] at h2 ⊢
    refine nat_of_zmod (powp_lt _ _) (pads_lt _ _).2 ?_
    rw [hk, h2, ← pow_mul]
    have := pow_ne_zero (a * a) gen_ne_zero
    rw [show (b + a) * a = a * b + a * a by ring, pow_add, mul_assoc, mul_inv_cancel₀ this, mul_one]

theorem xor_xor : ∀ (k m : List ℕ), m.length ≤ k.length → stringXor k (stringXor k m) = m
  | _, [], _ => by simp [stringXor]
  | [], _ :: _, h => by simp at h
  | a :: k, b :: m, h => by
    have := xor_xor k m (by simpa using h)
    unfold stringXor at this ⊢
    simp only [List.zipWith_cons_cons, this, ← Nat.xor_assoc, Nat.xor_self, Nat.zero_xor]

theorem transferOne_eq (hash : ℕ → List ℕ) (hlen : ∀ x, (hash x).length = 64) (t : Transfer) (ht : t.Short) : transferOne hash t = some t.chosen := by
  have hk := key_eq t.alpha t.beta t.choice
  unfold transferOne encryptPair decryptPair Transfer.chosen
  dsimp only
  rw [hlen, hlen, if_neg (by have := ht.1; omega), if_neg (by have := ht.2; omega)]
  cases hc : t.choice
  · rw [hc] at hk
    simp only [Bool.false_eq_true, if_false] at hk
    simp only [Option.pure_def, Option.bind_eq_bind, Option.bind_some, Bool.false_eq_true, if_false]
    rw [hk, xor_xor _ _ (by rw [hlen]; exact ht.1)]
  · rw [hc] at hk
    simp only [if_true] at hk
    simp only [Option.pure_def, Option.bind_eq_bind, Option.bind_some, if_true]
    rw [hk, xor_xor _ _ (by rw [hlen]; exact ht.2)]

theorem transferOne_long (hash : ℕ → List ℕ) (hlen : ∀ x, (hash x).length = 64) (t : Transfer) (ht : ¬t.Short) : transferOne hash t = none := by
  unfold transferOne encryptPair
  dsimp only
  rw [hlen, hlen]
  by_cases h0 : 64 < t.m0.length
  · rw [if_pos h0]; rfl
  · rw [if_neg h0, if_pos (by unfold Transfer.Short at ht; omega)]; rfl

/-- **C49 (delivery)**: for every list of messages of at most 64 characters, every choices, every exponents the parties may draw and every hash with 64 characters, the receiver obtains exactly the chosen messages. -/
theorem C49_delivers (hash : ℕ → List ℕ) (hlen : ∀ x, (hash x).length = 64) (ts : List Transfer) (hs : ∀ t ∈ ts, t.Short) : transfer hash ts = some (ts.map Transfer.chosen) := by
  unfold transfer
  induction ts with
  | nil => rfl
  | cons t ts ih =>
    rw [List.mapM_cons, transferOne_eq hash hlen t (hs t (by simp)), ih fun u hu => hs u (by simp [hu])]; rfl

/-- **C49 (accepted messages)**: the sender raises if and only if some message is longer than 64 characters; no message is truncated. -/
theorem C49_raises_iff (hash : ℕ → List ℕ) (hlen : ∀ x, (hash x).length = 64) (ts : List Transfer) : transfer hash ts = none ↔ ∃ t ∈ ts, ¬t.Short := by
  constructor
  · intro h
    by_contra hn
    push Not at hn
    rw [C49_delivers hash hlen ts hn] at h; cases h
  · rintro ⟨t, ht, hl⟩
    unfold transfer
    induction ts with
    | nil => cases ht
    | cons u ts ih =>
      rw [List.mapM_cons]
      rcases List.mem_cons.1 ht with rfl | h
      · rw [transferOne_long hash hlen _ hl]; rfl
      · rw [ih h]; cases transferOne hash u <;> rfl

theorem square_dvd_iff (a : ℕ) : prime - 1 ∣ a * a ↔ (prime - 1) / 4 ∣ a := by
  have hs : (prime - 1) / 4 = 8 * (7 * (53 * (167 * (14159 * (489113 * (59435010449 * 773562405661)))))) := by decide +kernel
  have hp : prime - 1 = 32 * (7 * (53 * (167 * (14159 * (489113 * (59435010449 * 773562405661)))))) := by decide +kernel
  have hpr := orderFactors_prime
  simp only [orderFactors, List.mem_cons, List.not_mem_nil, or_false, forall_eq_or_imp, forall_eq] at hpr
  obtain ⟨-, -, -, -, -, q1, q2, q3, q4, q5, q6, q7⟩ := hpr
  constructor
  · intro h
    have d8 : 8 ∣ a := by
      have h32 : 32 ∣ a * a := dvd_trans (by rw [hp]; exact Nat.dvd_mul_right _ _) h
      have hm : a * a % 32 = (a % 32) * (a % 32) % 32 := Nat.mul_mod _ _ _
      have : a % 32 < 32 := Nat.mod_lt _ (by norm_num)
      have h0 := Nat.mod_eq_zero_of_dvd h32
      rw [hm] at h0
      have h8 : a % 32 % 8 = 0 := by interval_cases a % 32 <;> omega
      omega
    have dq (q : ℕ) (hq : q.Prime) (hd : q ∣ prime - 1) : q ∣ a := by
      have := dvd_trans hd h
      exact (or_self _).mp ((Nat.Prime.dvd_mul hq).1 this)
    rw [hs]
    refine Nat.Coprime.mul_dvd_of_dvd_of_dvd (by decide +kernel) d8 ?_
    refine Nat.Coprime.mul_dvd_of_dvd_of_dvd (by decide +kernel) (dq _ q1 (by rw [hp]; decide +kernel)) ?_
    refine Nat.Coprime.mul_dvd_of_dvd_of_dvd (by decide +kernel) (dq _ q2 (by rw [hp]; decide +kernel)) ?_
    refine Nat.Coprime.mul_dvd_of_dvd_of_dvd (by decide +kernel) (dq _ q3 (by rw [hp]; decide +kernel)) ?_
    refine Nat.Coprime.mul_dvd_of_dvd_of_dvd (by decide +kernel) (dq _ q4 (by rw [hp]; decide +kernel)) ?_
    refine Nat.Coprime.mul_dvd_of_dvd_of_dvd (by decide +kernel) (dq _ q5 (by rw [hp]; decide +kernel)) ?_
    exact Nat.Coprime.mul_dvd_of_dvd_of_dvd (by decide +kernel) (dq _ q6 (by rw [hp]; decide +kernel)) (dq _ q7 (by rw [hp]; decide +kernel))
  · rintro ⟨k, rfl⟩
    have e : prime - 1 = 4 * ((prime - 1) / 4) := by decide +kernel
    have e2 : 4 ∣ (prime - 1) / 4 := by decide +kernel
    obtain ⟨q, hq⟩ : ∃ q, q = (prime - 1) / 4 := ⟨_, rfl⟩
    rw [← hq] at e e2 ⊢
    obtain ⟨r, hr⟩ := e2
    rw [e]
    exact ⟨r * k * k, by rw [hr]; ring⟩

/-- **C49 (pads)**: the pad of the message that was not chosen is hashed from another group element than the receiver's key, exactly when the sender's exponent is not a multiple of a quarter of the group order. -/
theorem C49_pads_differ_partial (a b : ℕ) (c : Bool) :
    keyElement b (senderMask a) ≠ (if c then (padElements a (receiverMask b c (senderMask a))).1 else (padElements a (receiverMask b c (senderMask a))).2) ↔ ¬(prime - 1) / 4 ∣ a := by
  rw [← square_dvd_iff, ← gen_pow_eq_one_iff, key_eq a b c, not_iff_not]
  obtain ⟨h1, h2⟩ := cast_pads a (receiverMask b c (senderMask a))
  have hne : ((receiverMask b c (senderMask a) : ℕ) : ZMod prime) ^ a ≠ 0 := by rw [cast_receiverMask]; exact pow_ne_zero _ (pow_ne_zero _ gen_ne_zero)
  have hq := pow_ne_zero (a * a) gen_ne_zero
  have key : (padElements a (receiverMask b c (senderMask a))).2 = (padElements a (receiverMask b c (senderMask a))).1 ↔ (3 : ZMod prime) ^ (a * a) = 1 := by
    constructor
    · intro e
      have e : (((padElements a (receiverMask b c (senderMask a))).2 : ℕ) : ZMod prime) = ((padElements a (receiverMask b c (senderMask a))).1 : ℕ) := by rw [e]
      rw [h1, h2] at e
      have : ((3 : ZMod prime) ^ (a * a))⁻¹ = 1 := mul_left_cancel₀ hne (by rw [e, mul_one])
      rwa [inv_eq_one] at this
    · intro e
      refine nat_of_zmod (pads_lt _ _).2 (pads_lt _ _).1 ?_
      rw [h1, h2, e, inv_one, mul_one]
  cases c
  · simp only [Bool.false_eq_true, if_false]; rw [eq_comm]; exact key
  · simp only [if_true]; exact key

/-- **C49 (pads) fails** for some exponents the sender may draw: with `alpha = 0` (or a quarter of the group order, …) the receiver's key also opens the message that was not chosen. -/
theorem C49_weak_exponent_wrong (hash : ℕ → List ℕ) (hlen : ∀ x, (hash x).length = 64) (m0 m1 : List ℕ) (h0 : m0.length ≤ 64) (h1 : m1.length ≤ 64) (b : ℕ) (a : ℕ) (ha : (prime - 1) / 4 ∣ a) :
    ∃ enc, encryptPair hash a (receiverMask b false (senderMask a)) m0 m1 = some enc ∧ decryptPair hash b (senderMask a) false enc = m0 ∧ decryptPair hash b (senderMask a) true enc = m1 := by
  have hk := key_eq a b false
  have hu := (not_iff_not.2 (C49_pads_differ_partial a b false)).2 (by simpa using ha)
  simp only [Bool.false_eq_true, if_false, ne_eq, not_not] at hk hu
  refine ⟨_, by unfold encryptPair; dsimp only; rw [hlen, hlen, if_neg (by omega), if_neg (by omega)], ?_, ?_⟩
  · unfold decryptPair; simp only [Bool.false_eq_true, if_false]
    rw [hk, xor_xor _ _ (by rw [hlen]; exact h0)]
  · unfold decryptPair; simp only [if_true]
    rw [hu, xor_xor _ _ (by rw [hlen]; exact h1)]

/-- **C49 (choice)**: if the receiver's exponent is drawn uniformly from a full period `0 … prime - 2`, its message has the same distribution for both choices: the exponents for one choice correspond one to
one to those for the other with the same message. -/
theorem C49_choice_hidden_partial (a : ℕ) :
    ∃ σ : Equiv.Perm (Fin (prime - 1)), ∀ b : Fin (prime - 1), receiverMask b true (senderMask a) = receiverMask (σ b) false (senderMask a) := by
  have hn : NeZero (prime - 1) := ⟨by decide⟩
  refine ⟨Equiv.addRight (Fin.ofNat (prime - 1) a), fun b => nat_of_zmod (receiverMask_lt _ _ _) (receiverMask_lt _ _ _) ?_⟩
  rw [cast_receiverMask, cast_receiverMask]
  simp only [if_true, Bool.false_eq_true, if_false, add_zero, Equiv.coe_addRight, Fin.val_add, Fin.val_ofNat, Nat.add_mod_mod]
  conv_lhs => rw [← Nat.div_add_mod (b.val + a) (prime - 1), pow_add, pow_mul, (gen_pow_eq_one_iff (prime - 1)).2 (dvd_refl _), one_pow, one_mul]

theorem pow_inj {b c : ℕ} (h : powp generator b = powp generator c) : b % (prime - 1) = c % (prime - 1) := by
  have h : (3 : ZMod prime) ^ b = 3 ^ c := by rw [← cast_gen, ← cast_powp, ← cast_powp, h]
  have h3 := gen_ne_zero
  rcases Nat.le_total b c with hl | hl
  · have : (3 : ZMod prime) ^ (c - b) = 1 := by
      refine mul_left_cancel₀ (pow_ne_zero b h3) ?_
      rw [← pow_add, Nat.add_sub_cancel' hl, mul_one, h]
    have := (gen_pow_eq_one_iff _).1 this
    exact (Nat.modEq_iff_dvd' hl).2 this
  · have : (3 : ZMod prime) ^ (b - c) = 1 := by
      refine mul_left_cancel₀ (pow_ne_zero c h3) ?_
      rw [← pow_add, Nat.add_sub_cancel' hl, mul_one, h]
    have := (gen_pow_eq_one_iff _).1 this
    exact ((Nat.modEq_iff_dvd' hl).2 this).symm

/-- **C49 (choice) fails** for the range in the code: `randint(0, prime - 1)` draws from one more value than a period, so the message `1` comes from two exponents for choice 0, but from one for choice 1
(unless the sender's message is 1). -/
theorem C49_choice_bias_wrong (a : ℕ) (ha : ¬prime - 1 ∣ a) :
    (receiverMask 0 false (senderMask a) = 1 ∧ receiverMask (prime - 1) false (senderMask a) = 1) ∧
    ∀ b c, b < prime → c < prime → receiverMask b true (senderMask a) = 1 → receiverMask c true (senderMask a) = 1 → b = c := by
  refine ⟨⟨?_, ?_⟩, ?_⟩
  · refine nat_of_zmod (receiverMask_lt _ _ _) (by decide) ?_
    rw [cast_receiverMask]; simp
  · refine nat_of_zmod (receiverMask_lt _ _ _) (by decide) ?_
    rw [cast_receiverMask]
    simp only [Bool.false_eq_true, if_false, add_zero, Nat.cast_one]
    exact (gen_pow_eq_one_iff _).2 (dvd_refl _)
  · have key (b : ℕ) (h : receiverMask b true (senderMask a) = 1) : prime - 1 ∣ b + a := by
      have h : ((receiverMask b true (senderMask a) : ℕ) : ZMod prime) = ((1 : ℕ) : ZMod prime) := by rw [h]
      rw [cast_receiverMask] at h
      simp only [if_true, Nat.cast_one] at h
      exact (gen_pow_eq_one_iff _).1 h
    intro b c hb hc h1 h2
    have d1 := key b h1
    have d2 := key c h2
    by_contra hne
    have hpp : prime - 1 + 1 = prime := by decide
    generalize prime - 1 = m at *
    have aux : ∀ u v : ℕ, u < v → v < m + 1 → m ∣ u + a → m ∣ v + a → False := by
      intro u v huv hv du dv
      have : m ∣ v - u := by
        have := Nat.dvd_sub dv du
        rwa [show v + a - (u + a) = v - u by omega] at this
      have hle := Nat.le_of_dvd (by omega) this
      obtain rfl : u = 0 := by omega
      rw [zero_add] at du
      exact ha du
    rcases Nat.lt_or_gt_of_ne hne with h | h
    · exact aux b c h (by omega) d1 d2
    · exact aux c b h (by omega) d2 d1

/-- Every prime factor of the group order is below 2^40, so discrete logarithms in this group can be computed factor by factor. -/
theorem C49_smooth_group (q : ℕ) (hq : q.Prime) (h : q ∣ prime - 1) : q < 2 ^ 40 := by
  rw [order_eq] at h
  obtain ⟨r, hr, hqr⟩ := (Prime.dvd_prod_iff hq.prime).1 h
  obtain rfl : q = r := (Nat.prime_dvd_prime_iff_eq hq (orderFactors_prime r hr)).1 hqr
  have : ∀ q ∈ orderFactors, q < 2 ^ 40 := by decide
  exact this q hr

/-- A concrete transfer of two pairs. -/
example (hash : ℕ → List ℕ) (hlen : ∀ x, (hash x).length = 64) : transfer hash [⟨[104, 105], [98], false, 5, 7⟩, ⟨[], [122, 233], true, 11, 0⟩] = some [[104, 105], [122, 233]] :=
  C49_delivers hash hlen _ (by intro t ht; simp at ht; rcases ht with rfl | rfl <;> constructor <;> decide)

end CrypTen.OT

import Verif.Lemmas.Truncate
import Mathlib.Data.Set.Card
import Mathlib.Data.Int.Interval
import Mathlib.Algebra.Order.BigOperators.Group.Finset
import Mathlib.Algebra.Order.BigOperators.Ring.Finset
import Mathlib.Tactic.LinearCombination

/-!
# C14, C15, C16: division of encrypted tensors by public integers

The secret is `(reveal x i).toInt`, the divisor `y i`; rounding is toward zero (`Int.tdiv`).
-/

namespace CrypTen
variable {n : ℕ} {ι : Type}

/-! ## C14 -/

theorem tdiv_add_close (a b : ℤ) {y : ℤ} (hy : 0 < y) : |a.tdiv y + b.tdiv y - (a + b).tdiv y| ≤ 1 := by
  have ha := Int.mul_tdiv_add_tmod a y
  have hb := Int.mul_tdiv_add_tmod b y
  have hc := Int.mul_tdiv_add_tmod (a + b) y
  have sgn : ∀ c : ℤ, (0 ≤ c → 0 ≤ c.tmod y) ∧ (c ≤ 0 → c.tmod y ≤ 0) ∧ c.tmod y < y ∧ -y < c.tmod y := by
    intro c
    refine ⟨fun h => Int.tmod_nonneg y h, fun h => ?_, Int.tmod_lt_of_pos c hy, Int.lt_tmod_of_pos c hy⟩
    have := Int.tmod_nonneg y (a := -c) (by omega)
    rw [Int.neg_tmod] at this; omega
  have sa := sgn a; have sb := sgn b; have sc := sgn (a + b)
  generalize a.tdiv y = q1 at *; generalize b.tdiv y = q2 at *; generalize (a + b).tdiv y = q at *
  generalize a.tmod y = r1 at *; generalize b.tmod y = r2 at *; generalize (a + b).tmod y = r at *
  have key : y * (q1 + q2 - q) = r - r1 - r2 := by linarith
  have hlt : |r - r1 - r2| < 2 * y := by
    rw [abs_lt]
    rcases le_or_gt 0 a with h1 | h1 <;> rcases le_or_gt 0 b with h2 | h2 <;> constructor <;>
      first
      | (have := sa.1 h1; have := sb.1 h2; have := sc.1 (by omega); omega)
      | (have := sa.1 h1; have := sb.2.1 h2.le; omega)
      | (have := sa.2.1 h1.le; have := sb.1 h2; omega)
      | (have := sa.2.1 h1.le; have := sb.2.1 h2.le; have := sc.2.1 (by omega); omega)
  rw [← key, abs_mul, abs_of_pos hy] at hlt
  have : |q1 + q2 - q| < 2 := by
    by_contra hcon
    push Not at hcon
    nlinarith
  omega

/-- **C14 (good shares).** If the two shares add up to the secret over the integers, dividing reveals the quotient up to 1. -/
theorem C14_two_party_truncation (t : WrapPair 2 ι) (x : Shares 2 ι) (y : ι → ℤ) (i : ι) (hy : 0 < y i) (hy' : y i < 2 ^ 63)
    (hsum : (x 0 i).toInt + (x 1 i).toInt = (reveal x i).toInt) :
    |(reveal (divInt t x y) i).toInt - (reveal x i).toInt.tdiv (y i)| ≤ 1 := by
  have hclose := tdiv_add_close (x 0 i).toInt (x 1 i).toInt hy
  rw [hsum] at hclose
  have hrev : reveal (divInt t x y) i = BitVec.ofInt 64 ((x 0 i).toInt.tdiv (y i) + (x 1 i).toInt.tdiv (y i)) := by
    rw [divInt, if_neg (by omega), reveal_apply, Fin.sum_univ_two, truncLocal, truncLocal, tdivI64_ofInt _ hy hy',
      tdivI64_ofInt _ hy hy', ofInt_add64]
  rw [hrev, toInt_ofInt64]
  · exact hclose
  all_goals
    have g1 := toInt_ge (x 0 i); have g2 := toInt_lt (x 0 i); have g3 := toInt_ge (x 1 i); have g4 := toInt_lt (x 1 i)
    have g5 := toInt_ge (reveal x i); have g6 := toInt_lt (reveal x i)
    generalize (x 0 i).toInt = a at *; generalize (x 1 i).toInt = b at *; generalize (reveal x i).toInt = c at *
    generalize y i = d at *
    rcases eq_or_lt_of_le (show 1 ≤ d from hy) with h1 | h1
    · subst h1; simp only [Int.tdiv_one] at *; omega
    · obtain ⟨k1, k2⟩ := tdiv_bounds c (by omega : 0 < d)
      rw [abs_le] at k2 hclose
      have h3 : -2 ^ 62 - 1 ≤ c.tdiv d := by by_contra hcon; push Not at hcon; nlinarith
      have h4 : c.tdiv d ≤ 2 ^ 62 + 1 := by by_contra hcon; push Not at hcon; nlinarith
      omega

/-- The shares add up to the secret modulo `2^64` only: the first shares for which this happens. -/
theorem wrap_set_eq (x : I64) :
    {a : I64 | a.toInt + (x - a).toInt ≠ x.toInt} =
      BitVec.ofInt 64 '' (if 0 ≤ x.toInt then Set.Ico (-2 ^ 63) (x.toInt - 2 ^ 63 + 1) else Set.Ico (x.toInt + 2 ^ 63 + 1) (2 ^ 63)) := by
  ext a
  rw [Set.mem_ofPred_eq, Set.mem_image]
  have g1 := toInt_ge a; have g2 := toInt_lt a; have g3 := toInt_ge (x - a); have g4 := toInt_lt (x - a)
  have g5 := toInt_ge x; have g6 := toInt_lt x
  have hc := toInt_add_cases a (x - a)
  rw [add_sub_cancel] at hc
  constructor
  · intro h
    refine ⟨a.toInt, ?_, ofInt_toInt a⟩
    split
    · rw [Set.mem_Ico]; omega
    · rw [Set.mem_Ico]; omega
  · rintro ⟨z, hz, hza⟩
    have hz' : a.toInt = z := by
      rw [← hza]
      split at hz
      · rw [Set.mem_Ico] at hz; exact toInt_ofInt64 hz.1 (by omega)
      · rw [Set.mem_Ico] at hz; exact toInt_ofInt64 (by omega) hz.2
    split at hz
    · rw [Set.mem_Ico, ← hz'] at hz; omega
    · rw [Set.mem_Ico, ← hz'] at hz; omega

/-- **C14 (counting).** Of the `2^64` possible first shares, the ones that do not add up over the integers number exactly `|x + 1|`. -/
theorem C14_bad_first_shares (x : I64) : {a : I64 | a.toInt + (x - a).toInt ≠ x.toInt}.ncard = (x.toInt + 1).natAbs := by
  have g5 := toInt_ge x; have g6 := toInt_lt x
  rw [wrap_set_eq]
  have inj : Set.InjOn (BitVec.ofInt 64) (Set.Ico (-2 ^ 63) (2 ^ 63 : ℤ)) := by
    intro a ha b hb h
    rw [Set.mem_Ico] at ha hb
    rw [← toInt_ofInt64 ha.1 ha.2, ← toInt_ofInt64 hb.1 hb.2, h]
  rw [Set.InjOn.ncard_image]
  · split
    · rw [← Finset.coe_Ico, Set.ncard_coe_finset, Int.card_Ico]; omega
    · rw [← Finset.coe_Ico, Set.ncard_coe_finset, Int.card_Ico]; omega
  · refine inj.mono ?_
    split
    · exact Set.Ico_subset_Ico le_rfl (by omega)
    · exact Set.Ico_subset_Ico (by omega) le_rfl

/-- **C14.** For every secret and divisor, the first shares for which the revealed quotient is off by more than 1 number at most `|x| + 1`. -/
theorem C14_two_party_truncation_count (t : WrapPair 2 Unit) (x : I64) (y : ℤ) (hy : 0 < y) (hy' : y < 2 ^ 63) :
    {a : I64 | ¬ |(reveal (divInt t (fun p _ => if p = 0 then a else x - a) (fun _ => y)) ()).toInt - x.toInt.tdiv y| ≤ 1}.ncard
      ≤ x.toInt.natAbs + 1 := by
  have h := C14_bad_first_shares x
  refine le_trans (Set.ncard_le_ncard ?_ (@Set.toFinite _ _ (@Subtype.finite _ (Finite.of_injective BitVec.toFin fun _ _ h => BitVec.eq_of_toFin_eq h) _))) (h.trans_le (by omega))
  intro a ha
  rw [Set.mem_ofPred_eq] at ha ⊢
  intro hsum
  apply ha
  have hr : reveal (n := 2) (ι := Unit) (fun p _ => if p = 0 then a else x - a) () = x := by
    rw [reveal_apply, Fin.sum_univ_two]; simp
  have := C14_two_party_truncation t (fun p _ => if p = 0 then a else x - a) (fun _ => y) () hy hy'
    (by rw [hr]; simpa using hsum)
  rwa [hr] at this

/-- **C14 (bad shares).** When the shares wrap around, the revealed value is the quotient of a number `2^64` away from the secret. -/
theorem C14_wrapped_shares_error (t : WrapPair 2 ι) (x : Shares 2 ι) (y : ι → ℤ) (i : ι) (hy : 0 < y i) (hy' : y i < 2 ^ 63)
    (hsum : (x 0 i).toInt + (x 1 i).toInt ≠ (reveal x i).toInt) :
    ∃ v : ℤ, reveal (divInt t x y) i = BitVec.ofInt 64 v ∧
      (|v - ((reveal x i).toInt + 2 ^ 64).tdiv (y i)| ≤ 1 ∨ |v - ((reveal x i).toInt - 2 ^ 64).tdiv (y i)| ≤ 1) := by
  refine ⟨(x 0 i).toInt.tdiv (y i) + (x 1 i).toInt.tdiv (y i), ?_, ?_⟩
  · rw [divInt, if_neg (by omega), reveal_apply, Fin.sum_univ_two, truncLocal, truncLocal, tdivI64_ofInt _ hy hy',
      tdivI64_ofInt _ hy hy', ofInt_add64]
  · have hclose := tdiv_add_close (x 0 i).toInt (x 1 i).toInt hy
    have hr : reveal x i = x 0 i + x 1 i := by rw [reveal_apply, Fin.sum_univ_two]
    have hc := toInt_add_cases (x 0 i) (x 1 i)
    rw [← hr] at hc
    rcases hc with hc | hc | hc
    · exact absurd hc.symm hsum
    · left; rw [hc]; simpa using hclose
    · right; rw [hc]; simpa using hclose

/-- One party divides exactly. -/
theorem C14_one_party (t : WrapPair 1 ι) (x : Shares 1 ι) (y : ι → ℤ) (i : ι) (hy : 0 < y i) (hy' : y i < 2 ^ 63) :
    reveal (divInt t x y) i = BitVec.ofInt 64 ((reveal x i).toInt.tdiv (y i)) := by
  rw [divInt, if_neg (by omega), reveal_apply, reveal_apply, Fin.sum_univ_one, Fin.sum_univ_one, truncLocal, tdivI64_ofInt _ hy hy']

/-- Both kinds of shares exist, also for small secrets. -/
example : ∃ x : Shares 2 Unit, reveal x () = 5 ∧ (x 0 ()).toInt + (x 1 ()).toInt = 5 :=
  ⟨fun p _ => if p = 0 then 1000 else -995, by decide, by decide⟩
example : ∃ x : Shares 2 Unit, reveal x () = 5 ∧ (x 0 ()).toInt + (x 1 ()).toInt ≠ 5 :=
  ⟨fun p _ => if p = 0 then BitVec.intMin 64 else BitVec.intMin 64 + 5, by decide, by decide⟩

/-! ## C16 -/

/-- **C16.** For every list of shares `count_wraps` is the number `k` of wrap-arounds (their integer sum is `2^64 * k` more than their ring sum
read as a signed number) plus the number of places where the running sum and the next share are both `-2^63`. -/
theorem C16_count_wraps_characterised (l : List I64) : ∃ k : ℤ,
    (l.map BitVec.toInt).sum = l.sum.toInt + 2 ^ 64 * k ∧ countWraps l = BitVec.ofInt 64 (k + minCollisions l) := by
  obtain ⟨k, h1, h2⟩ := countWraps_spec l
  exact ⟨k, h2, h1⟩

/-- **C16 (exactness).** Without such a place, the count is exact. Missing from the full property: lists with one. -/
theorem C16_count_wraps_partial (l : List I64) (k : ℤ) (hk : (l.map BitVec.toInt).sum = l.sum.toInt + 2 ^ 64 * k)
    (hmin : minCollisions l = 0) : countWraps l = BitVec.ofInt 64 k := by
  obtain ⟨k', h1, h2⟩ := C16_count_wraps_characterised l
  have : k' = k := by omega
  rw [h2, this, hmin]; simp

/-- A share different from `-2^63` everywhere after the first position rules the bad places out. -/
theorem minCollisionsFrom_eq_zero (l : List I64) : ∀ a, (∀ b ∈ l, b.toInt ≠ -2 ^ 63) → minCollisionsFrom a l = 0 := by
  induction l with
  | nil => intros; rfl
  | cons b l ih =>
    intro a h
    rw [minCollisionsFrom, ih _ fun c hc => h c (List.mem_cons_of_mem _ hc), if_neg]
    exact fun hc => h b List.mem_cons_self hc.2

theorem minCollisions_eq_zero (l : List I64) (h : ∀ b ∈ l.tail, b.toInt ≠ -2 ^ 63) : minCollisions l = 0 := by
  cases l with
  | nil => rfl
  | cons a l => exact minCollisionsFrom_eq_zero l a h

/-- The exact count is unconditional when no share after the first is `-2^63`. -/
theorem C16_count_wraps_no_min_partial (l : List I64) (k : ℤ) (hk : (l.map BitVec.toInt).sum = l.sum.toInt + 2 ^ 64 * k)
    (hmin : ∀ b ∈ l.tail, b.toInt ≠ -2 ^ 63) : countWraps l = BitVec.ofInt 64 k :=
  C16_count_wraps_partial l k hk (minCollisions_eq_zero l hmin)

/-- **C16 is refuted in general**: two shares `-2^63` wrap once and are counted as not wrapping. -/
theorem C16_count_wraps_not_exact : ∃ l : List I64, ∃ k : ℤ,
    (l.map BitVec.toInt).sum = l.sum.toInt + 2 ^ 64 * k ∧ countWraps l ≠ BitVec.ofInt 64 k :=
  ⟨[BitVec.intMin 64, BitVec.intMin 64], -1, by decide, by decide⟩

example : countWraps [BitVec.intMax 64, 1, BitVec.intMax 64, 5] = 1 ∧
    ([BitVec.intMax 64, 1, BitVec.intMax 64, 5].map BitVec.toInt).sum = ([BitVec.intMax 64, 1, BitVec.intMax 64, 5] : List I64).sum.toInt + 2 ^ 64 * 1 := by
  decide

/-! ## C15 -/

theorem sum_toInt_eq (s : Shares n ι) (i : ι) (k : ℤ)
    (h : ((List.ofFn fun p => s p i).map BitVec.toInt).sum = (List.ofFn fun p => s p i).sum.toInt + 2 ^ 64 * k) :
    ∑ p, (s p i).toInt = (reveal s i).toInt + 2 ^ 64 * k := by
  rw [List.map_ofFn, List.sum_ofFn, List.sum_ofFn] at h
  rw [reveal_apply]; exact h

/-- The protocol for wraps: reveals the number `θ` of wraps of the shares plus the wrap `η` of secret plus mask. -/
theorem C15_wraps_protocol [NeZero n] (t : WrapPair n ι) (ht : t.Valid) (x : Shares n ι) (i : ι) (hmin : NoMinCollision t x i) :
    ∃ θ η : ℤ, reveal (wrapsProtocol t x) i = BitVec.ofInt 64 (θ + η) ∧
      ∑ p, (x p i).toInt = (reveal x i).toInt + 2 ^ 64 * θ ∧
      (reveal x i).toInt + (reveal t.r i).toInt = (reveal x i + reveal t.r i).toInt + 2 ^ 64 * η := by
  obtain ⟨hb, hr, hz⟩ := hmin
  obtain ⟨θx, hx1, -⟩ := C16_count_wraps_characterised (List.ofFn fun p => x p i)
  obtain ⟨θr, hr1, hr2⟩ := C16_count_wraps_characterised (List.ofFn fun p => t.r p i)
  obtain ⟨θz, hz1, hz2⟩ := C16_count_wraps_characterised (List.ofFn fun p => x p i + t.r p i)
  choose β hβ1 hβ2 using fun p => C16_count_wraps_characterised [x p i, t.r p i]
  rw [hr, Nat.cast_zero, add_zero] at hr2; rw [hz, Nat.cast_zero, add_zero] at hz2
  have hX := sum_toInt_eq x i θx hx1
  have hR := sum_toInt_eq t.r i θr hr1
  have hZ := sum_toInt_eq (addShares x t.r) i θz hz1
  have hzr : reveal (addShares x t.r) i = reveal x i + reveal t.r i := by rw [reveal_addShares]; rfl
  rw [hzr] at hZ
  have hB : ∑ p, (x p i).toInt + ∑ p, (t.r p i).toInt = ∑ p, (x p i + t.r p i).toInt + 2 ^ 64 * ∑ p, β p := by
    rw [Finset.mul_sum, ← Finset.sum_add_distrib, ← Finset.sum_add_distrib]
    exact Finset.sum_congr rfl fun p _ => by simpa using hβ1 p
  have hZ' : ∑ p, (x p i + t.r p i).toInt = (reveal x i + reveal t.r i).toInt + 2 ^ 64 * θz := hZ
  refine ⟨θx, θz + ∑ p, β p - θr - θx, ?_, hX, by linarith⟩
  rw [show θx + (θz + ∑ p, β p - θr - θx) = ∑ p, β p - θr + θz by ring]
  have e0 : reveal (wrapsProtocol t x) i =
      reveal (addPublic (subShares (fun p i => countWraps [x p i, t.r p i]) t.theta)
        (fun i => countWraps (List.ofFn fun q => addShares x t.r q i))) i := by
    congr 1
    congr 1
    funext p j
    simp only [wrapsProtocol, addPublic]
    split <;> rfl
  rw [e0, reveal_addPublic, reveal_subShares]
  rw [Pi.add_apply, Pi.sub_apply, ht i, hr2, ofInt_add64, ofInt_sub64]
  congr 1
  · congr 1
    · rw [reveal_apply, ofInt_sum]
      refine Finset.sum_congr rfl fun p _ => ?_
      rw [hβ2 p, hb p]; simp

/-- **C15 (exact value).** `y` times the revealed quotient, in terms of the secret: `θ` is the number of wraps of the shares, `η` that of secret
plus mask, `R` the sum of the local remainders. -/
theorem C15_truncation_characterised [NeZero n] (hn : 2 < n) (t : WrapPair n ι) (ht : t.Valid) (x : Shares n ι) (y : ι → ℤ) (i : ι)
    (hy : 0 < y i) (hy' : y i < 2 ^ 63) (hmin : NoMinCollision t x i) :
    ∃ v R θ η : ℤ, reveal (divInt t x y) i = BitVec.ofInt 64 v ∧
      y i * v = (reveal x i).toInt + θ * (4 * (2 ^ 62 % y i)) - R - η * (y i * (4 * (2 ^ 62 / y i))) ∧
      |R| ≤ n * (y i - 1) ∧ |2 * θ| ≤ n + 1 ∧
      ∑ p, (x p i).toInt = (reveal x i).toInt + 2 ^ 64 * θ ∧
      (reveal x i).toInt + (reveal t.r i).toInt = (reveal x i + reveal t.r i).toInt + 2 ^ 64 * η := by
  obtain ⟨θ, η, hw, hθ, hη⟩ := C15_wraps_protocol t ht x i hmin
  refine ⟨∑ p, (x p i).toInt.tdiv (y i) - (θ + η) * 4 * (2 ^ 62 / y i), ∑ p, (x p i).toInt.tmod (y i), θ, η, ?_, ?_, ?_, ?_, hθ, hη⟩
  · rw [divInt, if_pos (by omega), truncateBeaver]
    simp only [reveal_subShares, Pi.sub_apply, reveal_mulInt, Pi.mul_apply, hw]
    rw [ofInt_sub64, ofInt_mul64, ofInt_mul64, ofInt_sum, reveal_apply, Int.fdiv_eq_ediv_of_nonneg _ hy.le]
    congr 1
    exact Finset.sum_congr rfl fun p _ => tdivI64_ofInt _ hy hy'
  · have hsum : y i * ∑ p, (x p i).toInt.tdiv (y i) = ∑ p, (x p i).toInt - ∑ p, (x p i).toInt.tmod (y i) := by
      rw [Finset.mul_sum, ← Finset.sum_sub_distrib]
      refine Finset.sum_congr rfl fun p _ => ?_
      have := Int.mul_tdiv_add_tmod (x p i).toInt (y i); linarith
    have hQ : y i * (2 ^ 62 / y i) + 2 ^ 62 % y i = 2 ^ 62 := Int.mul_ediv_add_emod _ _
    rw [mul_sub, hsum, hθ]
    linear_combination (-4) * θ * hQ
  · refine le_trans (Finset.abs_sum_le_sum_abs _ _) ?_
    refine le_trans (Finset.sum_le_sum (g := fun _ => y i - 1) fun p _ => (tdiv_bounds _ hy).2) ?_
    simp only [Finset.sum_const, Finset.card_univ, Fintype.card_fin, nsmul_eq_mul, le_refl]
  · have h1 := toInt_ge (reveal x i); have h2 := toInt_lt (reveal x i)
    have h3 : -2 ^ 63 * (n : ℤ) ≤ ∑ p, (x p i).toInt := by
      have := Finset.sum_le_sum (s := Finset.univ) (f := fun _ : Fin n => (-2 ^ 63 : ℤ)) (g := fun p => (x p i).toInt) fun p _ => toInt_ge _
      simp only [Finset.sum_const, Finset.card_univ, Fintype.card_fin, nsmul_eq_mul] at this
      linarith
    have h4 : ∑ p, (x p i).toInt ≤ 2 ^ 63 * (n : ℤ) := by
      have := Finset.sum_le_sum (s := Finset.univ) (g := fun _ : Fin n => (2 ^ 63 : ℤ)) (f := fun p => (x p i).toInt) fun p _ => (toInt_lt _).le
      simp only [Finset.sum_const, Finset.card_univ, Fintype.card_fin, nsmul_eq_mul] at this
      linarith
    rw [abs_le]
    omega

/-- **C15 (powers of two, the scales in use).** Dividing by `2^k` reveals the quotient up to less than the number of parties, whenever secret plus
mask does not wrap and no two `-2^63` meet. Missing from the full property: the shares excluded by the two hypotheses. -/
theorem C15_truncation_power_of_two_partial [NeZero n] (hn : 2 < n) (t : WrapPair n ι) (ht : t.Valid) (x : Shares n ι) (k : ℕ) (hk : k ≤ 62) (i : ι)
    (hmin : NoMinCollision t x i) (hη : (reveal x i).toInt + (reveal t.r i).toInt = (reveal x i + reveal t.r i).toInt) :
    ∃ v : ℤ, reveal (divInt t x fun _ => 2 ^ k) i = BitVec.ofInt 64 v ∧ |2 ^ k * v - (reveal x i).toInt| ≤ n * (2 ^ k - 1) := by
  have hpos : (0 : ℤ) < 2 ^ k := by positivity
  have hlt : (2 : ℤ) ^ k < 2 ^ 63 := pow_lt_pow_right₀ (by norm_num) (by omega)
  obtain ⟨v, R, θ, η, hv, hyv, hR, -, -, hη'⟩ := C15_truncation_characterised hn t ht x (fun _ => 2 ^ k) i hpos hlt hmin
  have h0 : η = 0 := by omega
  have hmod : (2 : ℤ) ^ 62 % 2 ^ k = 0 := Int.emod_eq_zero_of_dvd (pow_dvd_pow 2 hk)
  refine ⟨v, hv, ?_⟩
  rw [hyv, hmod, h0]
  rw [show (reveal x i).toInt + θ * (4 * 0) - R - 0 * (2 ^ k * (4 * (2 ^ 62 / 2 ^ k))) - (reveal x i).toInt = -R by ring, abs_neg]
  exact hR

/-- **C15 (any divisor).** The same for every divisor, with the larger bound that comes from `4 * (2^62 // y)` not being exactly `2^64 / y`. -/
theorem C15_truncation_any_divisor_partial [NeZero n] (hn : 2 < n) (t : WrapPair n ι) (ht : t.Valid) (x : Shares n ι) (y : ι → ℤ) (i : ι)
    (hy : 0 < y i) (hy' : y i < 2 ^ 63) (hmin : NoMinCollision t x i)
    (hη : (reveal x i).toInt + (reveal t.r i).toInt = (reveal x i + reveal t.r i).toInt) :
    ∃ v : ℤ, reveal (divInt t x y) i = BitVec.ofInt 64 v ∧ |y i * v - (reveal x i).toInt| ≤ (3 * n + 2) * (y i - 1) := by
  obtain ⟨v, R, θ, η, hv, hyv, hR, hθ, -, hη'⟩ := C15_truncation_characterised hn t ht x y i hy hy' hmin
  have h0 : η = 0 := by omega
  refine ⟨v, hv, ?_⟩
  have hm1 := Int.emod_nonneg (2 ^ 62) (ne_of_gt hy)
  have hm2 := Int.emod_lt_of_pos (2 ^ 62) hy
  rw [hyv, h0]
  generalize (2 : ℤ) ^ 62 % y i = m at *
  rw [show (reveal x i).toInt + θ * (4 * m) - R - 0 * (y i * (4 * (2 ^ 62 / y i))) - (reveal x i).toInt = (2 * θ) * (2 * m) - R by ring]
  have h1 : |(2 * θ) * (2 * m)| ≤ (n + 1) * (2 * (y i - 1)) := by
    rw [abs_mul]
    refine mul_le_mul hθ ?_ (abs_nonneg _) (by positivity)
    rw [abs_of_nonneg (by omega)]; omega
  have := abs_sub (2 * θ * (2 * m)) R
  linarith

/-- **C15 (counting).** For a fixed secret, the masks for which secret plus mask wraps number exactly `|x|` of `2^64`. -/
theorem C15_bad_masks (x : I64) : {r : I64 | x.toInt + r.toInt ≠ (x + r).toInt}.ncard = x.toInt.natAbs := by
  have g5 := toInt_ge x; have g6 := toInt_lt x
  have hset : {r : I64 | x.toInt + r.toInt ≠ (x + r).toInt} =
      BitVec.ofInt 64 '' (if 0 ≤ x.toInt then Set.Ico (2 ^ 63 - x.toInt) (2 ^ 63) else Set.Ico (-2 ^ 63) (-2 ^ 63 - x.toInt)) := by
    ext a
    rw [Set.mem_ofPred_eq, Set.mem_image]
    have g1 := toInt_ge a; have g2 := toInt_lt a; have g3 := toInt_ge (x + a); have g4 := toInt_lt (x + a)
    have hc := toInt_add_cases x a
    constructor
    · intro h
      refine ⟨a.toInt, ?_, ofInt_toInt a⟩
      split
      · rw [Set.mem_Ico]; omega
      · rw [Set.mem_Ico]; omega
    · rintro ⟨z, hz, hza⟩
      have hz' : a.toInt = z := by
        rw [← hza]
        split at hz
        · rw [Set.mem_Ico] at hz; exact toInt_ofInt64 (by omega) hz.2
        · rw [Set.mem_Ico] at hz; exact toInt_ofInt64 hz.1 (by omega)
      split at hz
      · rw [Set.mem_Ico, ← hz'] at hz; omega
      · rw [Set.mem_Ico, ← hz'] at hz; omega
  have inj : Set.InjOn (BitVec.ofInt 64) (Set.Ico (-2 ^ 63) (2 ^ 63 : ℤ)) := by
    intro a ha b hb h
    rw [Set.mem_Ico] at ha hb
    rw [← toInt_ofInt64 ha.1 ha.2, ← toInt_ofInt64 hb.1 hb.2, h]
  rw [hset, Set.InjOn.ncard_image]
  · split
    · rw [← Finset.coe_Ico, Set.ncard_coe_finset, Int.card_Ico]; omega
    · rw [← Finset.coe_Ico, Set.ncard_coe_finset, Int.card_Ico]; omega
  · refine inj.mono ?_
    split
    · exact Set.Ico_subset_Ico (by omega) le_rfl
    · exact Set.Ico_subset_Ico le_rfl (by omega)

/-- The hypotheses are met by wrapping shares of 3000000 with a wrapping mask; dividing by `2^16` gives 43 (the quotient is 45). -/
example : ∃ (t : WrapPair 3 Unit) (x : Shares 3 Unit), t.Valid ∧ NoMinCollision t x () ∧ reveal x () = 3000000 ∧
    (∑ p, (x p ()).toInt) ≠ 3000000 ∧ (reveal x ()).toInt + (reveal t.r ()).toInt = (reveal x () + reveal t.r ()).toInt ∧
    reveal (divInt t x fun _ => 2 ^ 16) () = 43 := by
  refine ⟨⟨fun p _ => if p = 0 then BitVec.intMax 64 else if p = 1 then BitVec.intMax 64 else 7, fun p _ => if p = 0 then 6 else if p = 1 then -5 else 0⟩,
    fun p _ => if p = 0 then BitVec.intMax 64 else if p = 1 then BitVec.intMax 64 else 3000002, ?_, ?_, ?_, ?_, ?_, ?_⟩
  · intro i; cases i; decide
  · refine ⟨?_, ?_, ?_⟩
    · decide
    · decide
    · decide
  all_goals decide

end CrypTen

import Mathlib.Tactic.FieldSimp
import Mathlib.Tactic.LinearCombination
import Mathlib.Algebra.Order.BigOperators.Group.Finset
import Verif.Model.Functions

/-!
# C26, C27, C29 in exact arithmetic: powers, polynomials, mean and variance
-/

namespace CrypTen
variable {K : Type} [Field K] [LinearOrder K] {ι : Type}

/-- The exponent the recursion of `pow` arrives at. -/
def powExponent (p : ℕ) : ℕ :=
  if p ≤ 1 then p
  else if p = 2 then 2
  else if p % 2 = 0 then 2 * powExponent (p / 2)
  else 3 * powExponent ((p - 1) / 2)
termination_by p
decreasing_by all_goals omega

/-- `x.pow(p)` for every positive power: the code computes `x ^ powExponent p`. -/
theorem C26_pow_exponent : ∀ (p : ℕ), 0 < p → ∀ (x : ι → K) (i : ι), (exactOps K).powPos x p i = x i ^ powExponent p := by
  intro p
  induction p using Nat.strong_induction_on with
  | _ p ih =>
  intro hp x i
  rw [Ops.powPos, powExponent]
  split
  · have : p = 1 := by omega
    subst this; rw [pow_one]; rfl
  · split
    · rw [sq]; rfl
    · split
      · show (exactOps K).powPos (fun i => x i * x i) (p / 2) i = _
        rw [ih (p / 2) (by omega) (by omega), ← sq, ← pow_mul]
      · show (exactOps K).powPos (fun i => x i * x i * x i) ((p - 1) / 2) i = _
        rw [ih ((p - 1) / 2) (by omega) (by omega), ← pow_three', ← pow_mul]

theorem powExponent_ge (p : ℕ) : p ≤ powExponent p := by
  induction p using Nat.strong_induction_on with
  | _ p ih =>
  rw [powExponent]
  split
  · exact le_rfl
  · split
    · omega
    · split
      · have := ih (p / 2) (by omega); omega
      · have := ih ((p - 1) / 2) (by omega); omega

/-- The exponent is the requested one exactly for `2 ^ k` and `3 * 2 ^ k`. -/
theorem powExponent_eq_iff (p : ℕ) (hp : 0 < p) : powExponent p = p ↔ ∃ k, p = 2 ^ k ∨ p = 3 * 2 ^ k := by
  induction p using Nat.strong_induction_on with
  | _ p ih =>
  rw [powExponent]
  split
  · refine ⟨fun _ => ⟨0, by omega⟩, fun _ => rfl⟩
  · split
    · exact ⟨fun _ => ⟨1, by omega⟩, fun _ => by omega⟩
    · split
      · rename_i h1 h2 h3
        have e : 2 * powExponent (p / 2) = p ↔ powExponent (p / 2) = p / 2 := by omega
        rw [e, ih (p / 2) (by omega) (by omega)]
        constructor
        · rintro ⟨k, h | h⟩
          · exact ⟨k + 1, Or.inl (by rw [pow_succ]; omega)⟩
          · exact ⟨k + 1, Or.inr (by rw [pow_succ]; omega)⟩
        · rintro ⟨k, h | h⟩ <;> rcases k with _ | k
          · simp at h; omega
          · exact ⟨k, Or.inl (by rw [pow_succ] at h; omega)⟩
          · simp at h; omega
          · exact ⟨k, Or.inr (by rw [pow_succ] at h; omega)⟩
      · rename_i h1 h2 h3
        have := powExponent_ge ((p - 1) / 2)
        constructor
        · intro h
          exact ⟨0, Or.inr (by omega)⟩
        · rintro ⟨k, h | h⟩ <;> rcases k with _ | k
          · simp at h; omega
          · rw [pow_succ] at h; omega
          · have : p = 3 := by simpa using h
            subst this
            show 3 * powExponent 1 = 3
            rw [powExponent]; rfl
          · rw [pow_succ] at h; omega

/-- **C26, for the powers of two and three times them.** -/
theorem C26_pow_partial (p k : ℕ) (hp : p = 2 ^ k ∨ p = 3 * 2 ^ k) (x : ι → K) (i : ι) : (exactOps K).powPos x p i = x i ^ p := by
  have h0 : 0 < p := by rcases hp with h | h <;> subst h <;> positivity
  rw [C26_pow_exponent p h0, (powExponent_eq_iff p h0).2 ⟨k, hp⟩]

/-- **C26 fails for every other positive power**, already for the base 2: the first such power is 5, where the result is `2 ^ 6`. -/
theorem C26_pow_wrong (p : ℕ) (hp : 0 < p) (h : ∀ k, p ≠ 2 ^ k ∧ p ≠ 3 * 2 ^ k) :
    (exactOps ℚ).powPos (fun _ : Unit => 2) p () ≠ 2 ^ p := by
  rw [C26_pow_exponent p hp]
  intro e
  have e' : powExponent p = p := by
    have : ((2 ^ powExponent p : ℕ) : ℚ) = ((2 ^ p : ℕ) : ℚ) := by push_cast; exact e
    exact Nat.pow_right_injective (le_refl 2) (by exact_mod_cast this)
  obtain ⟨k, hk | hk⟩ := (powExponent_eq_iff p hp).1 e'
  · exact (h k).1 hk
  · exact (h k).2 hk

example : (exactOps ℚ).powPos (fun _ : Unit => 2) 5 () = 64 := by
  rw [C26_pow_exponent 5 (by norm_num)]
  have : powExponent 5 = 6 := by
    rw [powExponent]; norm_num
    rw [powExponent]; norm_num
  rw [this]; norm_num

/-- There are powers of both kinds: 12 is right, 5 is wrong. -/
example : (∃ k, 12 = 2 ^ k ∨ 12 = 3 * 2 ^ k) ∧ ∀ k, 5 ≠ 2 ^ k ∧ 5 ≠ 3 * 2 ^ k := by
  refine ⟨⟨2, by norm_num⟩, fun k => ?_⟩
  rcases k with _ | _ | _ | k
  · norm_num
  · norm_num
  · norm_num
  · have : 2 ^ (k + 3) = 8 * 2 ^ k := by ring
    have h := Nat.one_le_two_pow (n := k)
    omega

/-- The dispatch of `pow` on the exponent (power.py:21-37): non-integral exponents are rejected, 0 gives an encryption of 1, negative exponents are positive
powers of the reciprocal. -/
theorem C26_pow_dispatch (c : FunCfg) (x : ι → K) :
    (∀ p : ℚ, (exactOps K).pow c x p = none ↔ ∀ z : ℤ, p ≠ z) ∧
    (∃ r, (exactOps K).pow c x 0 = some r ∧ ∀ i, r i = (1 : K)) ∧
    (∀ p : ℕ, 0 < p → (exactOps K).pow c x p = some ((exactOps K).powPos x p)) ∧
    (∀ p : ℕ, 0 < p → ∃ r, (exactOps K).pow c x (-p) = some r ∧ ∀ i, r i = (exactOps K).powPos ((exactOps K).reciprocal c x) p i) := by
  refine ⟨fun p => ?_, ?_, fun p hp => ?_, fun p hp => ?_⟩
  · unfold Ops.pow
    split
    · rename_i h
      refine iff_of_true rfl fun z hz => h ?_
      rw [hz]; exact Rat.den_intCast z
    · rename_i h
      push Not at h
      have : ¬ ∀ z : ℤ, p ≠ z := fun hz => hz p.num (by exact ((Rat.den_eq_one_iff p).1 h).symm)
      constructor
      · split <;> [skip; (split <;> [skip; split])] <;> simp
      · intro hz; exact absurd hz this
  · refine ⟨(exactOps K).const ι 1, ?_, fun i => ?_⟩
    · unfold Ops.pow
      rw [if_neg (by decide), if_neg (by decide), if_neg (by decide), if_pos (by decide)]
    · show ((1 : ℚ) : K) = 1
      exact Rat.cast_one
  · unfold Ops.pow
    have hn : ((p : ℚ)).num = p := Rat.num_natCast p
    rw [if_neg (by rw [Rat.den_natCast]; exact fun h => h rfl), hn, if_neg (by omega), if_neg (by omega), if_neg (by omega)]
    rfl
  · have hn : (-(p : ℚ)).num = -p := by rw [Rat.num_neg_eq_neg_num, Rat.num_natCast]
    have hd : ¬ (-(p : ℚ)).den ≠ 1 := by rw [Rat.den_neg_eq_den, Rat.den_natCast]; exact fun h => h rfl
    unfold Ops.pow
    rw [if_neg hd, hn]
    by_cases h : p = 1
    · subst h
      refine ⟨_, by rw [if_neg (by decide), if_pos (by rfl)], fun i => ?_⟩
      rw [C26_pow_exponent 1 (by omega)]
      have : powExponent 1 = 1 := by rw [powExponent]; rfl
      rw [this, pow_one]
    · rw [if_pos (by omega)]
      exact ⟨_, rfl, fun i => by rw [neg_neg, Int.toNat_natCast]; rfl⟩

/-! ## polynomial -/

theorem exact_polyGrow (x : ι → K) (len : ℕ) : ∀ (fuel m : ℕ) (t : Fin (m + 1) × ι → K), (∀ j i, t (j, i) = x i ^ ((j : ℕ) + 1)) → len ≤ m + 1 + fuel →
    ∃ (m' : ℕ) (t' : Fin (m' + 1) × ι → K), (exactOps K).polyGrow len fuel m t = ⟨m', t'⟩ ∧ len ≤ m' + 1 ∧ ∀ j i, t' (j, i) = x i ^ ((j : ℕ) + 1) := by
  intro fuel
  induction fuel with
  | zero => intro m t ht h; exact ⟨m, t, rfl, by omega, ht⟩
  | succ fuel ih =>
    intro m t ht h
    rw [Ops.polyGrow]
    split
    · refine ih (m + 1 + m) _ (fun j i => ?_) (by omega)
      show Fin.addCases (motive := fun _ => K) (fun j : Fin (m + 1) => t (j, i)) (fun j : Fin (m + 1) => t (j, i) * t (Fin.last m, i)) j = _
      refine Fin.addCases (motive := fun j => Fin.addCases (motive := fun _ => K) (fun j : Fin (m + 1) => t (j, i)) (fun j : Fin (m + 1) => t (j, i) * t (Fin.last m, i)) j
        = x i ^ ((j : ℕ) + 1)) (fun j => ?_) (fun j => ?_) j
      · rw [Fin.addCases_left, ht]; rfl
      · rw [Fin.addCases_right, ht, ht, ← pow_add]
        congr 1
        simp only [Fin.val_natAdd, Fin.val_last]; omega
    · exact ⟨m, t, rfl, by omega, ht⟩

theorem exact_polyTerms (x : ι → K) (len : ℕ) (j : Fin len) (i : ι) : (exactOps K).polyTerms x len (j, i) = x i ^ ((j : ℕ) + 1) := by
  obtain ⟨m', t', h1, h2, h3⟩ := exact_polyGrow x len len 1 ((exactOps K).stack 2 fun j => if j = 0 then x else fun i => x i * x i)
    (fun j i => by
      show (if j = 0 then x else fun i => x i * x i) i = _
      by_cases h : j = 0
      · subst h; simp
      · have : j = 1 := Fin.eq_one_of_ne_zero j h
        subst this; simp [sq]) (by omega)
  have e : (exactOps K).polyTerms x len (j, i) = (match (exactOps K).polyGrow len len 1 ((exactOps K).stack 2 fun j => if j = 0 then x else fun i => x i * x i) with
      | ⟨m, t⟩ => t (⟨min j m, by omega⟩, i)) := rfl
  rw [e, h1]
  show t' _ = _
  rw [h3]
  congr 2
  show min (j : ℕ) m' = j
  omega

/-- **C27: `x.polynomial(coeffs)` is the polynomial with the given coefficients**, from the linear term up, for coefficient lists of every length. -/
theorem C27_polynomial (x : ι → K) (coeffs : List ℚ) (i : ι) :
    (exactOps K).polynomial x coeffs i = ∑ j : Fin coeffs.length, (coeffs.get j : K) * x i ^ ((j : ℕ) + 1) := by
  unfold Ops.polynomial
  split
  · rename_i h
    obtain ⟨a, rfl⟩ := List.length_eq_one_iff.1 h
    show x i * ((([a] : List ℚ).getD 0 0 : ℚ) : K) = _
    simp [mul_comm]
  · show ∑ j : Fin coeffs.length, (exactOps K).polyTerms x coeffs.length (j, i) * ((coeffs.getD j 0 : ℚ) : K) = _
    refine Finset.sum_congr rfl fun j _ => ?_
    rw [exact_polyTerms, mul_comm, List.getD_eq_getElem?_getD, List.getElem?_eq_getElem j.isLt]
    rfl

/-- C27 with encrypted coefficients. -/
theorem C27_polynomial_encrypted (x : ι → K) {len : ℕ} (coeffs : Fin len → K) (i : ι) :
    (exactOps K).polynomialEnc x coeffs i = ∑ j : Fin len, coeffs j * x i ^ ((j : ℕ) + 1) := by
  unfold Ops.polynomialEnc
  split
  · rename_i h
    subst h
    show x i * coeffs 0 = _
    simp [mul_comm]
  · show ∑ j : Fin len, (exactOps K).polyTerms x len (j, i) * coeffs j = _
    refine Finset.sum_congr rfl fun j _ => ?_
    rw [exact_polyTerms, mul_comm]

example : (exactOps ℚ).polynomial (fun _ : Unit => 2) [1, 0, -3, 5, 7] () = 2 - 3 * 8 + 5 * 16 + 7 * 32 := by
  rw [C27_polynomial]; simp [Fin.sum_univ_succ]; norm_num

/-! ## mean and var -/

/-- **C29, mean**: the sum divided by the number of elements. -/
theorem C29_mean {m : ℕ} (x : Fin m × ι → K) (i : ι) : (exactOps K).mean x i = (∑ j, x (j, i)) / m := by
  show (∑ j, x (j, i)) / ((m : ℤ) : K) = _
  rw [Int.cast_natCast]

/-- Sum of squared deviations from the mean. -/
def sqDev {m : ℕ} (x : Fin m → K) : K := ∑ j, (x j - (∑ k, x k) / m) ^ 2

/-- What the code's `var` returns for every size and flag. -/
theorem exact_var {m : ℕ} (unbiased : Bool) (x : Fin m × ι → K) (i : ι) :
    (exactOps K).var unbiased x i =
      if (if unbiased then (m : ℤ) else m - 1) = 0 ∨ (if unbiased then (m : ℤ) else m - 1) = 1 then sqDev (fun j => x (j, i))
      else sqDev (fun j => x (j, i)) / ((if unbiased then (m : ℤ) else m - 1 : ℤ) : K) := by
  have e : ∀ i, (exactOps K).sum ((exactOps K).square ((exactOps K).sub x ((exactOps K).reindex Prod.snd ((exactOps K).mean x)))) i = sqDev (fun j => x (j, i)) := by
    intro i
    show ∑ j, (x (j, i) - (exactOps K).mean x i) * (x (j, i) - (exactOps K).mean x i) = _
    rw [C29_mean, sqDev]
    exact Finset.sum_congr rfl fun j _ => (sq _).symm
  unfold Ops.var
  cases unbiased
  all_goals
    simp only [Bool.false_eq_true, if_false, if_true]
    refine Eq.trans (b := (if _ then _ else _ : ι → K) i) rfl ?_
    split
    · exact e i
    show (exactOps K).sum ((exactOps K).square ((exactOps K).sub x ((exactOps K).reindex Prod.snd ((exactOps K).mean x)))) i / _ = _
    rw [e]

/-- **What `var` computes**: with `unbiased=True` the squared deviations divided by the *count*, with `unbiased=False` by the count *minus one* – the two
cases are exchanged. -/
theorem C29_var_partial {m : ℕ} (x : Fin m × ι → K) (i : ι) :
    (0 < m → (exactOps K).var true x i = sqDev (fun j => x (j, i)) / m) ∧
    (2 ≤ m → (exactOps K).var false x i = sqDev (fun j => x (j, i)) / ((m : K) - 1)) := by
  constructor
  · intro hm
    rw [exact_var]
    simp only [if_true]
    split
    · rename_i h
      have : m = 1 := by omega
      subst this; simp
    · simp
  · intro hm
    rw [exact_var]
    simp only [Bool.false_eq_true, if_false]
    split
    · rename_i h
      have : m = 2 := by omega
      subst this; norm_num
    · push_cast; rfl

/-- **C29 is false for `var`**: for the numbers 0 and 2, `unbiased=True` gives 1 (not 2) and `unbiased=False` gives 2 (not 1). -/
theorem C29_var_wrong : ∃ x : Fin 2 × Unit → ℚ, sqDev (fun j => x (j, ())) / ((2 : ℕ) - 1) = 2 ∧ (exactOps ℚ).var true x () = 1 ∧
    sqDev (fun j => x (j, ())) / (2 : ℕ) = 1 ∧ (exactOps ℚ).var false x () = 2 := by
  refine ⟨fun ji => if ji.1 = 0 then 0 else 2, ?_⟩
  have e : sqDev (fun j : Fin 2 => if j = 0 then (0 : ℚ) else 2) = 2 := by
    simp only [sqDev, Fin.sum_univ_two]; norm_num
  rw [(C29_var_partial _ _).1 (by norm_num), (C29_var_partial _ _).2 (by norm_num)]
  simp only [e]
  norm_num

/-- The default of `var` (`unbiased=False`) differs from the documented value for every sample of two or more numbers that are not all equal to their mean. -/
theorem C29_var_wrong_always {m : ℕ} [IsStrictOrderedRing K] (hm : 2 ≤ m) (x : Fin m × ι → K) (i : ι) (h : sqDev (fun j => x (j, i)) ≠ 0) :
    (exactOps K).var false x i ≠ sqDev (fun j => x (j, i)) / m ∧ (exactOps K).var true x i ≠ sqDev (fun j => x (j, i)) / ((m : K) - 1) := by
  have h0 : (m : K) ≠ 0 := by exact_mod_cast (show m ≠ 0 by omega)
  have h1 : (m : K) - 1 ≠ 0 := by
    have : (1 : K) < m := by exact_mod_cast (show 1 < m by omega)
    exact ne_of_gt (sub_pos.2 this)
  rw [(C29_var_partial x i).1 (by omega), (C29_var_partial x i).2 hm]
  constructor
  all_goals
    intro e
    rw [div_eq_div_iff (by assumption) (by assumption)] at e
    apply h
    first | linear_combination e | linear_combination -e

end CrypTen

import Mathlib.Analysis.Complex.ExponentialBounds
import Verif.Props.Sigmoid

/-!
# softmax as it is computed on shares

The maximum, the exponentials of the differences from it, the reciprocal of their sum and the products, with the losses of every truncation, for two parties and the default
configuration, compared with the softmax function of the real numbers.
-/

namespace CrypTen
variable {n : ℕ} {ι : Type} {k : ℕ}

/-! ## The error of the squarings, linear in the result -/

theorem squareErr_linear (δ : ℚ) : ∀ (L : List (ℚ × ℚ)) (w e α β : ℚ), 0 ≤ w → w ≤ 1 → 0 ≤ e → 0 ≤ δ → e ≤ α * w + β → 0 ≤ α → 0 ≤ β →
    (List.IsChain (fun p q : ℚ × ℚ => (2 + p.1) * p.1 + p.2 * (1 + p.1) ≤ q.1 ∧ p.2 * (1 + p.1) + p.2 * p.2 + δ ≤ q.2) ((α, β) :: L)) →
    squareErr δ L.length w e ≤ (((α, β) :: L).getLast (by simp)).1 * w ^ 2 ^ L.length + (((α, β) :: L).getLast (by simp)).2
  | [], w, e, α, β, _, _, _, _, h, _, _, _ => by simpa [squareErr] using h
  | (a, b) :: L, w, e, α, β, hw, hw1, he, hδ, h, hα, hβ, hc => by
    rw [List.isChain_cons_cons] at hc
    obtain ⟨⟨h1, h2⟩, hc⟩ := hc
    have hww : w * w ≤ 1 := by nlinarith
    have hq : e * (2 * w + e) + δ ≤ a * (w * w) + b := by
      have e1 : e * (2 * w + e) ≤ (α * w + β) * (2 * w + (α * w + β)) := mul_le_mul h (by linarith) (by positivity) (by positivity)
      have e2 : 2 * w ≤ w * w + 1 := by nlinarith [sq_nonneg (w - 1)]
      have e3 : (β * (1 + α)) * (2 * w) ≤ (β * (1 + α)) * (w * w + 1) := mul_le_mul_of_nonneg_left e2 (by positivity)
      have e4 : ((2 + α) * α + β * (1 + α)) * (w * w) ≤ a * (w * w) := mul_le_mul_of_nonneg_right h1 (by positivity)
      nlinarith
    have ha : 0 ≤ a := le_trans (by positivity) h1
    have hb : 0 ≤ b := le_trans (by positivity) h2
    have ih := squareErr_linear δ L (w * w) (e * (2 * w + e) + δ) a b (by positivity) hww (by positivity) hδ hq ha hb hc
    rw [List.length_cons, squareErr, List.getLast_cons (by simp)]
    have e5 : (w * w) ^ 2 ^ L.length = w ^ 2 ^ (L.length + 1) := by rw [← sq, ← pow_mul, ← pow_succ']
    rw [e5] at ih
    exact ih

/-- With two parties, 16 bits and eight squarings of a number between 0 and 1, the error is at most 1.6 % of the result plus 0.0003. -/
theorem squareErr_default (w : ℚ) (h0 : 0 ≤ w) (h1 : w ≤ 1) : squareErr ((2 : ℕ) / 2 ^ 16) 8 w ((2 : ℕ) / 2 ^ 16) ≤ 16 / 1000 * w ^ 2 ^ 8 + 3 / 10000 := by
  have h := squareErr_linear ((2 : ℕ) / 2 ^ 16) [(306 / 10000000, 611 / 10000000), (1224 / 10000000, 917 / 10000000), (3366 / 10000000, 1223 / 10000000), (7957 / 10000000, 1529 / 10000000), (17451 / 10000000, 1836 / 10000000), (36772 / 10000000, 2145 / 10000000), (75833 / 10000000, 2459 / 10000000), (154719 / 10000000, 2784 / 10000000)]
    w ((2 : ℕ) / 2 ^ 16) 0 ((2 : ℕ) / 2 ^ 16) h0 h1 (by positivity) (by positivity) (by simp) (by norm_num) (by positivity) (by
      repeat' (first | exact List.IsChain.singleton _ | (refine List.IsChain.cons_cons ⟨?_, ?_⟩ ?_))
      all_goals norm_num)
  have hw : 0 ≤ w ^ 2 ^ 8 := by positivity
  refine h.trans ?_
  show (154719 / 10000000 : ℚ) * w ^ 2 ^ 8 + 2784 / 10000000 ≤ _
  clear h
  generalize w ^ 2 ^ 8 = W at hw ⊢
  linarith

/-! ## Quotients by a sum -/

/-- If numerators are known up to a relative error `A` and an absolute error `B`, so are their quotients by their sum. -/
theorem quotient_near {m : ℕ} (N num : Fin m → ℚ) (A B θ : ℚ) (hA : 0 ≤ A) (hB : 0 ≤ B) (hθ : 0 < θ) (hN : ∀ j, 0 ≤ N j) (hS : 1 ≤ ∑ j, N j)
    (hnum : ∀ j, |num j - N j| ≤ A * N j + B) (hT : θ * ∑ j, N j ≤ ∑ j, num j) (j : Fin m) :
    |num j / ∑ i, num i - N j / ∑ i, N i| ≤ (A / 2 + m * B) / θ := by
  have hm : (1 : ℚ) ≤ m := by exact_mod_cast Nat.one_le_iff_ne_zero.2 fun h => by subst h; exact j.elim0
  have hR : |(∑ i, num i - num j) - (∑ i, N i - N j)| ≤ A * (∑ i, N i - N j) + (m - 1) * B := by
    have e1 : (∑ i, num i - num j) - (∑ i, N i - N j) = ∑ i ∈ Finset.univ.erase j, (num i - N i) := by
      rw [Finset.sum_sub_distrib, Finset.sum_erase_eq_sub (Finset.mem_univ j), Finset.sum_erase_eq_sub (Finset.mem_univ j)]
    have e2 : A * (∑ i, N i - N j) + (m - 1) * B = ∑ i ∈ Finset.univ.erase j, (A * N i + B) := by
      rw [Finset.sum_add_distrib, ← Finset.mul_sum, Finset.sum_erase_eq_sub (Finset.mem_univ j), Finset.sum_const, Finset.card_erase_of_mem (Finset.mem_univ j), Finset.card_univ,
        Fintype.card_fin, nsmul_eq_mul, Nat.cast_sub (by exact_mod_cast hm), Nat.cast_one]
    rw [e1, e2]
    exact (Finset.abs_sum_le_sum_abs _ _).trans (Finset.sum_le_sum fun i _ => hnum i)
  have hjS : N j ≤ ∑ i, N i := Finset.single_le_sum (f := N) (fun i _ => hN i) (Finset.mem_univ j)
  have h1 := hnum j
  have h0 := hN j
  obtain ⟨S, hS'⟩ : ∃ S, ∑ i, N i = S := ⟨_, rfl⟩
  obtain ⟨T, hT'⟩ : ∃ T, ∑ i, num i = T := ⟨_, rfl⟩
  rw [hS'] at hR hT hS hjS ⊢
  rw [hT'] at hR hT ⊢
  have hS0 : 0 < S := by linarith
  have hT0 : 0 < T := lt_of_lt_of_le (by positivity) hT
  have e : num j / T - N j / S = ((num j - N j) * (S - N j) - N j * ((T - num j) - (S - N j))) / (T * S) := by
    field_simp; ring
  rw [e, abs_div, abs_of_pos (mul_pos hT0 hS0), div_le_div_iff₀ (mul_pos hT0 hS0) hθ]
  have h2 : |(num j - N j) * (S - N j) - N j * ((T - num j) - (S - N j))| ≤ (A * N j + B) * (S - N j) + N j * (A * (S - N j) + (m - 1) * B) := by
    refine (abs_sub _ _).trans (add_le_add ?_ ?_)
    · rw [abs_mul, abs_of_nonneg (by linarith : 0 ≤ S - N j)]
      exact mul_le_mul_of_nonneg_right h1 (by linarith)
    · rw [abs_mul, abs_of_nonneg h0]
      exact mul_le_mul_of_nonneg_left hR h0
  have h3 : (A * N j + B) * (S - N j) + N j * (A * (S - N j) + (m - 1) * B) ≤ (A / 2 + m * B) * (S * S) := by
    have q1 : A * (N j * (S - N j)) ≤ A * (S * S / 4) := mul_le_mul_of_nonneg_left (by nlinarith [sq_nonneg (S - 2 * N j)]) hA
    have q2 : B * (S - N j) ≤ m * B * (S - N j) := mul_le_mul_of_nonneg_right (by nlinarith) (by linarith)
    have q3 : m * B * S ≤ m * B * (S * S) := mul_le_mul_of_nonneg_left (by nlinarith) (by positivity)
    have q4 : 0 ≤ B * N j := mul_nonneg hB h0
    nlinarith
  calc _ ≤ (A / 2 + m * B) * (S * S) * θ := mul_le_mul_of_nonneg_right (h2.trans h3) hθ.le
    _ = (A / 2 + m * B) * (θ * S * S) := by ring
    _ ≤ (A / 2 + m * B) * (T * S) := mul_le_mul_of_nonneg_left (mul_le_mul_of_nonneg_right hT hS0.le) (by positivity)

/-- If numerators are smaller than others, by at most `c`, and add up to at least 1, the quotients by the sums differ by at most `m c`. -/
theorem quotient_below {m : ℕ} (N E : Fin m → ℝ) (c : ℝ) (hN : ∀ j, 0 ≤ N j) (hNE : ∀ j, N j ≤ E j) (hc : ∀ j, E j - N j ≤ c) (hS : 1 ≤ ∑ j, N j) (j : Fin m) :
    |N j / ∑ i, N i - E j / ∑ i, E i| ≤ m * c := by
  have hm : (1 : ℝ) ≤ m := by exact_mod_cast Nat.one_le_iff_ne_zero.2 fun h => by subst h; exact j.elim0
  have hd : ∑ i, E i - ∑ i, N i ≤ m * c := by
    rw [← Finset.sum_sub_distrib]
    refine (Finset.sum_le_sum fun i _ => hc i).trans ?_
    rw [Finset.sum_const, Finset.card_univ, Fintype.card_fin, nsmul_eq_mul]
  have hle : ∑ i, N i ≤ ∑ i, E i := Finset.sum_le_sum fun i _ => hNE i
  have hE0 : 0 ≤ E j := (hN j).trans (hNE j)
  have hjE : E j ≤ ∑ i, E i := Finset.single_le_sum (f := E) (fun i _ => (hN i).trans (hNE i)) (Finset.mem_univ j)
  have h1 := hc j
  have h2 := hNE j
  obtain ⟨S, hS'⟩ : ∃ S, ∑ i, N i = S := ⟨_, rfl⟩
  obtain ⟨T, hT'⟩ : ∃ T, ∑ i, E i = T := ⟨_, rfl⟩
  rw [hS'] at hd hS hle ⊢
  rw [hT'] at hd hle hjE ⊢
  have hc0 : 0 ≤ c := by linarith
  have hS0 : 0 < S := by linarith
  have hT0 : 0 < T := by linarith
  have e : N j / S - E j / T = (E j * (T - S) - (E j - N j) * T) / (S * T) := by field_simp; ring
  rw [e, abs_div, abs_of_pos (mul_pos hS0 hT0), div_le_iff₀ (mul_pos hS0 hT0)]
  have h3 : m * c * T ≤ m * c * (S * T) := mul_le_mul_of_nonneg_left (by nlinarith) (by positivity)
  have h4 : E j * (T - S) ≤ T * (m * c) := mul_le_mul hjE hd (by linarith) hT0.le
  have h5 : (E j - N j) * T ≤ m * c * T := mul_le_mul_of_nonneg_right (h1.trans (by nlinarith)) hT0.le
  have h6 : 0 ≤ E j * (T - S) := mul_nonneg hE0 (by linarith)
  have h7 : 0 ≤ (E j - N j) * T := mul_nonneg (by linarith) hT0.le
  rw [abs_le]
  constructor <;> linarith

theorem sq_mul_exp_le (y : ℝ) (h0 : y ≤ 0) : y ^ 2 * Real.exp y ≤ 56 / 100 := by
  have hE := Real.exp_pos y
  have q1 := Real.add_one_le_exp (-y / 2 - 1)
  have q2 : (-y / 2) ^ 2 ≤ Real.exp (-y / 2 - 1) ^ 2 := pow_le_pow_left₀ (by linarith) (by linarith) 2
  have q3 : Real.exp (-y / 2 - 1) ^ 2 * Real.exp y = Real.exp (-1) ^ 2 := by
    rw [← Real.exp_nat_mul, ← Real.exp_nat_mul, ← Real.exp_add]; congr 1; push_cast; ring
  have q4 : Real.exp (-1) ≤ 37 / 100 := by
    rw [Real.exp_neg, ← one_div, div_le_iff₀ (Real.exp_pos 1)]
    have := Real.exp_one_gt_d9
    linarith
  have q5 : Real.exp (-1) ^ 2 ≤ (37 / 100) ^ 2 := pow_le_pow_left₀ (Real.exp_pos _).le q4 2
  have q6 := mul_le_mul_of_nonneg_right q2 hE.le
  rw [q3] at q6
  have e : (-y / 2) ^ 2 * Real.exp y = y ^ 2 * Real.exp y / 4 := by ring
  rw [e] at q6
  have : ((37 / 100 : ℝ)) ^ 2 ≤ 14 / 100 := by norm_num
  linarith

/-- For arguments that are not positive the approximation of `exp` is below the exponential by at most `0.56 / 2^d`. -/
theorem exp_below (d : ℕ) (y : ℝ) (h0 : y ≤ 0) (h1 : -2 ^ d ≤ y) :
    0 ≤ (1 + y / 2 ^ d) ^ 2 ^ d ∧ (1 + y / 2 ^ d) ^ 2 ^ d ≤ Real.exp y ∧ Real.exp y - (1 + y / 2 ^ d) ^ 2 ^ d ≤ 56 / 100 / 2 ^ d := by
  have hD : (0 : ℝ) < 2 ^ d := by positivity
  obtain ⟨u, hu'⟩ : ∃ u, y / 2 ^ d = u := ⟨_, rfl⟩
  have hyu : y = 2 ^ d * u := by rw [← hu']; field_simp
  have hu1 : -1 ≤ u := by rw [← hu', le_div_iff₀ hD]; linarith
  have hu0 : u ≤ 0 := by rw [← hu']; exact div_nonpos_of_nonpos_of_nonneg h0 hD.le
  have hb : 0 ≤ 1 + u := by linarith
  have he : Real.exp u ^ 2 ^ d = Real.exp y := by rw [← Real.exp_nat_mul, hyu]; push_cast; rfl
  rw [hu']
  refine ⟨pow_nonneg hb _, ?_, ?_⟩
  · rw [← he]
    refine pow_le_pow_left₀ hb ?_ _
    have := Real.add_one_le_exp u; linarith
  · have hu := Real.add_one_le_exp (-u)
    have hpos := Real.exp_pos u
    have hinv : Real.exp u * Real.exp (-u) = 1 := by rw [← Real.exp_add]; simp
    have hu2 : u ^ 2 ≤ 1 := by nlinarith
    have hq : Real.exp u * (1 - u ^ 2) ≤ 1 + u := by
      have e1 : Real.exp u * (1 - u ^ 2) = (1 + u) * (Real.exp u * (1 - u)) := by ring
      rw [e1]
      refine mul_le_of_le_one_right hb ?_
      rw [← hinv]
      exact mul_le_mul_of_nonneg_left (by linarith) hpos.le
    have hbern := one_add_mul_le_pow (a := -u ^ 2) (by linarith) (2 ^ d)
    have hp := pow_le_pow_left₀ (mul_nonneg hpos.le (by linarith)) hq (2 ^ d)
    rw [mul_pow, he] at hp
    have hE := Real.exp_pos y
    have h3 : Real.exp y * (1 - y ^ 2 / 2 ^ d) ≤ (1 + u) ^ 2 ^ d := by
      refine le_trans (mul_le_mul_of_nonneg_left ?_ hE.le) hp
      have e1 : (1 : ℝ) + ((2 ^ d : ℕ) : ℝ) * -u ^ 2 = 1 - y ^ 2 / 2 ^ d := by rw [hyu]; push_cast; field_simp; ring
      rw [e1, ← sub_eq_add_neg] at hbern
      exact hbern
    have hy2 := sq_mul_exp_le y h0
    have : Real.exp y * (1 - y ^ 2 / 2 ^ d) = Real.exp y - y ^ 2 * Real.exp y / 2 ^ d := by ring
    rw [this] at h3
    have h4 : y ^ 2 * Real.exp y / 2 ^ d ≤ 56 / 100 / 2 ^ d := div_le_div_of_nonneg_right hy2 (by positivity)
    linarith

/-! ## softmax -/

theorem sumFirst_value {m : ℕ} {x : AST n (Fin m × ι)} (hx : x.scale = 2 ^ k) {B : ℚ} (hB : ∀ i, |∑ j, x.value (j, i)| ≤ B) (hfit : 2 ^ k * B < 2 ^ 63) (i : ι) :
    x.sumFirst.value i = ∑ j, x.value (j, i) := by
  have h := (near_sumFirst (Near.self hx) hB (by rw [mul_zero, add_zero]; exact hfit)).2 i
  rw [mul_zero] at h
  exact sub_eq_zero.1 (abs_nonpos_iff.1 h)

theorem squareFits_mono (k : ℕ) (δ : ℚ) (hδ : 0 ≤ δ) : ∀ (d : ℕ) (w w' e e' : ℚ), 0 ≤ w → w ≤ w' → 0 ≤ e → e ≤ e' → SquareFits k δ d w' e' → SquareFits k δ d w e
  | 0, _, _, _, _, _, _, _, _, _ => trivial
  | d + 1, w, w', e, e', hw, hww, he, hee, h => by
    refine ⟨lt_of_le_of_lt ?_ h.1, squareFits_mono k δ hδ d _ _ _ _ (by positivity) (mul_le_mul hww hww hw (hw.trans hww)) (by positivity) ?_ h.2⟩
    · exact mul_le_mul_of_nonneg_left (pow_le_pow_left₀ (by positivity) (add_le_add hww hee) 2) (by positivity)
    · have : e * (2 * w + e) ≤ e' * (2 * w' + e') := mul_le_mul hee (by linarith) (by positivity) (he.trans hee)
      linarith

/-- Squares of numbers up to 1 stay in range. -/
theorem squareFits_default (w : ℚ) (h0 : 0 ≤ w) (h1 : w ≤ 1) : SquareFits 16 ((2 : ℕ) / 2 ^ 16) 8 w ((2 : ℕ) / 2 ^ 16) :=
  squareFits_mono 16 _ (by positivity) 8 w 1 _ _ h0 h1 (by positivity) le_rfl (by norm_num [SquareFits])

/-- What the sum of the numerators is worth, and the quotients by it. -/
theorem softmax_numerators {m : ℕ} (hm31 : m ≤ 31) (N num : Fin m → ℚ) (hN0 : ∀ j, 0 ≤ N j) (hN1 : ∀ j, N j ≤ 1) (hS : 1 ≤ ∑ j, N j)
    (hnum : ∀ j, |num j - N j| ≤ 16 / 1000 * N j + 3 / 10000) :
    974 / 1000 ≤ ∑ j, num j ∧ ∑ j, num j ≤ 10163 / 10000 * m ∧ (∀ j, |num j| ≤ 1.01 * ∑ i, num i) ∧ (∀ j, |num j| ≤ 2) ∧
      ∀ j, |num j / ∑ i, num i - N j / ∑ i, N i| ≤ (8 / 1000 + m * (3 / 10000)) / (974 / 1000) := by
  have hm31' : (m : ℚ) ≤ 31 := by exact_mod_cast hm31
  have hd : |∑ j, num j - ∑ j, N j| ≤ 16 / 1000 * ∑ j, N j + m * (3 / 10000) := by
    rw [← Finset.sum_sub_distrib]
    refine (Finset.abs_sum_le_sum_abs _ _).trans ((Finset.sum_le_sum fun j _ => hnum j).trans ?_)
    rw [Finset.sum_add_distrib, ← Finset.mul_sum, Finset.sum_const, Finset.card_univ, Fintype.card_fin, nsmul_eq_mul]
  have hSm : ∑ j, N j ≤ m := by
    refine (Finset.sum_le_sum fun j _ => hN1 j).trans ?_
    rw [Finset.sum_const, Finset.card_univ, Fintype.card_fin, nsmul_eq_mul, mul_one]
  have hd' := abs_le.1 hd
  have hθ : 974 / 1000 * ∑ j, N j ≤ ∑ j, num j := by linarith [hd'.1]
  have hnj : ∀ j, |num j| ≤ 1016 / 1000 * N j + 3 / 10000 := fun j => by
    have h1 := abs_le.1 (hnum j)
    have h2 := hN0 j
    rw [abs_le]; constructor <;> linarith
  refine ⟨by linarith, by linarith [hd'.2], fun j => ?_, fun j => ?_, fun j => ?_⟩
  · have hlow : ∀ i, -(3 / 10000) ≤ num i := fun i => by
      have h1 := abs_le.1 (hnum i); have h2 := hN0 i; linarith
    have hrest : -(m * (3 / 10000)) ≤ ∑ i, num i - num j := by
      rw [← Finset.sum_erase_eq_sub (Finset.mem_univ j)]
      have h1 : ∑ i ∈ Finset.univ.erase j, (-(3 / 10000) : ℚ) ≤ ∑ i ∈ Finset.univ.erase j, num i := Finset.sum_le_sum fun i _ => hlow i
      refine le_trans ?_ h1
      rw [Finset.sum_const, nsmul_eq_mul]
      have h2 : (((Finset.univ.erase j).card : ℕ) : ℚ) ≤ m := by
        exact_mod_cast (Finset.card_le_univ _).trans_eq (Fintype.card_fin m)
      linarith
    have := hlow j
    rw [abs_le]; constructor <;> linarith
  · have h1 := hnj j; have h2 := hN1 j; linarith
  · have := quotient_near N num (16 / 1000) (3 / 10000) (974 / 1000) (by norm_num) (by norm_num) (by norm_num) hN0 hS hnum hθ j
    have e : (16 / 1000 / 2 : ℚ) = 8 / 1000 := by norm_num
    rwa [e] at this

/-- **C53, softmax with the default configuration, two parties and 16 bits**: for two to 31 classes whose scores differ by at most 256, whatever algorithm finds the maximum, the
decrypted results are within `softmaxErr` of the softmax function (0.016 for two classes, 0.045 for ten), and they add up to one up to `softmaxSumErr`. -/
theorem C53_softmax_default_encrypted (method : MaxMethod) {m : ℕ} (hm2 : 2 ≤ m) (hm31 : m ≤ 31) (x : AST 2 (Fin m × ι)) (hx : x.scale = 2 ^ 16)
    (hr : ∀ i j j', x.value (j, i) - x.value (j', i) ≤ 256) :
    Sat ((mpcOps 2 16 method).softmax {} x) fun z => z.scale = 2 ^ 16 ∧ ∀ i,
      (∀ j, |((z.value (j, i) : ℚ) : ℝ) - Real.exp (x.value (j, i) : ℚ) / ∑ j', Real.exp (x.value (j', i) : ℚ)| ≤ (softmaxErr m : ℚ)) ∧
      |∑ j, z.value (j, i) - 1| ≤ softmaxSumErr m := by
  have hm31' : (m : ℚ) ≤ 31 := by exact_mod_cast hm31
  have hxq := scaleQ_of hx
  have hab : ∀ i j j', |x.value (j, i) - x.value (j', i)| ≤ 256 := fun i j j' => by
    have h1 := hr i j j'; have h2 := hr i j' j
    rw [abs_le]; constructor <;> linarith
  unfold Ops.softmax
  rw [if_neg (by omega)]
  refine Sat.bind (C24_max 16 (by norm_num) (by omega) ?_ method x (Or.inr hx) fun k i j => ?_).sat fun mx hmx => ?_
  · calc 2 ^ 16 * m ≤ 2 ^ 16 * 31 := Nat.mul_le_mul_left _ hm31
      _ < 2 ^ 63 := by norm_num
  · rw [hxq]; exact fits_scaled (hab k i j) (by norm_num) (by norm_num)
  -- the differences from the maximum
  have hmxs : (mx.reindex (Prod.snd : Fin m × ι → ι)).scale = 2 ^ 16 := hmx.1.trans hx
  have hmv : ∀ q : Fin m × ι, (mx.reindex Prod.snd).value q = mx.value q.2 := fun q => value_reindex _ _ _
  have hy0 : ∀ q : Fin m × ι, x.value q - mx.value q.2 ≤ 0 := fun q => by
    have := (hmx.2 q.2).2 ⟨q.1, rfl⟩
    have : x.value q ≤ mx.value q.2 := this
    linarith
  have hy1 : ∀ q : Fin m × ι, -256 ≤ x.value q - mx.value q.2 := fun q => by
    obtain ⟨j', hj'⟩ := (hmx.2 q.2).1
    have h1 := hr q.2 j' q.1
    have h2 : mx.value q.2 = x.value (j', q.2) := hj'.symm
    rw [h2]; linarith
  refine Sat.bind (near_sub (k := 16) (Near.self hx) (Near.self hmxs) (B := 256) (fun q => ?_) (by norm_num)).sat fun y hy => ?_
  · rw [hmv, abs_le]; constructor
    · linarith [hy1 q]
    · linarith [hy0 q]
  have hyv : ∀ q, y.value q = x.value q - mx.value q.2 := fun q => by
    have h1 := hy.2 q
    beta_reduce at h1
    rw [add_zero, hmv] at h1
    exact sub_eq_zero.1 (abs_nonpos_iff.1 h1)
  -- the exponentials
  have hw0 : ∀ q, 0 ≤ 1 + y.value q / 2 ^ 8 := fun q => by
    have := hy1 q; rw [hyv, show (2 : ℚ) ^ 8 = 256 by norm_num]; linarith
  have hw1 : ∀ q, 1 + y.value q / 2 ^ 8 ≤ 1 := fun q => by
    have := hy0 q; rw [hyv, show (2 : ℚ) ^ 8 = 256 by norm_num]; linarith
  refine Sat.bind (C53_exp_encrypted_entries (n := 2) (k := 16) (by norm_num) 16 method (by norm_num) 8 (by norm_num) y hy.1 (fun q => 1 + y.value q / 2 ^ 8)
    (fun q => (abs_of_nonneg (hw0 q)).le) (fun q => ?_) fun q => squareFits_default _ (hw0 q) (hw1 q)) fun num hnum => ?_
  · refine lt_of_le_of_lt (mul_le_mul_of_nonneg_left (add_le_add (hw1 q) le_rfl) (by positivity)) (by norm_num)
  obtain ⟨N, hN⟩ : ∃ N : ι → Fin m → ℚ, ∀ i j, N i j = (1 + y.value (j, i) / 2 ^ 8) ^ 2 ^ 8 := ⟨fun i j => _, fun i j => rfl⟩
  have hN0 : ∀ i j, 0 ≤ N i j := fun i j => by rw [hN]; exact pow_nonneg (hw0 _) _
  have hN1 : ∀ i j, N i j ≤ 1 := fun i j => by rw [hN]; exact pow_le_one₀ (hw0 _) (hw1 _)
  have hS : ∀ i, 1 ≤ ∑ j, N i j := fun i => by
    obtain ⟨j', hj'⟩ := (hmx.2 i).1
    have h1 : N i j' = 1 := by
      have : y.value (j', i) = 0 := by rw [hyv]; exact sub_eq_zero.2 hj'
      rw [hN, this, zero_div, add_zero, one_pow]
    rw [← h1]
    exact Finset.single_le_sum (f := N i) (fun j _ => hN0 i j) (Finset.mem_univ j')
  have hne : ∀ i j, |num.value (j, i) - N i j| ≤ 16 / 1000 * N i j + 3 / 10000 := fun i j => by
    rw [hN]
    exact (hnum.2 (j, i)).trans (squareErr_default _ (hw0 _) (hw1 _))
  have hq := fun i => softmax_numerators hm31 (N i) (fun j => num.value (j, i)) (hN0 i) (hN1 i) (hS i) (hne i)
  -- the reciprocal of the sum
  have hsv : ∀ i, num.sumFirst.value i = ∑ j, num.value (j, i) := fun i => by
    refine sumFirst_value hnum.1 (B := 32) (fun i => ?_) (by norm_num) i
    have h1 := (hq i).1; have h2 := (hq i).2.1
    rw [abs_le]; constructor <;> linarith
  choose w ρ hg hb using fun i => recip_default (num.sumFirst.value i) (by rw [hsv]; linarith [(hq i).1]) (by rw [hsv]; linarith [(hq i).2.1])
  have hrec := C53_reciprocal_positive_encrypted (n := 2) (k := 16) (by norm_num) 16 method (by norm_num) (by norm_num) (by norm_num) { recipAllPos := true } rfl rfl (by norm_num)
    num.sumFirst hnum.1 w ρ hg
  have hrec' : Sat ((mpcOps 2 16 method).reciprocal { recipAllPos := true } num.sumFirst) fun z => z.scale = 2 ^ 16 ∧
      ∀ i, |1 - (∑ j, num.value (j, i)) * z.value i| ≤ softmaxRecipErr m := by
    unfold Ops.reciprocal
    simp only [if_true]
    refine hrec.mono fun z hz => ⟨hz.1, fun i => ?_⟩
    rw [← hsv]
    refine (hz.2 i).trans ((hb i).trans ?_)
    have h2 := (hq i).2.1
    rw [hsv]
    unfold softmaxRecipErr
    by_cases h3 : m ≤ 3
    · have : (m : ℚ) ≤ 3 := by exact_mod_cast h3
      rw [if_pos h3, if_pos (by linarith)]
    rw [if_neg h3]
    by_cases h15 : m ≤ 15
    · have : (m : ℚ) ≤ 15 := by exact_mod_cast h15
      rw [if_pos h15]
      split
      · norm_num
      · rw [if_pos (by linarith)]
    rw [if_neg h15]
    split
    · norm_num
    · split <;> norm_num
  refine Sat.bind hrec' fun inv hinv => ?_
  have hρ1 : softmaxRecipErr m ≤ 1 / 25 := by unfold softmaxRecipErr; split <;> [norm_num; (split <;> norm_num)]
  have hρ0 : 0 ≤ softmaxRecipErr m := by unfold softmaxRecipErr; split <;> [norm_num; (split <;> norm_num)]
  have hiv : ∀ i, |inv.value i| ≤ 2 := fun i => by
    have h1 := (hq i).1
    have h2 := abs_near (a := (∑ j, num.value (j, i)) * inv.value i) (b := 1) (e := 1 / 25) (by rw [abs_sub_comm]; exact (hinv.2 i).trans hρ1) (abs_one.le : |(1 : ℚ)| ≤ 1)
    rw [abs_mul, abs_of_pos (by linarith)] at h2
    have h3 := abs_nonneg (inv.value i)
    nlinarith
  have hivs : (inv.reindex (Prod.snd : Fin m × ι → ι)).scale = 2 ^ 16 := hinv.1
  refine (near_mul (n := 2) (by norm_num) (by norm_num) (by norm_num) (Near.self hnum.1) (Near.self hivs) (B := 2) (C := 2) (fun q => (hq q.2).2.2.2.1 q.1)
    (fun q => by rw [value_reindex]; exact hiv q.2) (by norm_num)).mono fun z hz => ⟨hz.1, fun i => ?_⟩
  have hzv : ∀ j, |z.value (j, i) - num.value (j, i) * inv.value i| ≤ 2 / 2 ^ 16 := fun j => by
    have h1 := hz.2 (j, i)
    beta_reduce at h1
    rw [value_reindex] at h1
    refine h1.trans (by norm_num)
  have hT0 : 0 < ∑ j, num.value (j, i) := lt_of_lt_of_le (by norm_num) (hq i).1
  refine ⟨fun j => ?_, ?_⟩
  · -- an entry
    have h1 : |num.value (j, i) * inv.value i - num.value (j, i) / ∑ j', num.value (j', i)| ≤ 1.01 * softmaxRecipErr m := by
      have e : num.value (j, i) * inv.value i - num.value (j, i) / ∑ j', num.value (j', i)
          = -(num.value (j, i) / (∑ j', num.value (j', i)) * (1 - (∑ j', num.value (j', i)) * inv.value i)) := by
        field_simp; ring
      rw [e, abs_neg, abs_mul]
      refine mul_le_mul ?_ (hinv.2 i) (abs_nonneg _) (by norm_num)
      rw [abs_div, abs_of_pos hT0, div_le_iff₀ hT0]
      exact (hq i).2.2.1 j
    have h2 := (hq i).2.2.2.2 j
    have h3 : |z.value (j, i) - N i j / ∑ j', N i j'| ≤ 2 / 2 ^ 16 + 1.01 * softmaxRecipErr m + (8 / 1000 + m * (3 / 10000)) / (974 / 1000) := by
      have e : z.value (j, i) - N i j / ∑ j', N i j' = (z.value (j, i) - num.value (j, i) * inv.value i)
          + (num.value (j, i) * inv.value i - num.value (j, i) / ∑ j', num.value (j', i)) + (num.value (j, i) / (∑ j', num.value (j', i)) - N i j / ∑ j', N i j') := by ring
      rw [e]
      exact (abs_add_le _ _).trans (add_le_add ((abs_add_le _ _).trans (add_le_add (hzv j) h1)) h2)
    have h3' := (Rat.cast_le (K := ℝ)).2 h3
    have hbel : ∀ j, 0 ≤ ((N i j : ℚ) : ℝ) ∧ ((N i j : ℚ) : ℝ) ≤ Real.exp (y.value (j, i) : ℚ) ∧ Real.exp (y.value (j, i) : ℚ) - ((N i j : ℚ) : ℝ) ≤ 56 / 100 / 2 ^ 8 := fun j => by
      have a0 : ((y.value (j, i) : ℚ) : ℝ) ≤ 0 := by rw [hyv]; exact_mod_cast hy0 (j, i)
      have a1 : -2 ^ 8 ≤ ((y.value (j, i) : ℚ) : ℝ) := by
        have := hy1 (j, i)
        rw [← hyv] at this
        have := (Rat.cast_le (K := ℝ)).2 this
        push_cast at this
        norm_num
        exact this
      have := exp_below 8 _ a0 a1
      have e : ((N i j : ℚ) : ℝ) = (1 + ((y.value (j, i) : ℚ) : ℝ) / 2 ^ 8) ^ 2 ^ 8 := by rw [hN, Rat.cast_pow, Rat.cast_add, Rat.cast_div, Rat.cast_pow]; simp only [Rat.cast_one, Rat.cast_ofNat]
      rw [e]; exact this
    have hSr : (1 : ℝ) ≤ ∑ j, ((N i j : ℚ) : ℝ) := by
      have := (Rat.cast_le (K := ℝ)).2 (hS i)
      rwa [Rat.cast_one, Rat.cast_sum] at this
    have h4 := quotient_below (fun j => ((N i j : ℚ) : ℝ)) (fun j => Real.exp (y.value (j, i) : ℚ)) (56 / 100 / 2 ^ 8) (fun j => (hbel j).1) (fun j => (hbel j).2.1)
      (fun j => (hbel j).2.2) hSr j
    have hsoft : Real.exp (x.value (j, i) : ℚ) / ∑ j', Real.exp (x.value (j', i) : ℚ) = Real.exp (y.value (j, i) : ℚ) / ∑ j', Real.exp (y.value (j', i) : ℚ) := by
      have e : ∀ j, Real.exp (x.value (j, i) : ℚ) = Real.exp (y.value (j, i) : ℚ) * Real.exp (mx.value i : ℚ) := fun j => by
        rw [← Real.exp_add, hyv]; congr 1; push_cast; ring
      simp only [e]
      rw [← Finset.sum_mul, mul_div_mul_right _ _ (Real.exp_pos _).ne']
    rw [hsoft]
    have h5 := abs_add_le (((z.value (j, i) : ℚ) : ℝ) - ((N i j : ℚ) : ℝ) / ∑ j', ((N i j' : ℚ) : ℝ))
      (((N i j : ℚ) : ℝ) / ∑ j', ((N i j' : ℚ) : ℝ) - Real.exp (y.value (j, i) : ℚ) / ∑ j', Real.exp (y.value (j', i) : ℚ))
    rw [sub_add_sub_cancel] at h5
    have h6 : |((z.value (j, i) : ℚ) : ℝ) - ((N i j : ℚ) : ℝ) / ∑ j', ((N i j' : ℚ) : ℝ)|
        ≤ ((2 / 2 ^ 16 + 1.01 * softmaxRecipErr m + (8 / 1000 + m * (3 / 10000)) / (974 / 1000) : ℚ) : ℝ) := by
      rw [Rat.cast_abs, Rat.cast_sub, Rat.cast_div, Rat.cast_sum] at h3'
      exact h3'
    refine h5.trans ((add_le_add h6 h4).trans ?_)
    have h7 : (m : ℝ) * (56 / 100 / 2 ^ 8) = ((m * (56 / 100 / 2 ^ 8) : ℚ) : ℝ) := by push_cast; rfl
    rw [h7, ← Rat.cast_add, Rat.cast_le]
    unfold softmaxErr
    have hm0 : (0 : ℚ) ≤ m := by positivity
    norm_num
    linarith
  · -- the sum
    have e : ∑ j, z.value (j, i) - 1 = ∑ j, (z.value (j, i) - num.value (j, i) * inv.value i) - (1 - (∑ j, num.value (j, i)) * inv.value i) := by
      rw [Finset.sum_sub_distrib, ← Finset.sum_mul]; ring
    rw [e]
    refine (abs_sub _ _).trans ?_
    have h1 : |∑ j, (z.value (j, i) - num.value (j, i) * inv.value i)| ≤ m * (2 / 2 ^ 16) := by
      refine (Finset.abs_sum_le_sum_abs _ _).trans ((Finset.sum_le_sum fun j _ => hzv j).trans ?_)
      rw [Finset.sum_const, Finset.card_univ, Fintype.card_fin, nsmul_eq_mul]
    have := add_le_add h1 (hinv.2 i)
    unfold softmaxSumErr
    linarith

/-- The hypotheses are met, by the scores 0, 3 and -20, and the bounds are those of the text. -/
example : ∃ x : AST 2 (Fin 3 × Unit), x.scale = 2 ^ 16 ∧ x.value (0, ()) = 0 ∧ x.value (1, ()) = 3 ∧ x.value (2, ()) = -20 ∧ (∀ i j j', x.value (j, i) - x.value (j', i) ≤ 256) ∧
    softmaxErr 2 = 0.016 ∧ softmaxErr 10 = 0.045 := by
  refine ⟨⟨fun p q => if p = 0 then 5 else if q.1 = 0 then -5 else if q.1 = 1 then 196603 else -1310725, 2 ^ 16⟩, rfl, ?_⟩
  have h0 : AST.value (⟨fun p q => if p = 0 then 5 else if q.1 = 0 then -5 else if q.1 = 1 then 196603 else -1310725, 2 ^ 16⟩ : AST 2 (Fin 3 × Unit)) (0, ()) = 0 := by
    have e : (reveal (fun p q => if p = 0 then 5 else if q.1 = 0 then -5 else if q.1 = 1 then 196603 else -1310725 : Shares 2 (Fin 3 × Unit)) (0, ())).toInt = 0 := by
      rw [reveal_apply]; decide
    rw [AST.value, e]; norm_num
  have h1 : AST.value (⟨fun p q => if p = 0 then 5 else if q.1 = 0 then -5 else if q.1 = 1 then 196603 else -1310725, 2 ^ 16⟩ : AST 2 (Fin 3 × Unit)) (1, ()) = 3 := by
    have e : (reveal (fun p q => if p = 0 then 5 else if q.1 = 0 then -5 else if q.1 = 1 then 196603 else -1310725 : Shares 2 (Fin 3 × Unit)) (1, ())).toInt = 196608 := by
      rw [reveal_apply]; decide
    rw [AST.value, e]; norm_num
  have h2 : AST.value (⟨fun p q => if p = 0 then 5 else if q.1 = 0 then -5 else if q.1 = 1 then 196603 else -1310725, 2 ^ 16⟩ : AST 2 (Fin 3 × Unit)) (2, ()) = -20 := by
    have e : (reveal (fun p q => if p = 0 then 5 else if q.1 = 0 then -5 else if q.1 = 1 then 196603 else -1310725 : Shares 2 (Fin 3 × Unit)) (2, ())).toInt = -1310720 := by
      rw [reveal_apply]; decide
    rw [AST.value, e]; norm_num
  refine ⟨h0, h1, h2, fun i j j' => ?_, by norm_num [softmaxErr, softmaxRecipErr], by norm_num [softmaxErr, softmaxRecipErr]⟩
  fin_cases j <;> fin_cases j' <;> simp only [Fin.zero_eta, Fin.mk_one, Fin.reduceFinMk, h0, h1, h2] <;> norm_num

end CrypTen

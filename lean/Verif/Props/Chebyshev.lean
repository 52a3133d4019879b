import Verif.Lemmas.Chebyshev
import Verif.Props.Activation

/-!
C53: `tanh` and `sigmoid` with the method "chebyshev", from the coefficients that `chebyshev_series` computes.
-/

open Finset Polynomial Polynomial.Chebyshev

namespace CrypTen
open Cheb
variable {ι : Type}

/-- **C53, Chebyshev coefficients**: the series (with half the first coefficient) takes the values of the function at the points the coefficients are computed from. -/
theorem C53_series_interpolates (f : ℝ → ℝ) (w : ℝ) (n k : ℕ) (hk : k < n) :
    chebyshevSeries f w n 0 / 2 + ∑ j ∈ Finset.Ico 1 n, chebyshevSeries f w n j * (T ℝ j).eval (Real.cos ((k + 1 / 2) * Real.pi / n))
      = f (w * Real.cos ((k + 1 / 2) * Real.pi / n)) := by
  have e : (k + 1 / 2 : ℝ) * Real.pi / n = angle n k := by unfold angle; norm_num
  rw [e, ← interpolates f w hk, Finset.sum_Ico_eq_sum_range]
  congr 1
  refine sum_congr rfl fun j _ => ?_
  rw [add_comm 1 j, T_real_cos]
  push_cast; rfl

/-- Five terms of the series of the absolute value on `[-3, 3]`, at the last point. -/
example : chebyshevSeries (fun x => |x|) 3 5 0 / 2 + ∑ j ∈ Finset.Ico 1 5, chebyshevSeries (fun x => |x|) 3 5 j * (T ℝ j).eval (Real.cos (((4 : ℕ) + 1 / 2) * Real.pi / (5 : ℕ)))
    = |3 * Real.cos (((4 : ℕ) + 1 / 2) * Real.pi / (5 : ℕ))| := C53_series_interpolates _ 3 5 4 (by norm_num)

theorem tanh_odd (x : ℝ) : Real.tanh (-x) = -Real.tanh x := Real.tanh_neg x

theorem oddSeries_degree (c : ℕ → ℝ) (m : ℕ) (hm : 0 < m) : (oddSeries c m).natDegree < 2 * m := by
  unfold oddSeries
  refine lt_of_le_of_lt (natDegree_sum_le_of_forall_le (n := 2 * m - 1) _ _ fun a ha => ?_) (by omega)
  refine (natDegree_C_mul_le _ _).trans ?_
  rw [natDegree_T]
  have := mem_range.1 ha
  omega

theorem clamp_close {p t : ℝ} (ht : |t| ≤ 1) : |max (-1) (min 1 p) - t| ≤ |p - t| := by
  have := abs_le.1 ht
  rcases le_total p (-1) with h | h
  · rw [min_eq_right (by linarith), max_eq_left h, abs_of_nonpos (by linarith), abs_of_nonpos (by linarith)]; linarith
  · rcases le_total p 1 with h' | h'
    · rw [min_eq_right h', max_eq_right h]
    · rw [min_eq_left h', max_eq_right (by norm_num), abs_of_nonneg (by linarith), abs_of_nonneg (by linarith)]; linarith

/-- **C53, tanh by Chebyshev polynomials, accuracy**: with coefficients that are off by at most `e` (rounding to floats and to fixed point), the result is off by at most
`4 / 2 ^ terms + terms / 2 * e` for inputs in `[-1, 1]`. Exact arithmetic otherwise. -/
theorem C53_tanh_chebyshev_accuracy (c : FunCfg) (h6 : 6 ≤ c.sigmoidTerms) (heven : Even c.sigmoidTerms) (coeffs : ℕ → ℚ) (e : ℝ)
    (he : ∀ a < c.sigmoidTerms / 2, |(coeffs a : ℝ) - chebyshevSeries Real.tanh 1 c.sigmoidTerms (2 * a + 1)| ≤ e) (x : ι → ℝ) (i : ι) (hx : |x i| ≤ 1) :
    |(exactOps ℝ).tanhChebyshev c coeffs x i - Real.tanh (x i)| ≤ 4 / 2 ^ c.sigmoidTerms + c.sigmoidTerms / 2 * e := by
  rw [C53_tanh_chebyshev c h6]
  refine (clamp_close (Real.abs_tanh_lt_one _).le).trans ?_
  set n := c.sigmoidTerms
  let p := oddSeries (fun a => chebyshevSeries Real.tanh 1 n (2 * a + 1)) (n / 2)
  have h1 : |Real.tanh (x i) - p.eval (x i)| ≤ 2 / 2 ^ (n - 1) := by
    refine interpolation_error contDiff_tanh (by omega) ?_ (fun k hk => ?_) (fun ξ _ => iteratedDeriv_tanh_le n ξ) hx
    · have := oddSeries_degree (fun a => chebyshevSeries Real.tanh 1 n (2 * a + 1)) (n / 2) (by omega)
      have h2 : 2 * (n / 2) = n := Nat.two_mul_div_two_of_even heven
      rwa [h2] at this
    · have := odd_interpolates tanh_odd 1 heven hk
      rwa [one_mul] at this
  have e2 : (2 : ℝ) / 2 ^ (n - 1) = 4 / 2 ^ n := by
    obtain ⟨m, hm⟩ : ∃ m, n = m + 1 := ⟨n - 1, by omega⟩
    rw [hm, Nat.add_sub_cancel, pow_succ]; field_simp; norm_num
  rw [e2] at h1
  have h3 : |(∑ a ∈ range (n / 2), (T ℝ (2 * a + 1)).eval (x i) * (coeffs a : ℝ)) - p.eval (x i)| ≤ n / 2 * e := by
    have ep : p.eval (x i) = ∑ a ∈ range (n / 2), (T ℝ (2 * a + 1)).eval (x i) * chebyshevSeries Real.tanh 1 n (2 * a + 1) := by
      show (oddSeries _ _).eval (x i) = _
      rw [oddSeries, eval_finsetSum]
      exact sum_congr rfl fun a _ => by rw [eval_mul, eval_C]; ring
    rw [ep, ← sum_sub_distrib]
    refine (abs_sum_le_sum_abs _ _).trans ((sum_le_sum (g := fun _ => e) fun a ha => ?_).trans ?_)
    · rw [← mul_sub, abs_mul]
      have ht := abs_eval_T_real_le_one (2 * a + 1) hx
      have hc := he a (mem_range.1 ha)
      have := abs_nonneg ((coeffs a : ℝ) - chebyshevSeries Real.tanh 1 n (2 * a + 1))
      exact (mul_le_of_le_one_left this ht).trans hc
    · have : ((n / 2 : ℕ) : ℝ) = n / 2 := by
        obtain ⟨m, hm⟩ := heven
        rw [hm]
        have : (m + m) / 2 = m := by omega
        rw [this]; push_cast; ring
      rw [sum_const, card_range, nsmul_eq_mul, this]
  have := abs_sub_le (∑ a ∈ range (n / 2), (T ℝ (2 * a + 1)).eval (x i) * (coeffs a : ℝ)) (p.eval (x i)) (Real.tanh (x i))
  rw [abs_sub_comm (p.eval (x i))] at this
  linarith

/-- Rational coefficients near the series exist. -/
theorem coeffs_exist (f : ℝ → ℝ) (w : ℝ) (n : ℕ) {e : ℝ} (he : 0 < e) : ∃ coeffs : ℕ → ℚ, ∀ a, |(coeffs a : ℝ) - chebyshevSeries f w n (2 * a + 1)| ≤ e := by
  have : ∀ a, ∃ q : ℚ, |(q : ℝ) - chebyshevSeries f w n (2 * a + 1)| ≤ e := fun a => by
    obtain ⟨q, h1, h2⟩ := exists_rat_btwn (show chebyshevSeries f w n (2 * a + 1) < chebyshevSeries f w n (2 * a + 1) + e by linarith)
    exact ⟨q, by rw [abs_of_nonneg (by linarith)]; linarith⟩
  choose q hq using this
  exact ⟨q, hq⟩

/-- The default configuration (32 terms) with coefficients rounded to 16 bits, at 1/3: off by less than 1/4000. -/
example : ∃ coeffs : ℕ → ℚ, |(exactOps ℝ).tanhChebyshev {} coeffs (fun _ : Unit => 1 / 3) () - Real.tanh (1 / 3)| ≤ 1 / 4000 := by
  obtain ⟨q, hq⟩ := coeffs_exist Real.tanh 1 32 (e := 1 / 2 ^ 16) (by norm_num)
  have := C53_tanh_chebyshev_accuracy {} (by norm_num) ⟨16, rfl⟩ q (1 / 2 ^ 16) (fun a _ => hq a) (fun _ : Unit => 1 / 3) () (by rw [abs_of_pos] <;> norm_num)
  refine ⟨q, this.trans ?_⟩
  norm_num

theorem sigmoid_chebyshev_eq (c : FunCfg) (hs : c.sigmoidMethod = .chebyshev) (coeffs : ℕ → ℚ) (x : ι → ℝ) (i : ι) :
    (exactOps ℝ).sigmoid c coeffs x i = (exactOps ℝ).tanhChebyshev c coeffs (fun i => x i / 2) i / 2 + 0.5 := by
  unfold Ops.sigmoid
  rw [hs]
  have : (fun i => x i / ((2 : ℤ) : ℝ)) = fun i => x i / 2 := by funext i; norm_num
  show (exactOps ℝ).tanhChebyshev c coeffs (fun i => x i / ((2 : ℤ) : ℝ)) i / ((2 : ℤ) : ℝ) + (((0.5 : ℚ)) : ℝ) = _
  rw [this]; norm_num

/-- **C53, sigmoid by Chebyshev polynomials, accuracy**: half the error of `tanh`, for inputs in `[-2, 2]`. -/
theorem C53_sigmoid_chebyshev_accuracy (c : FunCfg) (hs : c.sigmoidMethod = .chebyshev) (h6 : 6 ≤ c.sigmoidTerms) (heven : Even c.sigmoidTerms) (coeffs : ℕ → ℚ) (e : ℝ)
    (he : ∀ a < c.sigmoidTerms / 2, |(coeffs a : ℝ) - chebyshevSeries Real.tanh 1 c.sigmoidTerms (2 * a + 1)| ≤ e) (x : ι → ℝ) (i : ι) (hx : |x i| ≤ 2) :
    |(exactOps ℝ).sigmoid c coeffs x i - 1 / (1 + Real.exp (-x i))| ≤ (4 / 2 ^ c.sigmoidTerms + c.sigmoidTerms / 2 * e) / 2 := by
  have h := C53_tanh_chebyshev_accuracy c h6 heven coeffs e he (fun i => x i / 2) i (by rw [abs_div, abs_two]; linarith)
  have e1 := sigmoid_chebyshev_eq c hs coeffs x i
  have e2 : 1 / (1 + Real.exp (-x i)) = Real.tanh (x i / 2) / 2 + 0.5 := by
    rw [Real.tanh_eq]
    have h1 := Real.exp_pos (x i / 2)
    have h2 := Real.exp_pos (-(x i / 2))
    have h3 : Real.exp (-x i) = Real.exp (-(x i / 2)) * Real.exp (-(x i / 2)) := by rw [← Real.exp_add]; congr 1; ring
    have h4 : Real.exp (x i / 2) * Real.exp (-(x i / 2)) = 1 := by rw [← Real.exp_add]; simp
    rw [h3]
    generalize Real.exp (-(x i / 2)) = b at *
    generalize Real.exp (x i / 2) = a at *
    have h5 : 0 < 1 + b * b := by positivity
    field_simp
    nlinarith
  rw [e1, e2, show (exactOps ℝ).tanhChebyshev c coeffs (fun i => x i / 2) i / 2 + 0.5 - (Real.tanh (x i / 2) / 2 + 0.5)
    = ((exactOps ℝ).tanhChebyshev c coeffs (fun i => x i / 2) i - Real.tanh (x i / 2)) / 2 by ring, abs_div, abs_two]
  linarith

/-! ## Outside `[-1, 1]` -/

theorem tanh_between {x q1 q2 L H : ℝ} (h1 : q1 ≤ x) (h2 : x ≤ q2) (hL0 : 0 ≤ L) (hL : L ≤ Real.exp q1) (hH : Real.exp q2 ≤ H) :
    1 - 2 / (L ^ 2 + 1) ≤ Real.tanh x ∧ Real.tanh x ≤ 1 - 2 / (H ^ 2 + 1) := by
  have e : Real.tanh x = 1 - 2 / (Real.exp x ^ 2 + 1) := by
    rw [Real.tanh_eq, Real.exp_neg]
    have := Real.exp_pos x
    field_simp
    ring
  have ha : L ≤ Real.exp x := hL.trans (Real.exp_le_exp.2 h1)
  have hb : Real.exp x ≤ H := (Real.exp_le_exp.2 h2).trans hH
  have hx := Real.exp_pos x
  rw [e]
  constructor
  · have : L ^ 2 ≤ Real.exp x ^ 2 := pow_le_pow_left₀ hL0 ha 2
    gcongr
  · have : Real.exp x ^ 2 ≤ H ^ 2 := pow_le_pow_left₀ hx.le hb 2
    gcongr

theorem exp_between {q : ℝ} (h0 : 0 ≤ q) (h1 : q ≤ 1) :
    (∑ m ∈ range 9, q ^ m / m.factorial) ≤ Real.exp q ∧ Real.exp q ≤ (∑ m ∈ range 9, q ^ m / m.factorial) + q ^ 9 * (9 + 1) / (362880 * 9) := by
  refine ⟨Real.sum_le_exp_of_nonneg h0 9, ?_⟩
  have := Real.exp_bound' h0 h1 (n := 9) (by norm_num)
  norm_num [Nat.factorial] at this ⊢
  exact this

/-- The four points in `(0, 1)` for eight terms. -/
theorem nodes8 : (0.980785 ≤ Real.cos (angle 8 0) ∧ Real.cos (angle 8 0) ≤ 0.980786) ∧ (0.831469 ≤ Real.cos (angle 8 1) ∧ Real.cos (angle 8 1) ≤ 0.831470)
    ∧ (0.555570 ≤ Real.cos (angle 8 2) ∧ Real.cos (angle 8 2) ≤ 0.555571) ∧ (0.195090 ≤ Real.cos (angle 8 3) ∧ Real.cos (angle 8 3) ≤ 0.195091) := by
  have hp := Real.pi_pos
  have hs : 1.41421356 ≤ √2 ∧ √2 ≤ 1.41421357 := by
    constructor
    · exact Real.le_sqrt_of_sq_le (by norm_num)
    · exact Real.sqrt_le_iff.2 ⟨by norm_num, by norm_num⟩
  have bnd : ∀ {y lo hi : ℝ}, 0 ≤ y → 0 ≤ lo → 0 ≤ hi → lo ^ 2 ≤ y ^ 2 → y ^ 2 ≤ hi ^ 2 → lo ≤ y ∧ y ≤ hi := fun hy hlo hhi h1 h2 =>
    ⟨le_of_sq_le_sq h1 hy, le_of_sq_le_sq h2 hhi⟩
  have e1 : Real.cos (Real.pi / 8) ^ 2 = (1 + √2 / 2) / 2 := by
    rw [Real.cos_sq, show 2 * (Real.pi / 8) = Real.pi / 4 by ring, Real.cos_pi_div_four]; ring
  have e2 : Real.cos (3 * Real.pi / 8) ^ 2 = (1 - √2 / 2) / 2 := by
    rw [Real.cos_sq, show 2 * (3 * Real.pi / 8) = Real.pi - Real.pi / 4 by ring, Real.cos_pi_sub, Real.cos_pi_div_four]; ring
  have b := bnd (y := Real.cos (Real.pi / 8)) (lo := 0.9238795) (hi := 0.9238796) (Real.cos_nonneg_of_mem_Icc ⟨by linarith, by linarith⟩) (by norm_num) (by norm_num) (by rw [e1]; norm_num; linarith) (by rw [e1]; norm_num; linarith)
  have a := bnd (y := Real.cos (3 * Real.pi / 8)) (lo := 0.3826834) (hi := 0.3826835) (Real.cos_nonneg_of_mem_Icc ⟨by linarith, by linarith⟩) (by norm_num) (by norm_num) (by rw [e2]; norm_num; linarith) (by rw [e2]; norm_num; linarith)
  have s0 : Real.cos (angle 8 0) ^ 2 = (1 + Real.cos (Real.pi / 8)) / 2 := by
    rw [Real.cos_sq, show 2 * angle 8 0 = Real.pi / 8 by unfold angle; push_cast; ring]; ring
  have s1 : Real.cos (angle 8 1) ^ 2 = (1 + Real.cos (3 * Real.pi / 8)) / 2 := by
    rw [Real.cos_sq, show 2 * angle 8 1 = 3 * Real.pi / 8 by unfold angle; push_cast; ring]; ring
  have s2 : Real.cos (angle 8 2) ^ 2 = (1 - Real.cos (3 * Real.pi / 8)) / 2 := by
    rw [Real.cos_sq, show 2 * angle 8 2 = Real.pi - 3 * Real.pi / 8 by unfold angle; push_cast; ring, Real.cos_pi_sub]; ring
  have s3 : Real.cos (angle 8 3) ^ 2 = (1 - Real.cos (Real.pi / 8)) / 2 := by
    rw [Real.cos_sq, show 2 * angle 8 3 = Real.pi - Real.pi / 8 by unfold angle; push_cast; ring, Real.cos_pi_sub]; ring
  have pos : ∀ k : ℕ, k < 4 → 0 ≤ Real.cos (angle 8 k) := fun k hk => by
    have hk' : (k : ℝ) ≤ 3 := by exact_mod_cast (by omega : k ≤ 3)
    have : (0 : ℝ) ≤ k := by positivity
    refine Real.cos_nonneg_of_mem_Icc ⟨?_, ?_⟩ <;> unfold angle <;> push_cast <;> nlinarith
  exact ⟨bnd (pos 0 (by norm_num)) (by norm_num) (by norm_num) (by rw [s0]; norm_num [-Real.cos_pi_div_eight]; linarith) (by rw [s0]; norm_num [-Real.cos_pi_div_eight]; linarith),
    bnd (pos 1 (by norm_num)) (by norm_num) (by norm_num) (by rw [s1]; norm_num [-Real.cos_pi_div_eight]; linarith) (by rw [s1]; norm_num [-Real.cos_pi_div_eight]; linarith),
    bnd (pos 2 (by norm_num)) (by norm_num) (by norm_num) (by rw [s2]; norm_num [-Real.cos_pi_div_eight]; linarith) (by rw [s2]; norm_num [-Real.cos_pi_div_eight]; linarith),
    bnd (pos 3 (by norm_num)) (by norm_num) (by norm_num) (by rw [s3]; norm_num [-Real.cos_pi_div_eight]; linarith) (by rw [s3]; norm_num [-Real.cos_pi_div_eight]; linarith)⟩

/-- tanh at these points. -/
theorem tanh8 : (0.75340 ≤ Real.tanh (Real.cos (angle 8 0)) ∧ Real.tanh (Real.cos (angle 8 0)) ≤ 0.75341) ∧ (0.68126 ≤ Real.tanh (Real.cos (angle 8 1)) ∧ Real.tanh (Real.cos (angle 8 1)) ≤ 0.68127)
    ∧ (0.50468 ≤ Real.tanh (Real.cos (angle 8 2)) ∧ Real.tanh (Real.cos (angle 8 2)) ≤ 0.50469) ∧ (0.19265 ≤ Real.tanh (Real.cos (angle 8 3)) ∧ Real.tanh (Real.cos (angle 8 3)) ≤ 0.19266) := by
  obtain ⟨⟨a1, a2⟩, ⟨b1, b2⟩, ⟨c1, c2⟩, ⟨d1, d2⟩⟩ := nodes8
  have go : ∀ {x q1 q2 : ℝ}, q1 ≤ x → x ≤ q2 → 0 ≤ q1 → q2 ≤ 1 → q1 ≤ q2 →
      1 - 2 / ((∑ m ∈ range 9, q1 ^ m / m.factorial) ^ 2 + 1) ≤ Real.tanh x ∧ Real.tanh x ≤ 1 - 2 / (((∑ m ∈ range 9, q2 ^ m / m.factorial) + q2 ^ 9 * (9 + 1) / (362880 * 9)) ^ 2 + 1) := fun h1 h2 h3 h4 h5 =>
    tanh_between h1 h2 (sum_nonneg fun m _ => by positivity) (exp_between h3 (h5.trans h4)).1 (exp_between (h3.trans h5) h4).2
  have ha := go a1 a2 (by norm_num) (by norm_num) (by norm_num)
  have hb := go b1 b2 (by norm_num) (by norm_num) (by norm_num)
  have hc := go c1 c2 (by norm_num) (by norm_num) (by norm_num)
  have hd := go d1 d2 (by norm_num) (by norm_num) (by norm_num)
  refine ⟨⟨le_trans ?_ ha.1, ha.2.trans ?_⟩, ⟨le_trans ?_ hb.1, hb.2.trans ?_⟩, ⟨le_trans ?_ hc.1, hc.2.trans ?_⟩, ⟨le_trans ?_ hd.1, hd.2.trans ?_⟩⟩ <;>
    norm_num [sum_range_succ, Nat.factorial]

theorem cos_angle8 (m : ℕ) (z : ℤ) (k : ℕ) (h : (m : ℤ) = 32 * z + (2 * k + 1) ∨ (m : ℤ) = 32 * z - (2 * k + 1)) : Real.cos (m * Real.pi / 16) = Real.cos (angle 8 k) := by
  rcases h with h | h
  · have : (m : ℝ) * Real.pi / 16 = angle 8 k + z * (2 * Real.pi) := by
      have hm : (m : ℝ) = 32 * z + (2 * k + 1) := by exact_mod_cast h
      unfold angle; rw [hm]; push_cast; ring
    rw [this, Real.cos_add_int_mul_two_pi]
  · have : (m : ℝ) * Real.pi / 16 = -angle 8 k + z * (2 * Real.pi) := by
      have hm : (m : ℝ) = 32 * z - (2 * k + 1) := by exact_mod_cast h
      unfold angle; rw [hm]; push_cast; ring
    rw [this, Real.cos_add_int_mul_two_pi, Real.cos_neg]

/-- Same, from the other side of the circle. -/
theorem cos_angle8' (m : ℕ) (z : ℤ) (k : ℕ) (h : (m : ℤ) = 32 * z + 16 - (2 * k + 1) ∨ (m : ℤ) = 32 * z + 16 + (2 * k + 1)) : Real.cos (m * Real.pi / 16) = -Real.cos (angle 8 k) := by
  rcases h with h | h
  · have : (m : ℝ) * Real.pi / 16 = Real.pi - angle 8 k + z * (2 * Real.pi) := by
      have hm : (m : ℝ) = 32 * z + 16 - (2 * k + 1) := by exact_mod_cast h
      unfold angle; rw [hm]; push_cast; ring
    rw [this, Real.cos_add_int_mul_two_pi, Real.cos_pi_sub]
  · have : (m : ℝ) * Real.pi / 16 = angle 8 k + Real.pi + z * (2 * Real.pi) := by
      have hm : (m : ℝ) = 32 * z + 16 + (2 * k + 1) := by exact_mod_cast h
      unfold angle; rw [hm]; push_cast; ring
    rw [this, Real.cos_add_int_mul_two_pi, Real.cos_add_pi]


theorem series8 (j : ℕ) (hj : Odd j) : chebyshevSeries Real.tanh 1 8 j = 1 / 2 * ∑ k ∈ range 4, Real.tanh (Real.cos (angle 8 k)) * Real.cos ((j * (2 * k + 1) : ℕ) * Real.pi / 16) := by
  rw [series_eq]
  have hc : ∀ k : ℕ, Real.cos (j * angle 8 k) = Real.cos ((j * (2 * k + 1) : ℕ) * Real.pi / 16) := fun k => by
    congr 1; unfold angle; push_cast; ring
  have hr : ∀ k : ℕ, k < 4 → Real.tanh (1 * Real.cos (angle 8 (7 - k))) * Real.cos (j * angle 8 (7 - k)) = Real.tanh (1 * Real.cos (angle 8 k)) * Real.cos (j * angle 8 k) := fun k hk => by
    have ea : angle 8 (7 - k) = Real.pi - angle 8 k := by
      unfold angle; rw [Nat.cast_sub (by omega)]; push_cast; ring
    obtain ⟨r, rfl⟩ := hj
    have ec : Real.cos ((2 * r + 1 : ℕ) * (Real.pi - angle 8 k)) = -Real.cos ((2 * r + 1 : ℕ) * angle 8 k) := by
      have : ((2 * r + 1 : ℕ) : ℝ) * (Real.pi - angle 8 k) = (Real.pi - (2 * r + 1 : ℕ) * angle 8 k) + r * (2 * Real.pi) := by push_cast; ring
      rw [this, Real.cos_add_nat_mul_two_pi, Real.cos_pi_sub]
    rw [ea, ec, Real.cos_pi_sub, one_mul, one_mul, Real.tanh_neg]; ring
  have h0 := hr 0 (by norm_num)
  have h1 := hr 1 (by norm_num)
  have h2 := hr 2 (by norm_num)
  have h3 := hr 3 (by norm_num)
  simp only [sum_range_succ, sum_range_zero, zero_add, ← hc]
  norm_num at h0 h1 h2 h3 ⊢
  linarith

/-- The last coefficients for eight terms. -/
theorem last8 : chebyshevSeries Real.tanh 1 8 7 ≤ -0.0004 ∧ chebyshevSeries Real.tanh 1 8 5 ≤ 0.01 ∧ chebyshevSeries Real.tanh 1 8 3 ≤ 4 ∧ chebyshevSeries Real.tanh 1 8 1 ≤ 4 := by
  obtain ⟨⟨a1, a2⟩, ⟨b1, b2⟩, ⟨c1, c2⟩, ⟨d1, d2⟩⟩ := nodes8
  obtain ⟨⟨p1, p2⟩, ⟨q1, q2⟩, ⟨r1, r2⟩, ⟨s1, s2⟩⟩ := tanh8
  have crude : ∀ j, Odd j → chebyshevSeries Real.tanh 1 8 j ≤ 4 := fun j hj => by
    rw [series8 j hj]
    have : ∑ k ∈ range 4, Real.tanh (Real.cos (angle 8 k)) * Real.cos ((j * (2 * k + 1) : ℕ) * Real.pi / 16) ≤ ∑ k ∈ range 4, (1 : ℝ) := sum_le_sum fun k _ => by
      refine (le_abs_self _).trans ?_
      rw [abs_mul]
      exact mul_le_one₀ (Real.abs_tanh_lt_one _).le (abs_nonneg _) (Real.abs_cos_le_one _)
    simp at this ⊢
    linarith
  refine ⟨?_, ?_, crude 3 ⟨1, rfl⟩, crude 1 ⟨0, rfl⟩⟩
  · rw [series8 7 ⟨3, rfl⟩]
    simp only [sum_range_succ, sum_range_zero, zero_add]
    rw [cos_angle8 _ 0 3 (by norm_num), cos_angle8' _ 0 2 (by norm_num), cos_angle8 _ 1 1 (by norm_num), cos_angle8' _ 1 0 (by norm_num)]
    generalize Real.tanh (Real.cos (angle 8 0)) = t0 at *
    generalize Real.tanh (Real.cos (angle 8 1)) = t1 at *
    generalize Real.tanh (Real.cos (angle 8 2)) = t2 at *
    generalize Real.tanh (Real.cos (angle 8 3)) = t3 at *
    generalize Real.cos (angle 8 0) = x0 at *
    generalize Real.cos (angle 8 1) = x1 at *
    generalize Real.cos (angle 8 2) = x2 at *
    generalize Real.cos (angle 8 3) = x3 at *
    have m0 : t0 * x3 ≤ 0.75341 * 0.195091 := mul_le_mul p2 d2 (by linarith) (by norm_num)
    have m1 : 0.68126 * 0.555570 ≤ t1 * x2 := mul_le_mul q1 c1 (by norm_num) (by linarith)
    have m2 : t2 * x1 ≤ 0.50469 * 0.831470 := mul_le_mul r2 b2 (by linarith) (by norm_num)
    have m3 : 0.19265 * 0.980785 ≤ t3 * x0 := mul_le_mul s1 a1 (by norm_num) (by linarith)
    norm_num at m0 m1 m2 m3 ⊢
    linarith
  · rw [series8 5 ⟨2, rfl⟩]
    simp only [sum_range_succ, sum_range_zero, zero_add]
    rw [cos_angle8 _ 0 2 (by norm_num), cos_angle8' _ 0 0 (by norm_num), cos_angle8 _ 1 3 (by norm_num), cos_angle8 _ 1 1 (by norm_num)]
    generalize Real.tanh (Real.cos (angle 8 0)) = t0 at *
    generalize Real.tanh (Real.cos (angle 8 1)) = t1 at *
    generalize Real.tanh (Real.cos (angle 8 2)) = t2 at *
    generalize Real.tanh (Real.cos (angle 8 3)) = t3 at *
    generalize Real.cos (angle 8 0) = x0 at *
    generalize Real.cos (angle 8 1) = x1 at *
    generalize Real.cos (angle 8 2) = x2 at *
    generalize Real.cos (angle 8 3) = x3 at *
    have m0 : t0 * x2 ≤ 0.75341 * 0.555571 := mul_le_mul p2 c2 (by linarith) (by norm_num)
    have m1 : 0.68126 * 0.980785 ≤ t1 * x0 := mul_le_mul q1 a1 (by norm_num) (by linarith)
    have m2 : t2 * x3 ≤ 0.50469 * 0.195091 := mul_le_mul r2 d2 (by linarith) (by norm_num)
    have m3 : t3 * x1 ≤ 0.19266 * 0.831470 := mul_le_mul s2 b2 (by linarith) (by norm_num)
    norm_num at m0 m1 m2 m3 ⊢
    linarith

/-- The code violates the property: the documentation says that the approximation is truncated to 1 above 1, but it is the polynomial that is truncated, and it need not be large there.
With eight terms, and coefficients that are rounded to 16 bits, every input from 10 on gives -1. -/
theorem C53_tanh_chebyshev_wrong (c : FunCfg) (h8 : c.sigmoidTerms = 8) (coeffs : ℕ → ℚ) (he : ∀ a < 4, |(coeffs a : ℝ) - chebyshevSeries Real.tanh 1 8 (2 * a + 1)| ≤ 1 / 2 ^ 16)
    (x : ι → ℝ) (i : ι) (hx : 10 ≤ x i) : (exactOps ℝ).tanhChebyshev c coeffs x i = -1 ∧ 0.99 ≤ Real.tanh (x i) := by
  constructor
  · rw [C53_tanh_chebyshev c (by omega), h8]
    obtain ⟨h7, h5, h3, h1⟩ := last8
    have q0 := (abs_le.1 (he 0 (by norm_num))).2
    have q1 := (abs_le.1 (he 1 (by norm_num))).2
    have q2 := (abs_le.1 (he 2 (by norm_num))).2
    have q3 := (abs_le.1 (he 3 (by norm_num))).2
    norm_num at q0 q1 q2 q3
    have e3 : (T ℝ 3).eval (x i) = (4 * (x i * x i) - 2) * x i - x i := by
      have := cheb_rec (x i) 1
      norm_num [T_neg] at this
      rw [this]
    have e5 : (T ℝ 5).eval (x i) = (4 * (x i * x i) - 2) * (T ℝ 3).eval (x i) - x i := by
      have := cheb_rec (x i) 3
      norm_num at this
      rw [this]
    have e7 : (T ℝ 7).eval (x i) = (4 * (x i * x i) - 2) * (T ℝ 5).eval (x i) - (T ℝ 3).eval (x i) := by
      have := cheb_rec (x i) 5
      norm_num at this
      exact this
    simp only [show 8 / 2 = 4 from rfl, sum_range_succ, sum_range_zero, zero_add]
    norm_num
    generalize (T ℝ 7).eval (x i) = t7 at *
    generalize (T ℝ 5).eval (x i) = t5 at *
    generalize (T ℝ 3).eval (x i) = t3 at *
    generalize x i = y at *
    have hy : 398 ≤ 4 * (y * y) - 2 := by nlinarith
    generalize 4 * (y * y) - 2 = w at *
    have p3 : 397 * y ≤ t3 := by rw [e3]; nlinarith
    have p5 : 397 * t3 ≤ t5 := by rw [e5]; nlinarith
    have p7 : 397 * t5 ≤ t7 := by rw [e7]; nlinarith
    have k0 : y * (coeffs 0 : ℝ) ≤ y * 5 := mul_le_mul_of_nonneg_left (by linarith) (by linarith)
    have k1 : t3 * (coeffs 1 : ℝ) ≤ t3 * 5 := mul_le_mul_of_nonneg_left (by linarith) (by linarith)
    have k2 : t5 * (coeffs 2 : ℝ) ≤ t5 * 0.02 := mul_le_mul_of_nonneg_left (by norm_num; linarith) (by linarith)
    have k3 : t7 * (coeffs 3 : ℝ) ≤ t7 * -0.00038 := mul_le_mul_of_nonneg_left (by norm_num; linarith) (by linarith)
    norm_num at k2 k3
    linarith
  · have := (tanh_between (x := x i) (q1 := 10) (q2 := x i) (L := 20) (H := Real.exp (x i)) hx le_rfl (by norm_num) ?_ le_rfl).1
    · norm_num at this ⊢; linarith
    · have h1 := Real.add_one_le_exp (1 : ℝ)
      have : Real.exp 10 = Real.exp 1 ^ 10 := by rw [← Real.exp_nat_mul]; norm_num
      rw [this]
      calc (20 : ℝ) ≤ 2 ^ 10 := by norm_num
        _ ≤ Real.exp 1 ^ 10 := pow_le_pow_left₀ (by norm_num) (by linarith) 10

/-- Coefficients rounded to 16 bits exist; tanh(10) comes out as -1. -/
example : ∃ coeffs : ℕ → ℚ, (∀ a < 4, |(coeffs a : ℝ) - chebyshevSeries Real.tanh 1 8 (2 * a + 1)| ≤ 1 / 2 ^ 16) ∧
    (exactOps ℝ).tanhChebyshev { sigmoidTerms := 8 } coeffs (fun _ : Unit => 10) () = -1 := by
  obtain ⟨q, hq⟩ := coeffs_exist Real.tanh 1 8 (e := 1 / 2 ^ 16) (by norm_num)
  exact ⟨q, fun a _ => hq a, (C53_tanh_chebyshev_wrong _ rfl q (fun a _ => hq a) _ () le_rfl).1⟩

/-- The same for the sigmoid: every input from 20 on gives 0. -/
theorem C53_sigmoid_chebyshev_wrong (c : FunCfg) (hs : c.sigmoidMethod = .chebyshev) (h8 : c.sigmoidTerms = 8) (coeffs : ℕ → ℚ)
    (he : ∀ a < 4, |(coeffs a : ℝ) - chebyshevSeries Real.tanh 1 8 (2 * a + 1)| ≤ 1 / 2 ^ 16) (x : ι → ℝ) (i : ι) (hx : 20 ≤ x i) :
    (exactOps ℝ).sigmoid c coeffs x i = 0 ∧ 0.9 ≤ 1 / (1 + Real.exp (-x i)) := by
  constructor
  · rw [sigmoid_chebyshev_eq c hs, (C53_tanh_chebyshev_wrong c h8 coeffs he (fun i => x i / 2) i (by show 10 ≤ x i / 2; linarith)).1]; norm_num
  · have h1 : 20 ≤ Real.exp (x i) := by have := Real.add_one_le_exp (x i); linarith
    rw [Real.exp_neg, le_div_iff₀ (by positivity)]
    have : (Real.exp (x i))⁻¹ ≤ 20⁻¹ := by gcongr
    norm_num at this ⊢; linarith

example : ∃ coeffs : ℕ → ℚ, (exactOps ℝ).sigmoid { sigmoidTerms := 8, sigmoidMethod := .chebyshev } coeffs (fun _ : Unit => 30) () = 0 := by
  obtain ⟨q, hq⟩ := coeffs_exist Real.tanh 1 8 (e := 1 / 2 ^ 16) (by norm_num)
  exact ⟨q, (C53_sigmoid_chebyshev_wrong _ rfl rfl q (fun a _ => hq a) _ () (by norm_num)).1⟩

end CrypTen

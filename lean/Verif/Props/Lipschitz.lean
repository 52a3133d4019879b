import Mathlib.Analysis.Calculus.MeanValue
import Mathlib.Analysis.SpecialFunctions.Trigonometric.Bounds
import Mathlib.Analysis.SpecialFunctions.Log.Deriv
import Mathlib.Analysis.SpecialFunctions.Sqrt

/-!
# How much the activation functions magnify an error
-/

namespace CrypTen.Network

theorem lip_sigmoid (x y : ℝ) : |1 / (1 + Real.exp (-x)) - 1 / (1 + Real.exp (-y))| ≤ |x - y| / 4 := by
  have hd : ∀ t : ℝ, HasDerivAt (fun t => 1 / (1 + Real.exp (-t))) (Real.exp (-t) / (1 + Real.exp (-t)) ^ 2) t := fun t => by
    have h1 : HasDerivAt (fun t : ℝ => 1 + Real.exp (-t)) (-Real.exp (-t)) t := by
      have := ((hasDerivAt_neg t).exp).const_add 1
      refine this.congr_deriv ?_; ring
    have h2 : (1 + Real.exp (-t)) ≠ 0 := by positivity
    have := h1.inv h2
    simp only [one_div]
    refine this.congr_deriv ?_
    ring
  have hb : ∀ t ∈ (Set.univ : Set ℝ), ‖deriv (fun t => 1 / (1 + Real.exp (-t))) t‖ ≤ 1 / 4 := fun t _ => by
    rw [(hd t).deriv, Real.norm_eq_abs, abs_of_nonneg (by positivity), div_le_iff₀ (by positivity)]
    nlinarith [sq_nonneg (1 - Real.exp (-t))]
  have := Convex.norm_image_sub_le_of_norm_deriv_le (fun t _ => (hd t).differentiableAt) hb convex_univ (Set.mem_univ y) (Set.mem_univ x)
  rw [Real.norm_eq_abs, Real.norm_eq_abs] at this
  linarith

theorem tanh_sigmoid (x : ℝ) : Real.tanh x = 1 / (1 + Real.exp (-(2 * x))) * 2 - 1 := by
  rw [Real.tanh_eq_sinh_div_cosh, Real.sinh_eq, Real.cosh_eq]
  have e : Real.exp (-(2 * x)) = Real.exp (-x) * Real.exp (-x) := by rw [← Real.exp_add]; congr 1; ring
  have e2 : Real.exp x * Real.exp (-x) = 1 := by rw [← Real.exp_add, add_neg_cancel, Real.exp_zero]
  rw [e]
  have h1 := Real.exp_pos x
  have h2 := Real.exp_pos (-x)
  field_simp
  nlinarith

theorem lip_tanh (x y : ℝ) : |Real.tanh x - Real.tanh y| ≤ |x - y| := by
  have h := lip_sigmoid (2 * x) (2 * y)
  have e : Real.tanh x - Real.tanh y = 2 * (1 / (1 + Real.exp (-(2 * x))) - 1 / (1 + Real.exp (-(2 * y)))) := by rw [tanh_sigmoid, tanh_sigmoid]; ring
  rw [e, abs_mul, abs_two]
  rw [← mul_sub, abs_mul, abs_two] at h
  linarith

theorem lip_exp {x y : ℝ} (hx : x ≤ 0) (hy : y ≤ 0) : |Real.exp x - Real.exp y| ≤ |x - y| := by
  have key : ∀ {a b : ℝ}, a ≤ 0 → b ≤ a → Real.exp a - Real.exp b ≤ a - b := fun {a b} ha hab => by
    have h1 := Real.add_one_le_exp (b - a)
    have h2 : Real.exp b = Real.exp a * Real.exp (b - a) := by rw [← Real.exp_add]; congr 1; ring
    have h3 : Real.exp a ≤ 1 := Real.exp_le_one_iff.2 ha
    have h4 := Real.exp_pos a
    rw [h2]
    nlinarith
  rcases le_total x y with h | h
  · rw [abs_sub_comm, abs_sub_comm x, abs_of_nonneg (by linarith [Real.exp_le_exp.2 h]), abs_of_nonneg (by linarith)]; exact key hy h
  · rw [abs_of_nonneg (by linarith [Real.exp_le_exp.2 h]), abs_of_nonneg (by linarith)]; exact key hx h

theorem lip_log {x y l : ℝ} (hl : 0 < l) (hx : l ≤ x) (hy : l ≤ y) : |Real.log x - Real.log y| ≤ |x - y| / l := by
  have key : ∀ {a b : ℝ}, l ≤ b → b ≤ a → Real.log a - Real.log b ≤ (a - b) / l := fun {a b} hb hab => by
    have hb0 : 0 < b := lt_of_lt_of_le hl hb
    have ha0 : 0 < a := lt_of_lt_of_le hb0 hab
    rw [← Real.log_div ha0.ne' hb0.ne']
    refine (Real.log_le_sub_one_of_pos (by positivity)).trans ?_
    have : a / b - 1 = (a - b) / b := by field_simp
    rw [this]
    exact div_le_div_of_nonneg_left (by linarith) hl hb
  rcases le_total x y with h | h
  · rw [abs_sub_comm, abs_sub_comm x, abs_of_nonneg (by linarith [Real.log_le_log (lt_of_lt_of_le hl hx) h]), abs_of_nonneg (by linarith)]; exact key hx h
  · rw [abs_of_nonneg (by linarith [Real.log_le_log (lt_of_lt_of_le hl hy) h]), abs_of_nonneg (by linarith)]; exact key hy h

theorem lip_recip {x y l : ℝ} (hl : 0 < l) (hx : l ≤ x) (hy : l ≤ y) : |1 / x - 1 / y| ≤ |x - y| / l ^ 2 := by
  have hx0 := lt_of_lt_of_le hl hx
  have hy0 := lt_of_lt_of_le hl hy
  have e : 1 / x - 1 / y = -(x - y) / (x * y) := by field_simp; ring
  rw [e, abs_div, abs_neg, abs_of_pos (mul_pos hx0 hy0)]
  exact div_le_div_of_nonneg_left (abs_nonneg _) (by positivity) (by rw [sq]; exact mul_le_mul hx hy hl.le hx0.le)

theorem sqrt_sub {x y : ℝ} (hx : 0 < x) (hy : 0 < y) : |Real.sqrt x - Real.sqrt y| = |x - y| / (Real.sqrt x + Real.sqrt y) := by
  have h1 := Real.sqrt_pos.2 hx
  have h2 := Real.sqrt_pos.2 hy
  rw [eq_div_iff (by positivity), ← abs_of_pos (a := Real.sqrt x + Real.sqrt y) (by positivity), ← abs_mul]
  congr 1
  have e1 := Real.mul_self_sqrt hx.le
  have e2 := Real.mul_self_sqrt hy.le
  linear_combination e1 - e2

theorem lip_sqrt {x y : ℝ} (hx : 1 / 10 ≤ x) (hy : 1 / 10 ≤ y) : |Real.sqrt x - Real.sqrt y| ≤ 5 / 3 * |x - y| := by
  have h : ∀ {t : ℝ}, 1 / 10 ≤ t → 3 / 10 ≤ Real.sqrt t := fun {t} ht => Real.le_sqrt_of_sq_le (by linarith)
  rw [sqrt_sub (by linarith) (by linarith), div_le_iff₀ (by linarith [h hx, h hy])]
  have := h hx; have := h hy; have := abs_nonneg (x - y)
  nlinarith

theorem inv_sqrt_le {l t x : ℝ} (hl : 0 < l) (ht : 0 ≤ t) (h : 1 ≤ t ^ 2 * l) (hx : l ≤ x) : 1 / Real.sqrt x ≤ t := by
  have hx0 := lt_of_lt_of_le hl hx
  have hs := Real.sqrt_pos.2 hx0
  rw [div_le_iff₀ hs]
  refine le_of_sq_le_sq ?_ (by positivity)
  rw [one_pow, mul_pow, Real.sq_sqrt hx0.le]
  exact h.trans (mul_le_mul_of_nonneg_left hx (sq_nonneg t))

theorem lip_inv_sqrt {x y l t : ℝ} (hl : 0 < l) (ht : 0 ≤ t) (h : 1 ≤ t ^ 2 * l) (hx : l ≤ x) (hy : l ≤ y) : |1 / Real.sqrt x - 1 / Real.sqrt y| ≤ t ^ 3 / 2 * |x - y| := by
  have hx0 := lt_of_lt_of_le hl hx
  have hy0 := lt_of_lt_of_le hl hy
  have sx := Real.sqrt_pos.2 hx0
  have sy := Real.sqrt_pos.2 hy0
  have ix := inv_sqrt_le hl ht h hx
  have iy := inv_sqrt_le hl ht h hy
  have il : 1 / (Real.sqrt x + Real.sqrt y) ≤ t / 2 := by
    have a1 : 1 ≤ t * Real.sqrt x := by rwa [div_le_iff₀ sx] at ix
    have a2 : 1 ≤ t * Real.sqrt y := by rwa [div_le_iff₀ sy] at iy
    rw [div_le_iff₀ (by positivity)]; nlinarith
  have e : 1 / Real.sqrt x - 1 / Real.sqrt y = -(Real.sqrt x - Real.sqrt y) * (1 / Real.sqrt x) * (1 / Real.sqrt y) := by field_simp; ring
  rw [e, abs_mul, abs_mul, abs_neg, abs_of_pos (a := 1 / Real.sqrt x) (by positivity), abs_of_pos (a := 1 / Real.sqrt y) (by positivity), sqrt_sub hx0 hy0]
  have h0 := abs_nonneg (x - y)
  calc |x - y| / (Real.sqrt x + Real.sqrt y) * (1 / Real.sqrt x) * (1 / Real.sqrt y)
      = |x - y| * ((1 / (Real.sqrt x + Real.sqrt y)) * (1 / Real.sqrt x) * (1 / Real.sqrt y)) := by ring
    _ ≤ |x - y| * (t / 2 * t * t) := by
        refine mul_le_mul_of_nonneg_left ?_ h0
        exact mul_le_mul (mul_le_mul il ix (by positivity) (by positivity)) iy (by positivity) (by positivity)
    _ = t ^ 3 / 2 * |x - y| := by ring

end CrypTen.Network

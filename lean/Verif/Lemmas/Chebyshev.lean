import Verif.Model.Chebyshev
import Mathlib.Analysis.SpecialFunctions.Trigonometric.Chebyshev.Basic
import Mathlib.Analysis.SpecialFunctions.Trigonometric.Chebyshev.RootsExtrema
import Mathlib.Analysis.SpecialFunctions.Trigonometric.DerivHyp
import Mathlib.Analysis.SpecialFunctions.Trigonometric.Bounds
import Mathlib.Analysis.Complex.Liouville
import Mathlib.Analysis.Complex.RealDeriv
import Mathlib.Analysis.Calculus.IteratedDeriv.Lemmas
import Mathlib.Analysis.Calculus.ContDiff.Polynomial
import Mathlib.Analysis.Calculus.LocalExtr.Rolle
import Mathlib.Data.Finset.Sort

/-! The Chebyshev series takes the values of the function at its points; the error between them. -/

open Finset

namespace CrypTen
open Polynomial Polynomial.Chebyshev
namespace Cheb
open scoped ContDiff

/-- The Dirichlet kernel. -/
theorem dirichlet (α : ℝ) : ∀ n : ℕ, 2 * Real.sin (α / 2) * (1 / 2 + ∑ j ∈ range n, Real.cos ((j + 1 : ℕ) * α)) = Real.sin ((n + 1 / 2) * α)
  | 0 => by simp; ring_nf
  | n + 1 => by
    rw [sum_range_succ, ← add_assoc, mul_add, dirichlet α n]
    have h : Real.sin (((n + 1 : ℕ) + 1 / 2) * α) - Real.sin ((n + 1 / 2) * α) = 2 * Real.sin (α / 2) * Real.cos ((n + 1 : ℕ) * α) := by
      rw [Real.sin_sub_sin]
      congr 2
      · congr 2; push_cast; ring
      · push_cast; ring
    linarith

/-- Half the first term and the others of the cosines at a multiple of `π / n`. -/
theorem kernel_int {n : ℕ} (hn : 0 < n) (m : ℤ) (hs : Real.sin (m * Real.pi / n / 2) ≠ 0) :
    1 / 2 + ∑ j ∈ range (n - 1), Real.cos ((j + 1 : ℕ) * (m * Real.pi / n)) = -(-1) ^ m / 2 := by
  have h := dirichlet (m * Real.pi / n) (n - 1)
  have hn' : (n : ℝ) ≠ 0 := by positivity
  have e : (((n - 1 : ℕ) : ℝ) + 1 / 2) * (m * Real.pi / n) = m * Real.pi - m * Real.pi / n / 2 := by
    rw [Nat.cast_sub hn]; field_simp; push_cast; ring
  rw [e, Real.sin_sub, Real.sin_int_mul_pi, Real.cos_int_mul_pi] at h
  have h2 : 2 * Real.sin (m * Real.pi / n / 2) * (1 / 2 + ∑ j ∈ range (n - 1), Real.cos ((j + 1 : ℕ) * (m * Real.pi / n)))
      = 2 * Real.sin (m * Real.pi / n / 2) * (-(-1) ^ m / 2) := by rw [h]; ring
  exact mul_left_cancel₀ (by positivity) h2

theorem sin_ne {n : ℕ} (hn : 0 < n) {m : ℤ} (h0 : m ≠ 0) (h1 : |m| < 2 * n) : Real.sin (m * Real.pi / n / 2) ≠ 0 := by
  intro h
  rw [Real.sin_eq_zero_iff] at h
  obtain ⟨q, hq⟩ := h
  have hp := Real.pi_ne_zero
  have hn' : (n : ℝ) ≠ 0 := by positivity
  have : (q : ℝ) * (2 * n) = m := by
    field_simp at hq
    linarith
  have hz : q * (2 * n) = m := by exact_mod_cast this
  have hq0 : q ≠ 0 := by rintro rfl; simp at hz; exact h0 hz.symm
  have : (1 : ℤ) ≤ |q| := Int.one_le_abs hq0
  rw [← hz, abs_mul] at h1
  have : |(2 * (n : ℤ))| = 2 * n := abs_of_nonneg (by positivity)
  rw [this] at h1
  nlinarith

/-- The points at which the series is fitted, as angles. -/
noncomputable def angle (n k : ℕ) : ℝ := (k + 0.5) * Real.pi / n

/-- The cosines are orthogonal over the points. -/
theorem ortho {n k l : ℕ} (hk : k < n) (hl : l < n) :
    1 / 2 + ∑ j ∈ range (n - 1), Real.cos ((j + 1 : ℕ) * angle n k) * Real.cos ((j + 1 : ℕ) * angle n l) = if k = l then (n : ℝ) / 2 else 0 := by
  have hn : 0 < n := by omega
  have hp : ∀ a b : ℝ, Real.cos a * Real.cos b = (Real.cos (a - b) + Real.cos (a + b)) / 2 := fun a b => by
    rw [Real.cos_sub, Real.cos_add]; ring
  have hd : ∀ j : ℕ, (j : ℝ) * angle n k - j * angle n l = j * (((k : ℤ) - l : ℤ) * Real.pi / n) := fun j => by
    unfold angle; push_cast; ring
  have hs : ∀ j : ℕ, (j : ℝ) * angle n k + j * angle n l = j * (((k : ℤ) + l + 1 : ℤ) * Real.pi / n) := fun j => by
    unfold angle; push_cast; ring
  have h2 := kernel_int hn ((k : ℤ) + l + 1) (sin_ne hn (by omega) (by rw [abs_of_nonneg] <;> omega))
  have e : ∑ j ∈ range (n - 1), Real.cos ((j + 1 : ℕ) * angle n k) * Real.cos ((j + 1 : ℕ) * angle n l)
      = (∑ j ∈ range (n - 1), Real.cos ((j + 1 : ℕ) * (((k : ℤ) - l : ℤ) * Real.pi / n))
        + ∑ j ∈ range (n - 1), Real.cos ((j + 1 : ℕ) * (((k : ℤ) + l + 1 : ℤ) * Real.pi / n))) / 2 := by
    rw [← sum_add_distrib, sum_div]
    exact sum_congr rfl fun j _ => by rw [hp, hd, hs]
  rw [e]
  split_ifs with hkl
  · subst hkl
    have h1 : ∑ j ∈ range (n - 1), Real.cos ((j + 1 : ℕ) * (((k : ℤ) - k : ℤ) * Real.pi / n)) = n - 1 := by
      simp [Nat.cast_sub hn]
    have hodd : ((-1 : ℝ)) ^ ((k : ℤ) + k + 1) = -1 := Odd.neg_one_zpow ⟨k, by omega⟩
    rw [hodd] at h2
    rw [h1]
    linarith
  · have h1 := kernel_int hn ((k : ℤ) - l) (sin_ne hn (by omega) (by rw [abs_lt]; omega))
    have hpar : ((-1 : ℝ)) ^ ((k : ℤ) + l + 1) = -(-1) ^ ((k : ℤ) - l) := by
      have : (k : ℤ) + l + 1 = (k - l) + (2 * l + 1) := by ring
      rw [this, zpow_add₀ (by norm_num), (show Odd (2 * (l : ℤ) + 1) from ⟨l, rfl⟩).neg_one_zpow]; ring
    rw [hpar] at h2
    linarith

theorem series_eq (f : ℝ → ℝ) (w : ℝ) (n j : ℕ) : chebyshevSeries f w n j = 2 / n * ∑ k ∈ range n, f (w * Real.cos (angle n k)) * Real.cos (j * angle n k) := by
  unfold chebyshevSeries angle
  congr 1
  exact sum_congr rfl fun k _ => by congr 2; ring

/-- The series with half the first coefficient takes the values of the function at the points. -/
theorem interpolates (f : ℝ → ℝ) (w : ℝ) {n l : ℕ} (hl : l < n) :
    chebyshevSeries f w n 0 / 2 + ∑ j ∈ range (n - 1), chebyshevSeries f w n (j + 1) * Real.cos ((j + 1 : ℕ) * angle n l) = f (w * Real.cos (angle n l)) := by
  have hn' : (n : ℝ) ≠ 0 := Nat.cast_ne_zero.2 (by omega)
  simp only [series_eq]
  have e : ∀ j : ℕ, (2 / (n : ℝ) * ∑ k ∈ range n, f (w * Real.cos (angle n k)) * Real.cos ((j + 1 : ℕ) * angle n k)) * Real.cos ((j + 1 : ℕ) * angle n l)
      = ∑ k ∈ range n, 2 / (n : ℝ) * f (w * Real.cos (angle n k)) * (Real.cos ((j + 1 : ℕ) * angle n k) * Real.cos ((j + 1 : ℕ) * angle n l)) := fun j => by
    rw [mul_sum, sum_mul]; exact sum_congr rfl fun k _ => by ring
  rw [sum_congr rfl fun j _ => e j, sum_comm]
  have e0 : 2 / (n : ℝ) * (∑ k ∈ range n, f (w * Real.cos (angle n k)) * Real.cos ((0 : ℕ) * angle n k)) / 2
      = ∑ k ∈ range n, 2 / (n : ℝ) * f (w * Real.cos (angle n k)) * (1 / 2) := by
    rw [mul_sum, sum_div]; exact sum_congr rfl fun k _ => by simp; ring
  rw [e0, ← sum_add_distrib]
  have e1 : ∀ k ∈ range n, 2 / (n : ℝ) * f (w * Real.cos (angle n k)) * (1 / 2)
      + ∑ j ∈ range (n - 1), 2 / (n : ℝ) * f (w * Real.cos (angle n k)) * (Real.cos ((j + 1 : ℕ) * angle n k) * Real.cos ((j + 1 : ℕ) * angle n l))
      = if k = l then f (w * Real.cos (angle n l)) else 0 := fun k hk => by
    rw [← mul_sum, ← mul_add, ortho (mem_range.1 hk) hl]
    split_ifs with h
    · subst h; field_simp
    · ring
  rw [sum_congr rfl e1, sum_ite_eq' (range n), if_pos (mem_range.2 hl)]

/-- The coefficients of even index of an odd function vanish. -/
theorem even_zero {f : ℝ → ℝ} (hf : ∀ x, f (-x) = -f x) (w : ℝ) (n j : ℕ) (hj : Even j) : chebyshevSeries f w n j = 0 := by
  rw [series_eq]
  rcases Nat.eq_zero_or_pos n with rfl | hn
  · simp
  have hn' : (n : ℝ) ≠ 0 := by positivity
  have h : ∑ k ∈ range n, f (w * Real.cos (angle n k)) * Real.cos (j * angle n k)
      = -∑ k ∈ range n, f (w * Real.cos (angle n k)) * Real.cos (j * angle n k) := by
    conv_lhs => rw [← sum_range_reflect]
    rw [← sum_neg_distrib]
    refine sum_congr rfl fun k hk => ?_
    have hk := mem_range.1 hk
    have ea : angle n (n - 1 - k) = Real.pi - angle n k := by
      unfold angle
      rw [Nat.cast_sub (by omega), Nat.cast_sub (by omega)]
      push_cast
      field_simp; ring
    obtain ⟨r, rfl⟩ := hj
    have ec : Real.cos ((r + r : ℕ) * (Real.pi - angle n k)) = Real.cos ((r + r : ℕ) * angle n k) := by
      have : ((r + r : ℕ) : ℝ) * (Real.pi - angle n k) = r * (2 * Real.pi) - (r + r : ℕ) * angle n k := by push_cast; ring
      rw [this, Real.cos_nat_mul_two_pi_sub]
    rw [ea, ec, Real.cos_pi_sub, mul_neg, hf]; ring
  have : ∑ k ∈ range n, f (w * Real.cos (angle n k)) * Real.cos (j * angle n k) = 0 := by linarith
  rw [this, mul_zero]

/-- The polynomial that `tanh` evaluates. -/
noncomputable def oddSeries (c : ℕ → ℝ) (m : ℕ) : ℝ[X] := ∑ a ∈ range m, Polynomial.C (c a) * T ℝ (2 * a + 1)

theorem odd_interpolates {f : ℝ → ℝ} (hf : ∀ x, f (-x) = -f x) (w : ℝ) {n l : ℕ} (he : Even n) (hl : l < n) :
    (oddSeries (fun a => chebyshevSeries f w n (2 * a + 1)) (n / 2)).eval (Real.cos (angle n l)) = f (w * Real.cos (angle n l)) := by
  rw [← interpolates f w hl, even_zero hf w n 0 (by simp), zero_div, zero_add]
  obtain ⟨m, rfl⟩ := he
  have hm : (m + m) / 2 = m := by omega
  rw [hm, oddSeries, eval_finsetSum]
  have h2 : ∀ g : ℕ → ℝ, (∀ j, Odd j → g j = 0) → ∀ m : ℕ, 0 < m → ∑ j ∈ range (m + m - 1), g j = ∑ a ∈ range m, g (2 * a) := by
    intro g hg m
    induction m with
    | zero => intro h; exact absurd h (lt_irrefl 0)
    | succ m ih =>
      intro _
      rcases Nat.eq_zero_or_pos m with rfl | hm
      · simp
      have e : m + 1 + (m + 1) - 1 = (m + m - 1) + 1 + 1 := by omega
      rw [e, sum_range_succ, sum_range_succ, ih hm, sum_range_succ, hg (m + m - 1) ⟨m - 1, by omega⟩]
      have : m + m - 1 + 1 = 2 * m := by omega
      rw [this]; ring
  rw [h2 (fun j => chebyshevSeries f w (m + m) (j + 1) * Real.cos ((j + 1 : ℕ) * angle (m + m) l)) (fun j hj => by
    beta_reduce
    rw [even_zero hf w _ _ (by obtain ⟨r, rfl⟩ := hj; exact ⟨r + 1, by ring⟩), zero_mul]) m (by omega)]
  refine sum_congr rfl fun a _ => ?_
  have := T_real_cos (angle (m + m) l) (2 * a + 1)
  rw [eval_mul, eval_C, this]
  congr 2

/-! ## The error of interpolation -/

theorem rolle : ∀ (n : ℕ) (g : ℝ → ℝ), ContDiff ℝ ∞ g → ∀ z : ℕ → ℝ, (∀ i < n, z i < z (i + 1)) → (∀ i ≤ n, g (z i) = 0) →
    ∃ ξ, z 0 ≤ ξ ∧ ξ ≤ z n ∧ iteratedDeriv n g ξ = 0
  | 0, g, _, z, _, h0 => ⟨z 0, le_refl _, le_refl _, by rw [iteratedDeriv_zero]; exact h0 0 (le_refl _)⟩
  | n + 1, g, hg, z, hz, h0 => by
    have h1 : ∀ i, ∃ c, i ≤ n → (z i < c ∧ c < z (i + 1) ∧ deriv g c = 0) := fun i => by
      by_cases hi : i ≤ n
      · obtain ⟨c, hc, hd⟩ := exists_deriv_eq_zero (hz i (by omega)) hg.continuous.continuousOn (by rw [h0 i (by omega), h0 (i + 1) (by omega)])
        exact ⟨c, fun _ => ⟨hc.1, hc.2, hd⟩⟩
      · exact ⟨0, fun h => absurd h hi⟩
    choose y hy using h1
    obtain ⟨ξ, ha, hb, hc⟩ := rolle n (deriv g) (contDiff_infty_iff_deriv.1 hg).2 y
      (fun i hi => (hy i (by omega)).2.1.trans (hy (i + 1) (by omega)).1) (fun i hi => (hy i hi).2.2)
    refine ⟨ξ, ((hy 0 (by omega)).1.le.trans ha), hb.trans (hy n le_rfl).2.1.le, ?_⟩
    rw [iteratedDeriv_succ']; exact hc

theorem rolle_finset {n : ℕ} {g : ℝ → ℝ} (hg : ContDiff ℝ ∞ g) {s : Finset ℝ} (hs : s.card = n + 1) (h0 : ∀ t ∈ s, g t = 0)
    {a b : ℝ} (hab : ∀ t ∈ s, a ≤ t ∧ t ≤ b) : ∃ ξ, a ≤ ξ ∧ ξ ≤ b ∧ iteratedDeriv n g ξ = 0 := by
  let e := s.orderEmbOfFin hs
  obtain ⟨ξ, h1, h2, h3⟩ := rolle n g hg (fun i => if h : i < n + 1 then e ⟨i, h⟩ else 0)
    (fun i hi => by
      beta_reduce
      rw [dif_pos (by omega), dif_pos (by omega)]
      exact e.strictMono (by rw [Fin.lt_def]; simp))
    (fun i hi => by
      beta_reduce
      rw [dif_pos (by omega)]
      exact h0 _ (s.orderEmbOfFin_mem hs _))
  rw [dif_pos (by omega)] at h1 h2
  exact ⟨ξ, (hab _ (s.orderEmbOfFin_mem hs _)).1.trans h1, h2.trans (hab _ (s.orderEmbOfFin_mem hs _)).2, h3⟩

theorem iteratedDeriv_poly (p : ℝ[X]) : ∀ n : ℕ, iteratedDeriv n (fun x => p.eval x) = fun x => (derivative^[n] p).eval x
  | 0 => by rw [iteratedDeriv_zero]; rfl
  | n + 1 => by
    rw [iteratedDeriv_succ, iteratedDeriv_poly p n, Function.iterate_succ_apply']
    funext x
    exact Polynomial.deriv _

theorem iterate_derivative_top (p : ℝ[X]) {n : ℕ} (h : p.natDegree ≤ n) : derivative^[n] p = Polynomial.C (n.factorial * p.coeff n) := by
  ext m
  rw [coeff_iterate_derivative, coeff_C]
  split_ifs with hm
  · subst hm; rw [zero_add, Nat.descFactorial_self, nsmul_eq_mul]
  · rw [coeff_eq_zero_of_natDegree_lt (by omega), smul_zero]

theorem angle_mem {n k : ℕ} (hk : k < n) : 0 < angle n k ∧ angle n k < Real.pi := by
  have hn : (0 : ℝ) < n := by exact_mod_cast (by omega : 0 < n)
  have hk' : (k : ℝ) + 1 ≤ n := by exact_mod_cast hk
  have hp := Real.pi_pos
  unfold angle
  constructor
  · positivity
  · rw [div_lt_iff₀ hn]; nlinarith

theorem angle_inj {n k l : ℕ} (hn : 0 < n) (h : angle n k = angle n l) : k = l := by
  unfold angle at h
  have hn' : (n : ℝ) ≠ 0 := by positivity
  have hp := Real.pi_ne_zero
  field_simp at h
  have : (k : ℝ) = l := by linarith
  exact_mod_cast this

theorem T_node {n k : ℕ} (hn : 0 < n) : (T ℝ n).eval (Real.cos (angle n k)) = 0 := by
  have := T_real_cos (angle n k) n
  rw [this]
  have e : ((n : ℤ) : ℝ) * angle n k = k * Real.pi + Real.pi / 2 := by
    unfold angle
    have hn' : (n : ℝ) ≠ 0 := by positivity
    push_cast; field_simp; ring
  rw [e, Real.cos_add_pi_div_two, Real.sin_nat_mul_pi, neg_zero]

/-- Error of a polynomial that takes the values of a function at the points. -/
theorem interpolation_error {f : ℝ → ℝ} (hf : ContDiff ℝ ∞ f) {n : ℕ} (hn : 0 < n) {p : ℝ[X]} (hp : p.natDegree < n)
    (hnode : ∀ k < n, p.eval (Real.cos (angle n k)) = f (Real.cos (angle n k))) {M : ℝ}
    (hM : ∀ ξ, |ξ| ≤ 1 → |iteratedDeriv n f ξ| ≤ n.factorial * M) {x : ℝ} (hx : |x| ≤ 1) :
    |f x - p.eval x| ≤ M / 2 ^ (n - 1) := by
  have hM0 : 0 ≤ M := by
    have h1 := (abs_nonneg _).trans (hM 0 (by simp))
    have h2 : (0 : ℝ) < n.factorial := by exact_mod_cast n.factorial_pos
    exact nonneg_of_mul_nonneg_right h1 h2
  by_cases hT : (T ℝ n).eval x = 0
  · have hxn : ∃ k < n, x = Real.cos (angle n k) := by
      have := roots_T_real n
      have hr : x ∈ (T ℝ n).roots := by
        rw [mem_roots', IsRoot]
        refine ⟨?_, hT⟩
        intro h0
        have := natDegree_T ℝ n
        rw [h0] at this
        simp at this; omega
      rw [this] at hr
      simp only [Finset.mem_val, Finset.mem_image, Finset.mem_range] at hr
      obtain ⟨k, hk, e⟩ := hr
      refine ⟨k, hk, e.symm.trans ?_⟩
      congr 1
      unfold angle
      have hn' : (n : ℝ) ≠ 0 := by positivity
      field_simp; ring
    obtain ⟨k, hk, rfl⟩ := hxn
    rw [hnode k hk, sub_self, abs_zero]
    positivity
  · obtain ⟨lam, hlam⟩ : ∃ lam : ℝ, f x - p.eval x = lam * (T ℝ n).eval x := ⟨(f x - p.eval x) / (T ℝ n).eval x, by field_simp⟩
    let q : ℝ[X] := p + Polynomial.C lam * T ℝ n
    have hTdeg : (T ℝ n).natDegree = n := by rw [natDegree_T]; simp
    have hTc : (T ℝ n).coeff n = 2 ^ (n - 1) := by
      have h := leadingCoeff_T ℝ n
      rw [leadingCoeff, hTdeg] at h
      simpa using h
    have hq : q.natDegree ≤ n := by
      refine (natDegree_add_le _ _).trans (max_le hp.le ((natDegree_C_mul_le _ _).trans hTdeg.le))
    have hqc : q.coeff n = lam * 2 ^ (n - 1) := by
      show (p + Polynomial.C lam * T ℝ n).coeff n = _
      rw [coeff_add, coeff_C_mul, hTc, coeff_eq_zero_of_natDegree_lt hp, zero_add]
    have hqd : ContDiff ℝ ∞ fun t => q.eval t := by
      have h := Polynomial.contDiff_aeval (𝕜 := ℝ) q ∞
      simp only [Polynomial.coe_aeval_eq_eval] at h
      exact h
    let s : Finset ℝ := insert x ((range n).image fun k => Real.cos (angle n k))
    have hinj : Set.InjOn (fun k => Real.cos (angle n k)) (range n) := fun k hk l hl h => by
      have hk := angle_mem (by simpa using hk : k < n)
      have hl := angle_mem (by simpa using hl : l < n)
      exact angle_inj hn (Real.injOn_cos ⟨hk.1.le, hk.2.le⟩ ⟨hl.1.le, hl.2.le⟩ h)
    have hs : s.card = n + 1 := by
      show (insert x ((range n).image fun k => Real.cos (angle n k))).card = _
      rw [card_insert_of_notMem, card_image_of_injOn hinj, card_range]
      intro h
      obtain ⟨k, _, e⟩ := mem_image.1 h
      exact hT (by rw [← e]; exact T_node hn)
    obtain ⟨ξ, ha, hb, hc⟩ := rolle_finset (g := fun t => f t - q.eval t) (hf.sub hqd) hs (fun t ht => by
      rcases mem_insert.1 ht with rfl | ht
      · show f t - (p + Polynomial.C lam * T ℝ n).eval t = 0
        rw [eval_add, eval_mul, eval_C]; linarith
      · obtain ⟨k, hk, rfl⟩ := mem_image.1 ht
        show f _ - (p + Polynomial.C lam * T ℝ n).eval _ = 0
        rw [eval_add, eval_mul, eval_C, T_node hn, hnode k (mem_range.1 hk)]; ring) (a := -1) (b := 1) (fun t ht => by
      rcases mem_insert.1 ht with rfl | ht
      · exact abs_le.1 hx
      · obtain ⟨k, hk, rfl⟩ := mem_image.1 ht
        exact ⟨Real.neg_one_le_cos _, Real.cos_le_one _⟩)
    have hd : iteratedDeriv n (fun t => f t - q.eval t) ξ = iteratedDeriv n f ξ - iteratedDeriv n (fun t => q.eval t) ξ :=
      iteratedDeriv_fun_sub ((hf.of_le (by exact_mod_cast le_top)).contDiffAt) ((hqd.of_le (by exact_mod_cast le_top)).contDiffAt)
    rw [hd, iteratedDeriv_poly, iterate_derivative_top q hq, hqc] at hc
    beta_reduce at hc
    rw [eval_C] at hc
    have h1 := hM ξ (abs_le.2 ⟨ha, hb⟩)
    have h2 : iteratedDeriv n f ξ = n.factorial * (lam * 2 ^ (n - 1)) := by linarith
    have hfac : (0 : ℝ) < n.factorial := by exact_mod_cast n.factorial_pos
    rw [h2, abs_mul, abs_of_pos hfac] at h1
    have h3 := le_of_mul_le_mul_left h1 hfac
    rw [abs_mul, abs_of_pos (by positivity : (0 : ℝ) < 2 ^ (n - 1))] at h3
    rw [hlam, abs_mul, le_div_iff₀ (by positivity)]
    have h4 := abs_eval_T_real_le_one n hx
    nlinarith [abs_nonneg lam, mul_nonneg (abs_nonneg lam) (by positivity : (0 : ℝ) ≤ 2 ^ (n - 1))]


/-! ## The derivatives of tanh -/

theorem cos_one_bound {v : ℝ} (hv : |v| ≤ 1) : 1 / 5 < Real.cos v ^ 2 := by
  have h := Real.one_sub_sq_div_two_le_cos (x := v)
  have h1 : v ^ 2 ≤ 1 := (sq_le_one_iff_abs_le_one v).2 hv
  nlinarith

theorem norm_sinh_sq (u v : ℝ) : ‖Complex.sinh (u + v * Complex.I)‖ ^ 2 = Real.sinh u ^ 2 + Real.sin v ^ 2 := by
  rw [Complex.sinh_add, Complex.sinh_mul_I, Complex.cosh_mul_I, ← mul_assoc]
  rw [← Complex.ofReal_sinh, ← Complex.ofReal_cosh, ← Complex.ofReal_sin, ← Complex.ofReal_cos, ← Complex.ofReal_mul, ← Complex.ofReal_mul, Complex.sq_norm, Complex.normSq_add_mul_I]
  have h1 := Real.cosh_sq u
  have h2 := Real.sin_sq_add_cos_sq v
  rw [mul_pow, mul_pow, h1]
  linear_combination (Real.sinh u ^ 2) * h2

theorem norm_cosh_sq (u v : ℝ) : ‖Complex.cosh (u + v * Complex.I)‖ ^ 2 = Real.sinh u ^ 2 + Real.cos v ^ 2 := by
  rw [Complex.cosh_add, Complex.sinh_mul_I, Complex.cosh_mul_I, ← mul_assoc]
  rw [← Complex.ofReal_sinh, ← Complex.ofReal_cosh, ← Complex.ofReal_sin, ← Complex.ofReal_cos, ← Complex.ofReal_mul, ← Complex.ofReal_mul, Complex.sq_norm, Complex.normSq_add_mul_I]
  have h1 := Real.cosh_sq u
  have h2 := Real.sin_sq_add_cos_sq v
  rw [mul_pow, mul_pow, h1]
  linear_combination (Real.sinh u ^ 2) * h2

theorem cosh_ne {z : ℂ} (hz : |z.im| ≤ 1) : Complex.cosh z ≠ 0 := by
  intro h
  have h1 := norm_cosh_sq z.re z.im
  rw [Complex.re_add_im, h, norm_zero] at h1
  have := cos_one_bound hz
  nlinarith [sq_nonneg (Real.sinh z.re)]

theorem norm_tanh_le {z : ℂ} (hz : |z.im| ≤ 1) : ‖Complex.tanh z‖ ≤ 2 := by
  rw [Complex.tanh_eq_sinh_div_cosh, norm_div, div_le_iff₀ (norm_pos_iff.2 (cosh_ne hz))]
  have h1 := norm_cosh_sq z.re z.im
  have h2 := norm_sinh_sq z.re z.im
  rw [Complex.re_add_im] at h1 h2
  have h3 := cos_one_bound hz
  have h4 := Real.sin_sq_add_cos_sq z.im
  refine le_of_sq_le_sq ?_ (by positivity)
  rw [mul_pow, h1, h2]
  nlinarith [sq_nonneg (Real.sinh z.re)]

theorem tanh_analytic {z : ℂ} (hz : |z.im| ≤ 1) : AnalyticAt ℂ Complex.tanh z := by
  have e : Complex.tanh = fun z => Complex.sinh z / Complex.cosh z := rfl
  rw [e]
  exact (Complex.analyticAt_sinh).div (Complex.analyticAt_cosh) (cosh_ne hz)

theorem norm_iteratedDeriv_tanh (n : ℕ) (x : ℝ) : ‖iteratedDeriv n Complex.tanh x‖ ≤ n.factorial * 2 := by
  have hb : ∀ z ∈ Metric.closedBall (x : ℂ) 1, |z.im| ≤ 1 := fun z hz => by
    rw [mem_closedBall_iff_norm] at hz
    have := Complex.abs_im_le_norm (z - x)
    simp at this
    exact this.trans hz
  have h := Complex.norm_iteratedDeriv_le_of_forall_mem_sphere_norm_le (c := x) (R := 1) (C := 2) (f := Complex.tanh) n one_pos
    (DifferentiableOn.diffContOnCl fun z hz => by
      rw [closure_ball _ one_ne_zero] at hz
      exact (tanh_analytic (hb z hz)).differentiableAt.differentiableWithinAt)
    (fun z hz => norm_tanh_le (hb z (Metric.sphere_subset_closedBall hz)))
  simpa using h

theorem iteratedDeriv_tanh_real : ∀ (n : ℕ) (x : ℝ), iteratedDeriv n Complex.tanh x = (iteratedDeriv n Real.tanh x : ℝ)
  | 0, x => by rw [iteratedDeriv_zero, iteratedDeriv_zero]; exact (Complex.ofReal_tanh x).symm
  | n + 1, x => by
    have ha : AnalyticAt ℂ (iteratedDeriv n Complex.tanh) x := by
      rw [iteratedDeriv_eq_iterate]; exact (tanh_analytic (z := x) (by simp)).iterated_deriv n
    have hd := ha.differentiableAt.hasDerivAt
    rw [iteratedDeriv_succ, iteratedDeriv_succ]
    set D := deriv (iteratedDeriv n Complex.tanh) x
    have h1 := hd.real_of_complex
    have h2 := hd.comp_ofReal
    have e1 : (fun y : ℝ => (iteratedDeriv n Complex.tanh y).re) = iteratedDeriv n Real.tanh := by
      funext y; rw [iteratedDeriv_tanh_real n y, Complex.ofReal_re]
    have e2 : (fun y : ℝ => iteratedDeriv n Complex.tanh y) = fun y : ℝ => ((iteratedDeriv n Real.tanh y : ℝ) : ℂ) := by
      funext y; rw [iteratedDeriv_tanh_real n y]
    rw [e1] at h1
    rw [e2] at h2
    rw [h2.unique h1.ofReal_comp, h1.deriv]

theorem iteratedDeriv_tanh_le (n : ℕ) (x : ℝ) : |iteratedDeriv n Real.tanh x| ≤ n.factorial * 2 := by
  have h := norm_iteratedDeriv_tanh n x
  rw [iteratedDeriv_tanh_real, Complex.norm_real] at h
  exact h

theorem contDiff_tanh : ContDiff ℝ ∞ Real.tanh := by
  have e : Real.tanh = fun z => Real.sinh z / Real.cosh z := by funext z; exact Real.tanh_eq_sinh_div_cosh z
  rw [e]
  exact Real.contDiff_sinh.div Real.contDiff_cosh fun x => (Real.cosh_pos x).ne'
end Cheb
end CrypTen

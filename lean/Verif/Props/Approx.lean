import Mathlib.Analysis.SpecialFunctions.Log.Deriv
import Mathlib.RingTheory.Polynomial.Chebyshev
import Mathlib.Data.Complex.Basic
import Mathlib.Tactic.FieldSimp
import Mathlib.Tactic.LinearCombination
import Verif.Model.Functions
import Verif.Props.Power

/-!
# C53: the iterative approximations in exact arithmetic
-/

namespace CrypTen
variable {K : Type} [Field K] [LinearOrder K] {ι : Type}

/-! ## exp -/

theorem exact_squarings : ∀ (d : ℕ) (x : ι → K) (i : ι), iterM (M := Id) (exactOps K).square d x i = x i ^ 2 ^ d
  | 0, x, i => by rw [pow_zero, pow_one]; rfl
  | d + 1, x, i => by
    show iterM (M := Id) (exactOps K).square d (fun i => x i * x i) i = _
    rw [exact_squarings d, ← sq, ← pow_mul, pow_succ, mul_comm 2]

/-- **C53, exp**: `d` iterations compute `(1 + x / 2^d) ^ (2^d)`. -/
theorem C53_exp [IsStrictOrderedRing K] (d : ℕ) (x : ι → K) (i : ι) : (exactOps K).exp d x i = (1 + x i / 2 ^ d) ^ 2 ^ d := by
  show iterM (M := Id) (exactOps K).square d (fun i => x i / ((2 ^ d : ℤ) : K) + ((1 : ℚ) : K)) i = _
  rw [exact_squarings]
  push_cast
  rw [add_comm]

theorem log_one_add_ge {u : ℝ} (h : |u| ≤ 1 / 2) : u - 2 * u ^ 2 ≤ Real.log (1 + u) := by
  have h1 := Real.abs_log_sub_add_sum_range_le (x := -u) (by rw [abs_neg]; linarith) 1
  rw [Finset.sum_range_one, abs_neg, sub_neg_eq_add] at h1
  have h2 : |u| ^ (1 + 1) / (1 - |u|) ≤ 2 * u ^ 2 := by
    rw [div_le_iff₀ (by linarith), ← sq_abs u]
    have e : |u| ^ (1 + 1) = |u| ^ 2 := rfl
    rw [e]
    nlinarith [mul_nonneg (sq_nonneg |u|) (show 0 ≤ 1 - 2 * |u| by linarith)]
  have h3 := (abs_le.1 (h1.trans h2)).1
  norm_num at h3
  linarith

theorem log_one_add_le {u : ℝ} (h : -1 < u) : Real.log (1 + u) ≤ u := by
  have := Real.log_le_sub_one_of_pos (show 0 < 1 + u by linarith); linarith

/-- **C53, exp**: how far the approximation is from the exponential function. It never exceeds it, and the relative error is at most `2 x² / 2^d`. -/
theorem C53_exp_accuracy (d : ℕ) (x : ι → ℝ) (i : ι) (hx : |x i| ≤ 2 ^ d / 2) :
    (exactOps ℝ).exp d x i ≤ Real.exp (x i) ∧ Real.exp (x i) * (1 - 2 * x i ^ 2 / 2 ^ d) ≤ (exactOps ℝ).exp d x i := by
  have hN : (0 : ℝ) < 2 ^ d := by positivity
  have hu : |x i / 2 ^ d| ≤ 1 / 2 := by
    rw [abs_div, abs_of_pos hN, div_le_iff₀ hN]; linarith
  have hpos : 0 < 1 + x i / 2 ^ d := by linarith [(abs_le.1 hu).1]
  have e : (1 + x i / 2 ^ d) ^ 2 ^ d = Real.exp ((2 ^ d : ℕ) * Real.log (1 + x i / 2 ^ d)) := by
    rw [Real.exp_nat_mul, Real.exp_log hpos]
  rw [C53_exp, e]
  push_cast
  constructor
  · apply Real.exp_le_exp.2
    have := mul_le_mul_of_nonneg_left (log_one_add_le (u := x i / 2 ^ d) (by linarith)) hN.le
    rwa [mul_div_cancel₀ _ hN.ne'] at this
  · have h1 := mul_le_mul_of_nonneg_left (log_one_add_ge hu) hN.le
    have h2 : (2 : ℝ) ^ d * (x i / 2 ^ d - 2 * (x i / 2 ^ d) ^ 2) = x i - 2 * x i ^ 2 / 2 ^ d := by field_simp
    rw [h2] at h1
    refine le_trans ?_ (Real.exp_le_exp.2 h1)
    have h3 := Real.add_one_le_exp (-(2 * x i ^ 2 / 2 ^ d))
    rw [sub_eq_add_neg (x i), Real.exp_add, mul_comm (Real.exp (x i)), mul_comm (Real.exp (x i))]
    exact mul_le_mul_of_nonneg_right (by linarith) (Real.exp_pos _).le

/-! ## reciprocal -/

theorem exact_recipStep (x r : ι → K) (i : ι) : (exactOps K).recipStep x r i = 2 * r i - r i ^ 2 * x i := by
  show r i + (r i - r i * r i * x i) = _
  ring

theorem exact_recipLoop (x : ι → K) : ∀ (k : ℕ) (r : ι → K) (i : ι), 1 - x i * iterM (M := Id) ((exactOps K).recipStep x) k r i = (1 - x i * r i) ^ 2 ^ k
  | 0, r, i => by rw [pow_zero, pow_one]; rfl
  | k + 1, r, i => by
    show 1 - x i * iterM (M := Id) ((exactOps K).recipStep x) k ((exactOps K).recipStep x r) i = _
    rw [exact_recipLoop x k, exact_recipStep, pow_succ 2 k, mul_comm (2 ^ k), pow_mul]
    congr 1
    ring

/-- **C53, Newton reciprocal from a number** (`reciprocal_initial`): after `k` iterations the relative error is `(1 - x q) ^ (2^k)`. -/
theorem C53_reciprocal_from_number [IsStrictOrderedRing K] (k : ℕ) (x : ι → K) (q : ℚ) (i : ι) :
    1 - x i * (exactOps K).recipFromNum k x q i = (1 - x i * q) ^ 2 ^ k := by
  cases k with
  | zero => rw [pow_zero, pow_one]; rfl
  | succ k =>
    show 1 - x i * iterM (M := Id) ((exactOps K).recipStep x) k (fun i => -(x i * ((q * q : ℚ) : K)) + ((2 * q : ℚ) : K)) i = _
    rw [exact_recipLoop x k, pow_succ 2 k, mul_comm (2 ^ k), pow_mul]
    congr 1
    push_cast
    ring

/-- **C53, Newton reciprocal**: with the default initial value `3 exp(1 - 2x) + 0.003`. -/
theorem C53_reciprocal_newton [IsStrictOrderedRing K] (c : FunCfg) (hm : c.recipMethod = .nr) (hi : c.recipInitial = none) (x : ι → K) (i : ι) :
    1 - x i * (exactOps K).recipPos c x i = (1 - x i * (3 * (1 + (1 - 2 * x i) / 2 ^ c.expIterations) ^ 2 ^ c.expIterations + 3 / 1000)) ^ 2 ^ c.recipNrIters := by
  have e : (exactOps K).recipPos c x = iterM (M := Id) ((exactOps K).recipStep x) c.recipNrIters ((exactOps K).recipInit c x) := by
    unfold Ops.recipPos
    rw [hm, hi]; rfl
  rw [e, exact_recipLoop x]
  congr 1
  have e2 : (exactOps K).recipInit c x i = (exactOps K).exp c.expIterations (fun i => -(x i * ((2 : ℤ) : K)) + ((1 : ℚ) : K)) i * ((3 : ℤ) : K) + ((0.003 : ℚ) : K) := rfl
  rw [e2, C53_exp]
  have e3 : ((0.003 : ℚ) : K) = 3 / 1000 := by norm_num
  rw [e3]
  push_cast
  ring

/-- **C53, Newton reciprocal converges on `(0, 128]`** with the default number of iterations of `exp`: the relative error before the first iteration is
smaller than one in absolute value, and at most `1 - 3x/1000` or `1/2 + 3x/1000`. -/
theorem C53_reciprocal_converges (c : FunCfg) (hm : c.recipMethod = .nr) (hi : c.recipInitial = none) (he : c.expIterations = 8) (x : ι → ℝ) (i : ι)
    (h0 : 0 < x i) (h1 : x i ≤ 128) :
    |1 - x i * (exactOps ℝ).recipPos c x i| ≤ (max (1 - 3 * x i / 1000) (1 / 2 + 3 * x i / 1000)) ^ 2 ^ c.recipNrIters ∧
      max (1 - 3 * x i / 1000) (1 / 2 + 3 * x i / 1000) < 1 := by
  have hE : (1 + (1 - 2 * x i) / 2 ^ 8) ^ 2 ^ 8 ≤ Real.exp (1 - 2 * x i) := by
    have hb : 0 ≤ 1 + (1 - 2 * x i) / 2 ^ 8 := by
      have : (1 - 2 * x i) / 2 ^ 8 ≥ -1 := by rw [ge_iff_le, le_div_iff₀ (by positivity)]; norm_num; linarith
      linarith
    have h := Real.add_one_le_exp ((1 - 2 * x i) / 2 ^ 8)
    have h2 : (1 + (1 - 2 * x i) / 2 ^ 8) ^ 2 ^ 8 ≤ Real.exp ((1 - 2 * x i) / 2 ^ 8) ^ 2 ^ 8 := pow_le_pow_left₀ hb (by linarith) _
    rw [← Real.exp_nat_mul] at h2
    refine h2.trans (le_of_eq ?_)
    congr 1
    push_cast
    norm_num
    ring
  have hx : x i * Real.exp (1 - 2 * x i) ≤ 1 / 2 := by
    have h := Real.add_one_le_exp (2 * x i - 1)
    have hpos := Real.exp_pos (1 - 2 * x i)
    have : Real.exp (2 * x i - 1) * Real.exp (1 - 2 * x i) = 1 := by rw [← Real.exp_add]; norm_num
    nlinarith
  obtain ⟨E, hEd⟩ : ∃ E, (1 + (1 - 2 * x i) / 2 ^ 8) ^ 2 ^ 8 = E := ⟨_, rfl⟩
  have hE0 : 0 ≤ (1 + (1 - 2 * x i) / 2 ^ 8) ^ 2 ^ 8 := Even.pow_nonneg (by decide) _
  rw [C53_reciprocal_newton c hm hi, he, abs_pow]
  rw [hEd] at hE hE0 ⊢
  refine ⟨pow_le_pow_left₀ (abs_nonneg _) ?_ _, ?_⟩
  · rw [abs_le]
    have h2 := mul_le_mul_of_nonneg_left hE h0.le
    have h3 : 0 ≤ x i * E := mul_nonneg h0.le hE0
    constructor
    · have := le_max_right (1 - 3 * x i / 1000) (1 / 2 + 3 * x i / 1000)
      nlinarith
    · have := le_max_left (1 - 3 * x i / 1000) (1 / 2 + 3 * x i / 1000)
      nlinarith
  · rw [max_lt_iff]
    constructor <;> linarith

/-- For `x = 1` and the default ten iterations the bound is `0.997 ^ 1024`, below 0.05. -/
example : (max (1 - 3 * (1 : ℝ) / 1000) (1 / 2 + 3 * 1 / 1000)) ^ 2 ^ 10 < 0.05 := by
  have : max (1 - 3 * (1 : ℝ) / 1000) (1 / 2 + 3 * 1 / 1000) = 997 / 1000 := by
    rw [max_eq_left]; norm_num
    norm_num
  rw [this]
  have e : (2 : ℕ) ^ 10 = 256 * 4 := by norm_num
  have h : (997 / 1000 : ℝ) ^ 256 ≤ 47 / 100 := by norm_num
  rw [e, pow_mul]
  exact lt_of_le_of_lt (pow_le_pow_left₀ (by positivity) h 4) (by norm_num)

/-- **C53, sign handling of the reciprocal**: the reciprocal of a negative number is minus the reciprocal of its absolute value. -/
theorem C53_reciprocal_odd [IsStrictOrderedRing K] (c : FunCfg) (h : c.recipAllPos = false) (x : ι → K) (i : ι) :
    (exactOps K).reciprocal c x i = (if x i < 0 then -1 else 1) * (exactOps K).recipPos c (fun i => |x i|) i := by
  have hs : (exactOps K).sign x = fun i => if x i < 0 then -1 else 1 := by
    funext i
    show -((if x i < 0 then (1 : K) else 0) * ((2 : ℤ) : K)) + ((1 : ℚ) : K) = _
    split
    · push_cast; norm_num
    · push_cast; norm_num
  have hp : (exactOps K).mul ((exactOps K).sign x) x = fun i => |x i| := by
    funext i
    show (exactOps K).sign x i * x i = _
    rw [hs]
    show (if x i < 0 then (-1 : K) else 1) * x i = _
    split
    · rename_i hx; rw [abs_of_neg hx]; ring
    · rename_i hx; rw [abs_of_nonneg (not_lt.1 hx), one_mul]
  have e : (exactOps K).reciprocal c x i = (exactOps K).sign x i * (exactOps K).recipPos c ((exactOps K).mul ((exactOps K).sign x) x) i := by
    unfold Ops.reciprocal
    rw [h]; rfl
  rw [e, hp, hs]

/-- The documented parameter `reciprocal_log_iters` has no effect: it is written to a configuration key that nothing reads. -/
theorem C53_reciprocal_log_iters_wrong (c : FunCfg) (k : ℕ) (x : ι → K) : (exactOps K).reciprocal { c with recipLogIters := k } x = (exactOps K).reciprocal c x := rfl

/-! ## inverse square root -/

theorem exact_invSqrtStep (x y : ι → K) (i : ι) : (exactOps K).invSqrtStep x y i = y i * (3 - x i * y i ^ 2) / 2 := by
  show y i * (-(x i * (y i * y i)) + ((3 : ℚ) : K)) / ((2 : ℤ) : K) = _
  push_cast
  ring

/-- **C53, inverse square root**: one step maps the relative error `e = 1 - x y²` to `e² (3 + e) / 4`. -/
theorem C53_inv_sqrt_step [IsStrictOrderedRing K] (x y : ι → K) (i : ι) :
    1 - x i * (exactOps K).invSqrtStep x y i ^ 2 = (1 - x i * y i ^ 2) ^ 2 * (3 + (1 - x i * y i ^ 2)) / 4 := by
  rw [exact_invSqrtStep]; ring

/-- **C53, inverse square root**: if the initial error is at most one in absolute value, `k` steps reduce it to at most its `2^k`-th power. -/
theorem C53_inv_sqrt_converges [IsStrictOrderedRing K] (x : ι → K) : ∀ (k : ℕ) (y : ι → K) (i : ι), |1 - x i * y i ^ 2| ≤ 1 →
    |1 - x i * iterM (M := Id) ((exactOps K).invSqrtStep x) k y i ^ 2| ≤ |1 - x i * y i ^ 2| ^ 2 ^ k
  | 0, y, i, _ => by rw [pow_zero, pow_one]; rfl
  | k + 1, y, i, h => by
    have hs : |1 - x i * (exactOps K).invSqrtStep x y i ^ 2| ≤ |1 - x i * y i ^ 2| ^ 2 := by
      rw [C53_inv_sqrt_step, abs_div, abs_mul, abs_of_pos (show (0 : K) < 4 by norm_num), abs_pow, div_le_iff₀ (by norm_num)]
      refine mul_le_mul_of_nonneg_left ?_ (by positivity)
      rw [abs_le] at h ⊢
      constructor <;> linarith [h.1, h.2]
    have h1 : |1 - x i * (exactOps K).invSqrtStep x y i ^ 2| ≤ 1 := hs.trans (pow_le_one₀ (abs_nonneg _) h)
    have := C53_inv_sqrt_converges x k ((exactOps K).invSqrtStep x y) i h1
    refine le_trans this ?_
    rw [pow_succ 2 k, mul_comm (2 ^ k), pow_mul]
    exact pow_le_pow_left₀ (abs_nonneg _) hs _

/-- **C53, square root**: `sqrt` is the inverse square root times the input, so its square is `x (1 - e)` with `e` the error of the inverse square root. -/
theorem C53_sqrt (c : FunCfg) (x : ι → K) (i : ι) :
    (exactOps K).sqrt c x i ^ 2 = x i * (1 - (1 - x i * (exactOps K).invSqrt c x i ^ 2)) := by
  have e : (exactOps K).sqrt c x i = (exactOps K).invSqrt c x i * x i := rfl
  rw [e]; ring

/-- The iteration of `inv_sqrt` and its start. -/
theorem C53_inv_sqrt_start (c : FunCfg) (x : ι → K) :
    (exactOps K).invSqrt c x = iterM (M := Id) ((exactOps K).invSqrtStep x) c.sqrtNrIters ((exactOps K).invSqrtInit c x) ∧
      ∀ i, (exactOps K).invSqrtInit c x i = (exactOps K).exp c.expIterations (fun i => -(x i / (2 : ℤ) + (0.2 : ℚ))) i * (2.2 : ℚ) + (0.2 : ℚ) - x i / (1024 : ℤ) :=
  ⟨rfl, fun _ => rfl⟩

example : |1 - (4 : ℚ) * (3 / 5) ^ 2| ≤ 1 := by norm_num [abs_le]

/-! ## complex exponential -/

theorem exact_eixLoop (c : ℂ → ℂ) (hc : c = fun z => z * z) : ∀ (k : ℕ) (re im : ι → ℝ) (i : ι),
    (⟨(iterM (M := Id) (exactOps ℝ).eixStep k (re, im)).1 i, (iterM (M := Id) (exactOps ℝ).eixStep k (re, im)).2 i⟩ : ℂ) = (⟨re i, im i⟩ : ℂ) ^ 2 ^ k
  | 0, re, im, i => by rw [pow_zero, pow_one]; rfl
  | k + 1, re, im, i => by
    have e : iterM (M := Id) (exactOps ℝ).eixStep (k + 1) (re, im)
      = iterM (M := Id) (exactOps ℝ).eixStep k (fun i => re i * re i - im i * im i, fun i => im i * re i * ((2 : ℤ) : ℝ)) := rfl
    rw [e, exact_eixLoop c hc k]
    rw [pow_succ, mul_comm (2 ^ k), pow_mul]
    congr 1
    apply Complex.ext
    · simp [sq]
    · simp [sq]; ring

/-- **C53, `_eix`**: with `d ≥ 1` iterations the two results are the real and imaginary part of `(1 + i x / 2^d) ^ (2^d)`. -/
theorem C53_eix (d : ℕ) (hd : 0 < d) (x : ι → ℝ) (i : ι) :
    (⟨((exactOps ℝ).eix d x).1 i, ((exactOps ℝ).eix d x).2 i⟩ : ℂ) = (1 + Complex.I * (x i / 2 ^ d)) ^ 2 ^ d := by
  have e : (exactOps ℝ).eix d x = iterM (M := Id) (exactOps ℝ).eixStep (d - 1)
      (fun i => -(x i / ((2 ^ d : ℤ) : ℝ) * (x i / ((2 ^ d : ℤ) : ℝ))) + ((1 : ℚ) : ℝ), fun i => x i / ((2 ^ d : ℤ) : ℝ) * ((2 : ℤ) : ℝ)) := rfl
  rw [e, exact_eixLoop (fun z => z * z) rfl]
  obtain ⟨d', rfl⟩ : ∃ d', d = d' + 1 := ⟨d - 1, by omega⟩
  have ep : (2 : ℕ) ^ (d' + 1) = 2 * 2 ^ d' := by ring
  rw [Nat.add_sub_cancel, ep, pow_mul (1 + _)]
  congr 1
  have h : ((x i : ℂ) / 2 ^ (d' + 1)) = ((x i / 2 ^ (d' + 1) : ℝ) : ℂ) := by push_cast; rfl
  have h2 : x i / ((2 ^ (d' + 1) : ℤ) : ℝ) = x i / 2 ^ (d' + 1) := by push_cast; rfl
  rw [h, h2]
  generalize x i / 2 ^ (d' + 1) = t
  apply Complex.ext
  · simp [sq]; ring
  · simp [sq]; ring

/-- With no iterations the code still squares once. -/
theorem C53_eix_zero (x : ι → ℝ) (i : ι) : (⟨((exactOps ℝ).eix 0 x).1 i, ((exactOps ℝ).eix 0 x).2 i⟩ : ℂ) = (1 + Complex.I * x i) ^ 2 := by
  have e : (exactOps ℝ).eix 0 x = (fun i => -(x i / ((2 ^ 0 : ℤ) : ℝ) * (x i / ((2 ^ 0 : ℤ) : ℝ))) + ((1 : ℚ) : ℝ), fun i => x i / ((2 ^ 0 : ℤ) : ℝ) * ((2 : ℤ) : ℝ)) := rfl
  rw [e]
  apply Complex.ext
  · simp [sq]; ring
  · simp [sq]; ring

/-! ## log -/

theorem exact_logStep [IsStrictOrderedRing K] (d order : ℕ) (x y : ι → K) (i : ι) :
    (exactOps K).logStep d order x y i = y i - ∑ j ∈ Finset.range order, (1 - x i * (1 - y i / 2 ^ d) ^ 2 ^ d) ^ (j + 1) / (j + 1) := by
  show y i - (exactOps K).polynomial (fun i => -(x i * (exactOps K).exp d (fun i => -y i) i) + ((1 : ℚ) : K)) _ i = _
  rw [C27_polynomial, C53_exp]
  congr 1
  rw [← Fin.sum_univ_eq_sum_range (fun j => (1 - x i * (1 - y i / 2 ^ d) ^ 2 ^ d) ^ (j + 1) / ((j : K) + 1))]
  have hl : ((List.range order).map fun i : ℕ => 1 / ((i : ℚ) + 1)).length = order := by simp
  refine Fintype.sum_equiv (finCongr hl) _ _ fun j => ?_
  simp only [List.get_eq_getElem, List.getElem_map, List.getElem_range, finCongr_apply, Fin.val_cast]
  push_cast
  have : 1 + -y i / 2 ^ d = 1 - y i / 2 ^ d := by ring
  rw [this, neg_add_eq_sub]
  ring

/-- **C53, log**: one Householder iteration. If `h = 1 - x E(-y)` is smaller than one in absolute value, the new iterate is within
`|h|^(order+1) / (1 - |h|) + 2 y² / 2^d` of `ln x`; the first summand is the error of the iteration, the second that of the exponential's approximation. -/
theorem C53_log_step (d order : ℕ) (x y : ι → ℝ) (i : ι) (hx : 0 < x i) (hy : |y i| ≤ 2 ^ d / 2)
    (hh : |1 - x i * (1 - y i / 2 ^ d) ^ 2 ^ d| < 1) :
    |(exactOps ℝ).logStep d order x y i - Real.log (x i)| ≤
      |1 - x i * (1 - y i / 2 ^ d) ^ 2 ^ d| ^ (order + 1) / (1 - |1 - x i * (1 - y i / 2 ^ d) ^ 2 ^ d|) + 2 * y i ^ 2 / 2 ^ d := by
  have hN : (0 : ℝ) < 2 ^ d := by positivity
  have hu : |-(y i / 2 ^ d)| ≤ 1 / 2 := by
    rw [abs_neg, abs_div, abs_of_pos hN, div_le_iff₀ hN]; linarith
  have hpos : 0 < 1 - y i / 2 ^ d := by linarith [(abs_le.1 hu).1]
  have h1 := Real.abs_log_sub_add_sum_range_le hh order
  have e1 : 1 - (1 - x i * (1 - y i / 2 ^ d) ^ 2 ^ d) = x i * (1 - y i / 2 ^ d) ^ 2 ^ d := by ring
  have e2 : Real.log (x i * (1 - y i / 2 ^ d) ^ 2 ^ d) = Real.log (x i) + 2 ^ d * Real.log (1 - y i / 2 ^ d) := by
    rw [Real.log_mul hx.ne' (pow_pos hpos _).ne', Real.log_pow]; push_cast; rfl
  rw [e1, e2] at h1
  have hlo := mul_le_mul_of_nonneg_left (log_one_add_ge hu) hN.le
  have hhi := mul_le_mul_of_nonneg_left (log_one_add_le (u := -(y i / 2 ^ d)) (by linarith)) hN.le
  rw [← sub_eq_add_neg] at hlo hhi
  have e3 : (2 : ℝ) ^ d * (-(y i / 2 ^ d) - 2 * (-(y i / 2 ^ d)) ^ 2) = -y i - 2 * y i ^ 2 / 2 ^ d := by field_simp
  have e4 : (2 : ℝ) ^ d * -(y i / 2 ^ d) = -y i := by field_simp
  rw [e3] at hlo
  rw [e4] at hhi
  rw [exact_logStep]
  set S := ∑ j ∈ Finset.range order, (1 - x i * (1 - y i / 2 ^ d) ^ 2 ^ d) ^ (j + 1) / ((j : ℝ) + 1) with hS
  rw [abs_le] at h1 ⊢
  constructor <;> linarith [h1.1, h1.2]

/-- A point where the hypotheses hold: `x = 1`, `y = 1/2`, with 8 squarings. -/
example : |(1 / 2 : ℝ)| ≤ 2 ^ 8 / 2 ∧ |1 - 1 * (1 - (1 / 2 : ℝ) / 2 ^ 8) ^ 2 ^ 8| < 1 := by
  constructor
  · rw [abs_of_pos] <;> norm_num
  · have h1 : (0 : ℝ) < (1 - (1 / 2 : ℝ) / 2 ^ 8) ^ 2 ^ 8 := by positivity
    have h2 : (1 - (1 / 2 : ℝ) / 2 ^ 8) ^ 2 ^ 8 ≤ 1 := pow_le_one₀ (by norm_num) (by norm_num)
    rw [abs_lt]; constructor <;> linarith

/-- **C53, log**: the iteration has `y` as a fixed point if and only if `x E(-y) = 1`, as long as `|1 - x E(-y)| < 1` and at least one term is used. -/
theorem C53_log_fixed_point (d order : ℕ) (ho : 0 < order) (x y : ι → ℝ) (i : ι) (hh : |1 - x i * (1 - y i / 2 ^ d) ^ 2 ^ d| < 1) :
    (exactOps ℝ).logStep d order x y i = y i ↔ x i * (1 - y i / 2 ^ d) ^ 2 ^ d = 1 := by
  rw [exact_logStep]
  set h := 1 - x i * (1 - y i / 2 ^ d) ^ 2 ^ d with hdef
  have hbr : 1 - h = x i * (1 - y i / 2 ^ d) ^ 2 ^ d := by rw [hdef]; ring
  rw [sub_eq_self, ← hbr]
  constructor
  · intro hs
    by_contra hne
    have hh0 : h ≠ 0 := fun h0 => hne (by rw [h0, sub_zero])
    rcases lt_or_gt_of_ne hh0 with hneg | hpos
    · -- alternating: pair the terms
      have key : ∀ m, ∑ j ∈ Finset.range (2 * m + 1), h ^ (j + 1) / ((j : ℝ) + 1) < 0 ∧ ∑ j ∈ Finset.range (2 * m + 2), h ^ (j + 1) / ((j : ℝ) + 1) < 0 := by
        have hab := (abs_lt.1 hh).1
        have hlast : ∀ m : ℕ, ∑ j ∈ Finset.range (2 * m + 2), h ^ (j + 1) / ((j : ℝ) + 1) < 0 := by
          intro m
          induction m with
          | zero => 
            rw [Finset.sum_range_succ, Finset.sum_range_one]; norm_num; nlinarith
          | succ m ih =>
            rw [show 2 * (m + 1) + 2 = 2 * m + 2 + 1 + 1 by ring, Finset.sum_range_succ, Finset.sum_range_succ]
            have hev : 0 < h ^ (2 * m + 2) := Even.pow_pos ⟨m + 1, by ring⟩ hh0
            have e1 : h ^ (2 * m + 2 + 1) = h ^ (2 * m + 2) * h := pow_succ _ _
            have e2 : h ^ (2 * m + 2 + 1 + 1) = h ^ (2 * m + 2) * h * h := by rw [pow_succ, pow_succ]
            have hm : (0 : ℝ) ≤ m := Nat.cast_nonneg m
            have : h ^ (2 * m + 2 + 1) / (((2 * m + 2 : ℕ) : ℝ) + 1) + h ^ (2 * m + 2 + 1 + 1) / (((2 * m + 2 + 1 : ℕ) : ℝ) + 1) < 0 := by
              rw [e1, e2]
              push_cast
              rw [div_add_div _ _ (by positivity) (by positivity)]
              apply div_neg_of_neg_of_pos _ (by positivity)
              have : h ^ (2 * m + 2) * h * (2 * (m : ℝ) + 2 + 1 + 1) + (2 * m + 2 + 1) * (h ^ (2 * m + 2) * h * h)
                = h ^ (2 * m + 2) * (h * ((2 * m + 4) + (2 * m + 3) * h)) := by ring
              rw [this]
              apply mul_neg_of_pos_of_neg hev
              apply mul_neg_of_neg_of_pos hneg
              nlinarith
            linarith
        intro m
        refine ⟨?_, hlast m⟩
        cases m with
        | zero => rw [Nat.mul_zero, Nat.zero_add, Finset.sum_range_one]; norm_num; exact hneg
        | succ m =>
          rw [show 2 * (m + 1) + 1 = 2 * m + 2 + 1 by ring, Finset.sum_range_succ]
          have hod : h ^ (2 * m + 2 + 1) < 0 := Odd.pow_neg ⟨m + 1, by ring⟩ hneg
          have : h ^ (2 * m + 2 + 1) / (((2 * m + 2 : ℕ) : ℝ) + 1) < 0 := div_neg_of_neg_of_pos hod (by positivity)
          linarith [hlast m]
      rcases Nat.even_or_odd' order with ⟨m, rfl | rfl⟩
      · obtain ⟨m', rfl⟩ : ∃ m', m = m' + 1 := ⟨m - 1, by omega⟩
        exact absurd hs (ne_of_lt (key m').2)
      · exact absurd hs (ne_of_lt (key m).1)
    · have : 0 < ∑ j ∈ Finset.range order, h ^ (j + 1) / ((j : ℝ) + 1) :=
        Finset.sum_pos (fun j _ => by positivity) ⟨0, Finset.mem_range.2 ho⟩
      exact absurd hs (ne_of_gt this)
  · intro hs
    have h0 : h = 0 := by linarith
    rw [h0]
    exact Finset.sum_eq_zero fun j _ => by rw [zero_pow (by omega), zero_div]

/-! ## Chebyshev polynomials -/

open Polynomial Polynomial.Chebyshev

theorem cheb_rec (x : K) (m : ℤ) : (T K (m + 2)).eval x = (4 * (x * x) - 2) * (T K m).eval x - (T K (m - 2)).eval x := by
  have h := congrArg (Polynomial.eval x) (T_mul_T K m 2)
  rw [T_two] at h
  simp only [eval_mul, eval_add, eval_sub, eval_pow, eval_X, eval_one, eval_ofNat] at h
  linear_combination -h

theorem exact_chebyshevLoop (x : ι → K) : ∀ (k j : ℕ) (p2 p1 : ι → K), (∀ i, p2 i = (T K (2 * j + 1)).eval (x i)) → (∀ i, p1 i = (T K (2 * (j + 1 : ℕ) + 1)).eval (x i)) →
    ((exactOps K).chebyshevLoop (fun i => 4 * (x i * x i) - 2) k p2 p1).length = k ∧
      ∀ a (h : a < ((exactOps K).chebyshevLoop (fun i => 4 * (x i * x i) - 2) k p2 p1).length) i,
        (show List (ι → K) from (exactOps K).chebyshevLoop (fun i => 4 * (x i * x i) - 2) k p2 p1)[a] i = (T K (2 * (j + 2 + a : ℕ) + 1)).eval (x i)
  | 0, j, p2, p1, h2, h1 => ⟨rfl, fun a h => absurd h (Nat.not_lt_zero a)⟩
  | k + 1, j, p2, p1, h2, h1 => by
    have h0 : ∀ i, ((4 * (x i * x i) - 2) * p1 i - p2 i) = (T K (2 * (j + 1 + 1 : ℕ) + 1)).eval (x i) := fun i => by
      rw [h1, h2]
      have := cheb_rec (x i) (2 * (j + 1 : ℕ) + 1)
      have e1 : (2 * ((j + 1 : ℕ) : ℤ) + 1 + 2) = 2 * ((j + 1 + 1 : ℕ) : ℤ) + 1 := by push_cast; ring
      have e2 : (2 * ((j + 1 : ℕ) : ℤ) + 1 - 2) = 2 * (j : ℤ) + 1 := by push_cast; ring
      rw [e1, e2] at this
      exact this.symm
    obtain ⟨ih1, ih2⟩ := exact_chebyshevLoop x k (j + 1) p1 (fun i => (4 * (x i * x i) - 2) * p1 i - p2 i) h1 h0
    have e : (exactOps K).chebyshevLoop (fun i => 4 * (x i * x i) - 2) (k + 1) p2 p1
      = (fun i => (4 * (x i * x i) - 2) * p1 i - p2 i) :: (exactOps K).chebyshevLoop (fun i => 4 * (x i * x i) - 2) k p1 (fun i => (4 * (x i * x i) - 2) * p1 i - p2 i) := rfl
    rw [e]
    refine ⟨by rw [List.length_cons, ih1], fun a h i => ?_⟩
    cases a with
    | zero => rw [List.getElem_cons_zero, h0]
    | succ a =>
      rw [List.getElem_cons_succ, ih2]
      congr 3
      push_cast; ring

/-- **C53, Chebyshev polynomials**: `_chebyshev_polynomials(x, terms)` is the list of the Chebyshev polynomials of the first kind of degree 1, 3, 5, …, `terms - 1`. -/
theorem C53_chebyshev [IsStrictOrderedRing K] (terms : ℕ) (h6 : 6 ≤ terms) (x : ι → K) :
    ((exactOps K).chebyshev terms x).length = terms / 2 ∧
      ∀ a (h : a < ((exactOps K).chebyshev terms x).length) i, (show List (ι → K) from (exactOps K).chebyshev terms x)[a] i = (T K (2 * a + 1)).eval (x i) := by
  have hp1 : ∀ i, (4 * (x i * x i) - 2 - 1) * x i = (T K (2 * (0 + 1 : ℕ) + 1)).eval (x i) := fun i => by
    have e1 : (2 * ((0 + 1 : ℕ) : ℤ) + 1) = 1 + 2 := by norm_num
    rw [e1, cheb_rec (x i) 1, T_one]
    have : (1 - 2 : ℤ) = -1 := by norm_num
    rw [this, T_neg, T_one]
    simp only [eval_X]; ring
  obtain ⟨h1, h2⟩ := exact_chebyshevLoop x (terms / 2 - 2) 0 x (fun i => (4 * (x i * x i) - 2 - 1) * x i) (fun i => by simp) hp1
  have e : (exactOps K).chebyshev terms x = x :: (fun i => (4 * (x i * x i) - 2 - 1) * x i)
      :: (exactOps K).chebyshevLoop (fun i => 4 * (x i * x i) - 2) (terms / 2 - 2) x (fun i => (4 * (x i * x i) - 2 - 1) * x i) := by
    have ey : (fun i => x i * x i * ((4 : ℤ) : K) - ((2 : ℚ) : K)) = fun i => 4 * (x i * x i) - 2 := by
      funext i; push_cast; ring
    show x :: (fun i => (x i * x i * ((4 : ℤ) : K) - ((2 : ℚ) : K) - ((1 : ℚ) : K)) * x i)
      :: (exactOps K).chebyshevLoop (fun i => x i * x i * ((4 : ℤ) : K) - ((2 : ℚ) : K)) (terms / 2 - 2) x (fun i => (x i * x i * ((4 : ℤ) : K) - ((2 : ℚ) : K) - ((1 : ℚ) : K)) * x i) = _
    have ez : (fun i => (x i * x i * ((4 : ℤ) : K) - ((2 : ℚ) : K) - ((1 : ℚ) : K)) * x i) = fun i => (4 * (x i * x i) - 2 - 1) * x i := by
      funext i; push_cast; ring
    rw [ey, ez]
  rw [e]
  refine ⟨by simp only [List.length_cons, h1]; omega, fun a ha i => ?_⟩
  match a with
  | 0 => simp
  | 1 => simpa using hp1 i
  | a + 2 =>
    rw [List.getElem_cons_succ, List.getElem_cons_succ, h2]
    congr 3
    push_cast; ring

end CrypTen

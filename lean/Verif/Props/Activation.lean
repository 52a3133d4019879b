import Verif.Props.Approx

/-!
# C53: sigmoid, tanh, erf, softmax, log_softmax in exact arithmetic
-/

namespace CrypTen
variable {K : Type} [Field K] [LinearOrder K] [IsStrictOrderedRing K] {ι : Type}

/-- The value of `sigmoid` on a nonnegative number, with the Newton reciprocal of `1 + E` started at 3/4: three iterations leave the relative error
`(1 - 3/4 (1 + E))^8`. -/
def sigPos (d : ℕ) (x : K) : K := (1 - (1 - 3 / 4 * (1 + (1 - |x| / 2 ^ d) ^ 2 ^ d)) ^ 8) / (1 + (1 - |x| / 2 ^ d) ^ 2 ^ d)

omit [IsStrictOrderedRing K] in
theorem whereEnc_zero_one (x y : ι → K) (l : ι → K) (i : ι) :
    (exactOps K).whereEnc x (fun i => -l i + ((1 : ℚ) : K)) y i = x i * (1 - l i) + l i * y i := by
  show x i * (-l i + ((1 : ℚ) : K)) + (-(-l i + ((1 : ℚ) : K)) + ((1 : ℚ) : K)) * y i = _
  push_cast; ring

theorem even_two_pow {d : ℕ} (hd : 0 < d) : Even (2 ^ d) := by
  obtain ⟨k, rfl⟩ : ∃ k, d = k + 1 := ⟨d - 1, by omega⟩
  exact ⟨2 ^ k, by rw [pow_succ]; ring⟩

/-- **C53, sigmoid** (method "reciprocal", Newton): the exact result, and the symmetry `sigmoid(-x) = 1 - sigmoid(x)`. -/
theorem C53_sigmoid (c : FunCfg) (hm : c.recipMethod = .nr) (hd : 0 < c.expIterations) (x : ι → K) (i : ι) :
    (exactOps K).sigmoidReciprocal c x i = if x i < 0 then 1 - sigPos c.expIterations (x i) else sigPos c.expIterations (x i) := by
  obtain ⟨den, hden⟩ : ∃ den : ι → K, den = fun i => (exactOps K).exp c.expIterations (fun i => -(x i * (-((if x i < 0 then (1 : K) else 0) * ((2 : ℤ) : K)) + ((1 : ℚ) : K)))) i + ((1 : ℚ) : K) := ⟨_, rfl⟩
  have hr : (exactOps K).reciprocal { c with expIterations := 9, recipNrIters := 3, recipAllPos := true, recipInitial := some 0.75 } den
      = (exactOps K).recipFromNum 3 den 0.75 := by
    unfold Ops.reciprocal Ops.recipPos
    simp only [if_true, hm]
  have e : (exactOps K).sigmoidReciprocal c x
      = (exactOps K).whereEnc ((exactOps K).reciprocal { c with expIterations := 9, recipNrIters := 3, recipAllPos := true, recipInitial := some 0.75 } den)
          (fun i => -(if x i < 0 then (1 : K) else 0) + ((1 : ℚ) : K)) (fun i => -((exactOps K).reciprocal { c with expIterations := 9, recipNrIters := 3, recipAllPos := true, recipInitial := some 0.75 } den) i + ((1 : ℚ) : K)) := by
    rw [hden]; rfl
  have hd2 : den i = 1 + (1 - |x i| / 2 ^ c.expIterations) ^ 2 ^ c.expIterations := by
    rw [hden]
    beta_reduce
    rw [C53_exp]
    have : -(x i * (-((if x i < 0 then (1 : K) else 0) * ((2 : ℤ) : K)) + ((1 : ℚ) : K))) = -|x i| := by
      split
      · rename_i h; rw [abs_of_neg h]; push_cast; ring
      · rename_i h; rw [abs_of_nonneg (not_lt.1 h)]; push_cast; ring
    rw [this]
    push_cast
    ring
  have hpos : 0 < den i := by
    rw [hd2]
    have := Even.pow_nonneg (even_two_pow hd) (1 - |x i| / 2 ^ c.expIterations)
    linarith
  have h := C53_reciprocal_from_number 3 den 0.75 i
  have hv : (exactOps K).recipFromNum 3 den 0.75 i = sigPos c.expIterations (x i) := by
    unfold sigPos
    rw [← hd2, eq_div_iff hpos.ne']
    have e3 : ((0.75 : ℚ) : K) = 3 / 4 := by norm_num
    rw [e3] at h
    have e4 : 1 - 3 / 4 * den i = 1 - den i * (3 / 4) := by ring
    rw [e4]
    have e5 : (2 : ℕ) ^ 3 = 8 := rfl
    rw [e5] at h
    linear_combination -h
  rw [e, whereEnc_zero_one, hr, hv]
  split
  · push_cast; ring
  · push_cast; ring

theorem C53_sigmoid_symmetric (c : FunCfg) (hm : c.recipMethod = .nr) (hd : 0 < c.expIterations) (x : ι → K) (i : ι) (hx : x i ≠ 0) :
    (exactOps K).sigmoidReciprocal c (fun i => -x i) i = 1 - (exactOps K).sigmoidReciprocal c x i := by
  rw [C53_sigmoid c hm hd, C53_sigmoid c hm hd]
  have : sigPos c.expIterations (-x i) = sigPos c.expIterations (x i) := by unfold sigPos; rw [abs_neg]
  rw [this]
  rcases lt_or_gt_of_ne hx with h | h
  · rw [if_neg (by linarith : ¬ -x i < 0), if_pos h]; ring
  · rw [if_pos (by linarith : -x i < 0), if_neg (by linarith : ¬ x i < 0)]

theorem sigPos_bounds (d : ℕ) (x : K) (h : (1 - |x| / 2 ^ d) ^ 2 ^ d ≤ 1) (h0 : 0 ≤ (1 - |x| / 2 ^ d) ^ 2 ^ d) :
    sigPos d x ≤ 1 / (1 + (1 - |x| / 2 ^ d) ^ 2 ^ d) ∧ 1 / (1 + (1 - |x| / 2 ^ d) ^ 2 ^ d) - 1 / 256 ≤ sigPos d x := by
  unfold sigPos
  generalize (1 - |x| / 2 ^ d) ^ 2 ^ d = E at h h0 ⊢
  have hpos : 0 < 1 + E := by linarith
  have hb : |1 - 3 / 4 * (1 + E)| ≤ 1 / 2 := by rw [abs_le]; constructor <;> linarith
  have h8 : (1 - 3 / 4 * (1 + E)) ^ 8 ≤ 1 / 256 := by
    have := pow_le_pow_left₀ (abs_nonneg _) hb 8
    rw [Even.pow_abs (by decide)] at this
    refine this.trans (by norm_num)
  have h80 : 0 ≤ (1 - 3 / 4 * (1 + E)) ^ 8 := Even.pow_nonneg (by decide) _
  constructor
  · gcongr; linarith
  · rw [sub_le_iff_le_add, sub_div, sub_add_eq_add_sub, le_sub_iff_add_le]
    have : (1 - 3 / 4 * (1 + E)) ^ 8 / (1 + E) ≤ 1 / 256 := by
      rw [div_le_iff₀ hpos]; nlinarith
    linarith

/-- **C53, sigmoid's accuracy**: for inputs up to half of `2^d` in absolute value (128 by default) the result is within `1/256 + 2/2^d` of the logistic
function. -/
theorem C53_sigmoid_accuracy (c : FunCfg) (hm : c.recipMethod = .nr) (hd : 0 < c.expIterations) (x : ι → ℝ) (i : ι) (hx : |x i| ≤ 2 ^ c.expIterations / 2) :
    |(exactOps ℝ).sigmoidReciprocal c x i - 1 / (1 + Real.exp (-x i))| ≤ 1 / 256 + 2 / 2 ^ c.expIterations := by
  set d := c.expIterations with hdd
  have hN : (0 : ℝ) < 2 ^ d := by positivity
  have hacc := C53_exp_accuracy d (fun _ : Unit => -|x i|) () (by rw [abs_neg, abs_abs]; exact hx)
  rw [C53_exp] at hacc
  have e0 : 1 + -|x i| / 2 ^ d = 1 - |x i| / 2 ^ d := by ring
  rw [e0] at hacc
  have hE0 : 0 ≤ (1 - |x i| / 2 ^ d) ^ 2 ^ d := Even.pow_nonneg (even_two_pow hd) _
  have hle : Real.exp (-|x i|) ≤ 1 := Real.exp_le_one_iff.2 (by linarith [abs_nonneg (x i)])
  obtain ⟨hu, hl⟩ := sigPos_bounds d (x i) (hacc.1.trans hle) hE0
  set E := (1 - |x i| / 2 ^ d) ^ 2 ^ d with hE
  set F := Real.exp (-|x i|) with hF
  have hF0 : 0 < F := Real.exp_pos _
  -- |E - F| ≤ 2 / 2^d
  have hx2 : |x i| ^ 2 * F ≤ 1 := by
    have h1 := Real.add_one_le_exp (|x i| / 2 - 1)
    have h2 : |x i| / 2 ≤ Real.exp (|x i| / 2 - 1) := by linarith
    have h3 : (|x i| / 2) ^ 2 ≤ Real.exp (|x i| / 2 - 1) ^ 2 := pow_le_pow_left₀ (by positivity) h2 2
    have h4 : Real.exp (|x i| / 2 - 1) ^ 2 = Real.exp (|x i|) * Real.exp (-2) := by
      rw [← Real.exp_nat_mul, ← Real.exp_add]; congr 1; push_cast; ring
    have h5 : Real.exp (-2) ≤ 1 / 4 := by
      have : (2 : ℝ) ≤ Real.exp 1 := by have := Real.add_one_le_exp (1 : ℝ); linarith
      have h6 : (4 : ℝ) ≤ Real.exp 2 := by
        have : Real.exp 2 = Real.exp 1 * Real.exp 1 := by rw [← Real.exp_add]; norm_num
        nlinarith
      rw [Real.exp_neg, ← one_div]
      exact one_div_le_one_div_of_le (by norm_num) h6
    have h7 : Real.exp |x i| * F = 1 := by rw [hF, ← Real.exp_add]; simp
    have h8 := Real.exp_pos |x i|
    rw [h4] at h3
    have h9 : |x i| ^ 2 ≤ Real.exp |x i| := by nlinarith
    calc |x i| ^ 2 * F ≤ Real.exp |x i| * F := mul_le_mul_of_nonneg_right h9 hF0.le
      _ = 1 := h7
  have hEF : F - E ≤ 2 / 2 ^ d := by
    have h1 : F * (1 - 2 * (-|x i|) ^ 2 / 2 ^ d) = F - 2 * (|x i| ^ 2 * F) / 2 ^ d := by ring
    rw [h1] at hacc
    have : 2 * (|x i| ^ 2 * F) / 2 ^ d ≤ 2 / 2 ^ d := by gcongr; linarith
    linarith [hacc.2]
  have hinv : 0 ≤ 1 / (1 + E) - 1 / (1 + F) ∧ 1 / (1 + E) - 1 / (1 + F) ≤ 2 / 2 ^ d := by
    have h1 : 1 / (1 + E) - 1 / (1 + F) = (F - E) / ((1 + E) * (1 + F)) := by
      field_simp; ring
    rw [h1]
    have h2 : 0 ≤ F - E := by linarith [hacc.1]
    have h3 : 1 ≤ (1 + E) * (1 + F) := by nlinarith
    refine ⟨by positivity, ?_⟩
    exact (div_le_self h2 h3).trans hEF
  have hsig : |sigPos d (x i) - 1 / (1 + F)| ≤ 1 / 256 + 2 / 2 ^ d := by
    rw [abs_le]
    have : 0 ≤ 2 / (2 : ℝ) ^ d := by positivity
    constructor <;> linarith [hinv.1, hinv.2]
  rw [C53_sigmoid c hm hd]
  split
  · rename_i h
    have h1 : 1 / (1 + Real.exp (-x i)) = 1 - 1 / (1 + F) := by
      have h2 : F = Real.exp (x i) := by rw [hF, abs_of_neg h, neg_neg]
      rw [h2, Real.exp_neg]
      have := Real.exp_pos (x i)
      field_simp; ring
    rw [h1]
    have : 1 - sigPos d (x i) - (1 - 1 / (1 + F)) = -(sigPos d (x i) - 1 / (1 + F)) := by ring
    rw [this, abs_neg]
    exact hsig
  · rename_i h
    have h1 : F = Real.exp (-x i) := by rw [hF, abs_of_nonneg (not_lt.1 h)]
    rw [← h1]
    exact hsig

example : |(-(100 : ℝ))| ≤ 2 ^ ({} : FunCfg).expIterations / 2 := by
  show |(-(100 : ℝ))| ≤ 2 ^ 8 / 2
  rw [abs_neg, abs_of_pos (by norm_num)]; norm_num

/-- Outside that range the approximation breaks down: with the default settings `sigmoid(512) < 1/2`, as the approximation of `exp(-512)` is 1. -/
theorem C53_sigmoid_wrong : (exactOps ℚ).sigmoidReciprocal {} (fun _ : Unit => 512) () = 255 / 512 := by
  rw [C53_sigmoid _ rfl (by decide)]
  have h : (1 - |(512 : ℚ)| / 2 ^ ({} : FunCfg).expIterations) ^ 2 ^ ({} : FunCfg).expIterations = 1 := by
    show (1 - |(512 : ℚ)| / 2 ^ 8) ^ 2 ^ 8 = 1
    rw [abs_of_pos (by norm_num)]
    have : (1 - (512 : ℚ) / 2 ^ 8) = -1 := by norm_num
    rw [this]
    exact Even.neg_one_pow (by decide)
  rw [if_neg (by norm_num)]
  unfold sigPos
  rw [h]
  norm_num

/-- **C53, tanh** (method "reciprocal"): `2 sigmoid(2x) - 1`, and its accuracy. -/
theorem C53_tanh (c : FunCfg) (hs : c.sigmoidMethod = .reciprocal) (coeffs : ℕ → ℚ) (x : ι → K) (i : ι) :
    (exactOps K).tanh c coeffs x i = 2 * (exactOps K).sigmoidReciprocal c (fun i => x i * 2) i - 1 := by
  have e : (exactOps K).tanh c coeffs x i = (exactOps K).sigmoidReciprocal c (fun i => x i * ((2 : ℤ) : K)) i * ((2 : ℤ) : K) - ((1 : ℚ) : K) := by
    unfold Ops.tanh; rw [hs]; rfl
  rw [e]
  push_cast
  ring

theorem C53_tanh_accuracy (c : FunCfg) (hs : c.sigmoidMethod = .reciprocal) (hm : c.recipMethod = .nr) (hd : 0 < c.expIterations) (coeffs : ℕ → ℚ)
    (x : ι → ℝ) (i : ι) (hx : |x i| ≤ 2 ^ c.expIterations / 4) :
    |(exactOps ℝ).tanh c coeffs x i - (Real.exp (x i) - Real.exp (-x i)) / (Real.exp (x i) + Real.exp (-x i))| ≤ 1 / 128 + 4 / 2 ^ c.expIterations := by
  have h := C53_sigmoid_accuracy c hm hd (fun i => x i * 2) i (by rw [abs_mul, abs_two]; linarith)
  have e : (Real.exp (x i) - Real.exp (-x i)) / (Real.exp (x i) + Real.exp (-x i)) = 2 * (1 / (1 + Real.exp (-(x i * 2)))) - 1 := by
    have h1 := Real.exp_pos (x i)
    have h2 : Real.exp (-(x i * 2)) = Real.exp (-x i) * Real.exp (-x i) := by rw [← Real.exp_add]; congr 1; ring
    have h3 : Real.exp (-x i) = (Real.exp (x i))⁻¹ := Real.exp_neg _
    rw [h2, h3]
    field_simp; ring
  rw [C53_tanh c hs, e]
  have e2 : ∀ a b : ℝ, 2 * a - 1 - (2 * b - 1) = 2 * (a - b) := fun a b => by ring
  rw [e2, abs_mul, abs_two]
  have : (4 : ℝ) / 2 ^ c.expIterations = 2 * (2 / 2 ^ c.expIterations) := by ring
  rw [this]
  linarith

/-! ## hardtanh -/

omit [IsStrictOrderedRing K] in
theorem exact_relu (x : ι → K) (i : ι) : (exactOps K).relu x i = if x i < 0 then 0 else x i := by
  have e : (exactOps K).relu x i = x i * (-(if x i - ((0 : ℚ) : K) < 0 then (1 : K) else 0) + ((1 : ℚ) : K)) := rfl
  rw [e, Rat.cast_zero, sub_zero]
  split <;> simp

/-- `hardtanh` clamps its input to the given bounds. -/
theorem C53_hardtanh (lo hi : ℚ) (h : lo ≤ hi) (x : ι → K) (i : ι) : (exactOps K).hardtanh lo hi x i = max (lo : K) (min (hi : K) (x i)) := by
  have hK : (lo : K) ≤ hi := by exact_mod_cast h
  have e : (exactOps K).hardtanh lo hi x i
      = (exactOps K).relu (fun k : Fin 2 × ι => (if k.1 = 0 then (fun i => x i - (lo : K)) else fun i => x i - (hi : K)) k.2) (0, i)
        - (exactOps K).relu (fun k : Fin 2 × ι => (if k.1 = 0 then (fun i => x i - (lo : K)) else fun i => x i - (hi : K)) k.2) (1, i) + (lo : K) := rfl
  rw [e, exact_relu, exact_relu]
  show (if x i - (lo : K) < 0 then 0 else x i - (lo : K)) - (if x i - (hi : K) < 0 then 0 else x i - (hi : K)) + (lo : K) = _
  by_cases h1 : x i < lo
  · rw [if_pos (by linarith), if_pos (by linarith), min_eq_right (by linarith), max_eq_left (by linarith)]; ring
  · by_cases h2 : x i < hi
    · rw [if_neg (by linarith), if_pos (by linarith), min_eq_right (by linarith), max_eq_right (by linarith)]; ring
    · rw [if_neg (by linarith), if_neg (by linarith), min_eq_left (by linarith), max_eq_right (by linarith)]; ring

/-! ## tanh and sigmoid by Chebyshev polynomials -/

open Polynomial Polynomial.Chebyshev in
/-- **C53, tanh by Chebyshev polynomials**: the series with the given coefficients of odd index, clamped to `[-1, 1]`. -/
theorem C53_tanh_chebyshev (c : FunCfg) (h6 : 6 ≤ c.sigmoidTerms) (coeffs : ℕ → ℚ) (x : ι → K) (i : ι) :
    (exactOps K).tanhChebyshev c coeffs x i
      = max (-1) (min 1 (∑ a ∈ Finset.range (c.sigmoidTerms / 2), (T K (2 * a + 1)).eval (x i) * (coeffs a : K))) := by
  obtain ⟨h1, h2⟩ := C53_chebyshev c.sigmoidTerms h6 x
  have e : (exactOps K).tanhChebyshev c coeffs x
      = (exactOps K).hardtanh (-1) 1 (fun i => ∑ j : Fin (show List (ι → K) from (exactOps K).chebyshev c.sigmoidTerms x).length,
          (show List (ι → K) from (exactOps K).chebyshev c.sigmoidTerms x)[j] i * (coeffs j : K)) := rfl
  rw [e, C53_hardtanh _ _ (by norm_num)]
  push_cast
  congr 2
  rw [← h1, ← Fin.sum_univ_eq_sum_range (fun a => (T K (2 * a + 1)).eval (x i) * (coeffs a : K))]
  exact Finset.sum_congr rfl fun j _ => by rw [← h2 j j.2 i]; rfl

/-! ## erf -/

omit [IsStrictOrderedRing K] in
theorem exact_erfLoop (x : ι → K) : ∀ (k n : ℕ) (out : ι → K) (i : ι), (exactOps K).erfLoop x k n out i
    = out i + ∑ j ∈ Finset.range k, x i ^ powExponent (2 * (n + j) + 1) * (((-1) ^ (n + j) / (((n + j).factorial : ℚ) * (2 * (n + j : ℕ) + 1)) : ℚ) : K)
  | 0, n, out, i => by rw [Finset.sum_range_zero, add_zero]; rfl
  | k + 1, n, out, i => by
    have e : (exactOps K).erfLoop x (k + 1) n out i = (exactOps K).erfLoop x k (n + 1) (fun i => out i +
      (exactOps K).powPos x (2 * n + 1) i * (((-1) ^ n / ((n.factorial : ℚ) * (2 * n + 1)) : ℚ) : K)) i := rfl
    rw [e, exact_erfLoop x k, Finset.sum_range_succ', C26_pow_exponent _ (by omega)]
    rw [add_zero]
    have : ∀ j, n + 1 + j = n + (j + 1) := fun j => by omega
    simp only [this]
    ring

/-- **C53, erf**: the result is the truncated Maclaurin series with the powers that `pow` computes instead of the odd ones. -/
theorem C53_erf (c : FunCfg) (s : ℚ) (x : ι → K) (i : ι) : (exactOps K).erf c s x i
    = (x i + ∑ j ∈ Finset.range c.erfIterations, x i ^ powExponent (2 * (1 + j) + 1) * (((-1) ^ (1 + j) / (((1 + j).factorial : ℚ) * (2 * (1 + j : ℕ) + 1)) : ℚ) : K)) * s := by
  have e : (exactOps K).erf c s x i = (exactOps K).erfLoop x c.erfIterations 1 x i * (s : K) := rfl
  rw [e, exact_erfLoop]

/-- With two terms, at 2, the Maclaurin polynomial `x - x^3/3 + x^5/10` is 2 - 8/3 + 32/10; `erf` computes `2 - 8/3 + 64/10`. -/
theorem C53_erf_wrong : (exactOps ℚ).erf { erfIterations := 2 } 1 (fun _ : Unit => 2) () = 2 - 2 ^ 3 / 3 + 2 ^ 6 / 10 ∧
    (2 - 2 ^ 3 / 3 + 2 ^ 6 / 10 : ℚ) ≠ 2 - 2 ^ 3 / 3 + 2 ^ 5 / 10 := by
  refine ⟨?_, by norm_num⟩
  have h3 : powExponent 3 = 3 := by decide +kernel
  have h5 : powExponent 5 = 6 := by decide +kernel
  rw [C53_erf, Finset.sum_range_succ, Finset.sum_range_one]
  have e1 : 2 * (1 + 0) + 1 = 3 := rfl
  have e2 : 2 * (1 + 1) + 1 = 5 := rfl
  rw [e1, e2, h3, h5]
  norm_num [Nat.factorial]

/-! ## softmax -/

/-- The numerators of `softmax`. -/
def softNum (d : ℕ) {m : ℕ} (x : Fin (m + 2) × ι → K) (j : Fin (m + 2)) (i : ι) : K :=
  (1 + (x (j, i) - Finset.univ.sup' Finset.univ_nonempty fun k => x (k, i)) / 2 ^ d) ^ 2 ^ d

/-- **C53, softmax**: the outputs are the approximated exponentials of `x - max`, times one approximate reciprocal `r` of their sum `S`; they add up to
`1 - (1 - S r0)^(2^k)`, with `r0` the reciprocal's initial value. -/
theorem C53_softmax (c : FunCfg) (hm : c.recipMethod = .nr) (hi : c.recipInitial = none) {m : ℕ} (x : Fin (m + 2) × ι → K) (i : ι) :
    ∃ r : K, (∀ j, (exactOps K).softmax c x (j, i) = softNum c.expIterations x j i * r) ∧
      1 - ∑ j, (exactOps K).softmax c x (j, i)
        = (1 - (∑ j, softNum c.expIterations x j i) * (3 * (1 + (1 - 2 * ∑ j, softNum c.expIterations x j i) / 2 ^ c.expIterations) ^ 2 ^ c.expIterations + 3 / 1000)) ^ 2 ^ c.recipNrIters := by
  have e : ∀ j i, (exactOps K).softmax c x (j, i) = softNum c.expIterations x j i
      * (exactOps K).reciprocal { c with recipAllPos := true } (fun i => ∑ j, softNum c.expIterations x j i) i := by
    intro j i
    have hnum : ∀ (j : Fin (m + 2)) (i : ι), (exactOps K).exp c.expIterations (fun k : Fin (m + 2) × ι => x k -
        (if h : (Finset.univ : Finset (Fin (m + 2))).Nonempty then Finset.univ.sup' h fun j => x (j, k.2) else 0)) (j, i) = softNum c.expIterations x j i := by
      intro j i
      rw [C53_exp]
      simp only [Finset.univ_nonempty, dif_pos]
      rfl
    have e1 : (exactOps K).softmax c x (j, i) = (exactOps K).exp c.expIterations (fun k : Fin (m + 2) × ι => x k -
        (if h : (Finset.univ : Finset (Fin (m + 2))).Nonempty then Finset.univ.sup' h fun j => x (j, k.2) else 0)) (j, i)
        * (exactOps K).reciprocal { c with recipAllPos := true } (fun i => ∑ j, (exactOps K).exp c.expIterations (fun k : Fin (m + 2) × ι => x k -
        (if h : (Finset.univ : Finset (Fin (m + 2))).Nonempty then Finset.univ.sup' h fun j => x (j, k.2) else 0)) (j, i)) i := by
      unfold Ops.softmax
      rw [if_neg (by omega)]
      rfl
    have hsum : (fun i => ∑ j, (exactOps K).exp c.expIterations (fun k : Fin (m + 2) × ι => x k -
        (if h : (Finset.univ : Finset (Fin (m + 2))).Nonempty then Finset.univ.sup' h fun j => x (j, k.2) else 0)) (j, i)) = fun i => ∑ j, softNum c.expIterations x j i := by
      funext i
      exact Finset.sum_congr rfl fun j _ => hnum j i
    rw [e1, hnum, hsum]
  refine ⟨_, fun j => e j i, ?_⟩
  have hS : ∑ j, (exactOps K).softmax c x (j, i) = (∑ j, softNum c.expIterations x j i)
      * (exactOps K).recipPos { c with recipAllPos := true } (fun i => ∑ j, softNum c.expIterations x j i) i := by
    rw [Finset.sum_mul]
    exact Finset.sum_congr rfl fun j _ => by rw [e j i]; rfl
  rw [hS]
  exact C53_reciprocal_newton { c with recipAllPos := true } hm hi (fun i => ∑ j, softNum c.expIterations x j i) i

/-- With one class the result is one, whatever the input. -/
theorem C53_softmax_one (c : FunCfg) (x : Fin 1 × ι → K) (k : Fin 1 × ι) : (exactOps K).softmax c x k = 1 := by
  have e : (exactOps K).softmax c x k = ((1 : ℚ) : K) := by unfold Ops.softmax; rw [if_pos rfl]; rfl
  rw [e, Rat.cast_one]

/-- **C53, softmax accuracy of the sum**: over at most 128 classes, whose scores are at most `2^d / 2 = 128` below the maximum, the outputs add up to one up to
the error of the converging Newton iteration. -/
theorem C53_softmax_sum (c : FunCfg) (hm : c.recipMethod = .nr) (hi : c.recipInitial = none) (he : c.expIterations = 8) {m : ℕ} (hm128 : m + 2 ≤ 128)
    (x : Fin (m + 2) × ι → ℝ) (i : ι) (hx : ∀ j k, x (k, i) - x (j, i) ≤ 256) :
    |1 - ∑ j, (exactOps ℝ).softmax c x (j, i)| ≤ (497 / 500 + 3 / 1000 : ℝ) ^ 2 ^ c.recipNrIters := by
  obtain ⟨r, hr, hs⟩ := C53_softmax c hm hi x i
  have h01 : ∀ j, 0 ≤ softNum c.expIterations x j i ∧ softNum c.expIterations x j i ≤ 1 := by
    intro j
    unfold softNum
    rw [he]
    have hsup : x (j, i) ≤ Finset.univ.sup' Finset.univ_nonempty fun k => x (k, i) := Finset.le_sup' (fun k => x (k, i)) (Finset.mem_univ j)
    obtain ⟨k, -, hk⟩ := Finset.exists_mem_eq_sup' (Finset.univ_nonempty (α := Fin (m + 2))) fun k => x (k, i)
    have hlo := hx j k
    have hk' : (Finset.univ.sup' Finset.univ_nonempty fun k => x (k, i)) = x (k, i) := hk
    rw [← hk'] at hlo
    have h1 : -1 ≤ (x (j, i) - Finset.univ.sup' Finset.univ_nonempty fun k => x (k, i)) / 2 ^ 8 := by
      rw [le_div_iff₀ (by positivity)]
      have : (2 : ℝ) ^ 8 = 256 := by norm_num
      rw [this]; linarith
    have h2 : (x (j, i) - Finset.univ.sup' Finset.univ_nonempty fun k => x (k, i)) / 2 ^ 8 ≤ 0 := div_nonpos_of_nonpos_of_nonneg (by linarith) (by positivity)
    exact ⟨pow_nonneg (by linarith) _, pow_le_one₀ (by linarith) (by linarith)⟩
  have hone : ∃ k, softNum c.expIterations x k i = 1 := by
    obtain ⟨k, -, hk⟩ := Finset.exists_mem_eq_sup' (Finset.univ_nonempty (α := Fin (m + 2))) fun k => x (k, i)
    refine ⟨k, ?_⟩
    unfold softNum
    rw [hk, sub_self, zero_div, add_zero, one_pow]
  have hSlo : 1 ≤ ∑ j, softNum c.expIterations x j i := by
    obtain ⟨k, hk⟩ := hone
    rw [← hk]
    exact Finset.single_le_sum (f := fun j => softNum c.expIterations x j i) (fun j _ => (h01 j).1) (Finset.mem_univ k)
  have hShi : ∑ j, softNum c.expIterations x j i ≤ 128 := by
    have h := Finset.sum_le_card_nsmul Finset.univ (fun j => softNum c.expIterations x j i) 1 fun j _ => (h01 j).2
    rw [Finset.card_univ, Fintype.card_fin, nsmul_eq_mul, mul_one] at h
    have h2 : ((m + 2 : ℕ) : ℝ) ≤ 128 := by exact_mod_cast hm128
    linarith
  obtain ⟨hc, -⟩ := C53_reciprocal_converges c hm hi he (fun _ : Unit => ∑ j, softNum c.expIterations x j i) () (by linarith) hShi
  have hn := C53_reciprocal_newton c hm hi (fun _ : Unit => ∑ j, softNum c.expIterations x j i) ()
  rw [hn] at hc
  rw [hs]
  refine hc.trans (pow_le_pow_left₀ (le_max_of_le_right (by positivity)) (max_le ?_ ?_) _) <;> linarith

end CrypTen

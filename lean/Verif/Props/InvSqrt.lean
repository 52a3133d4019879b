import Verif.Spec.InvSqrt
import Verif.Props.CosSin

/-!
# The inverse square root and the square root as they are computed on shares
-/

namespace CrypTen
variable {n : ℕ} {ι : Type} {k : ℕ}

theorem sqrt_residual (x y : ℚ) : 1 - x * (y * (3 - x * y ^ 2) / 2) ^ 2 = (1 - x * y ^ 2) ^ 2 * (3 + (1 - x * y ^ 2)) / 4 := by ring

theorem residual_le {r ρ : ℚ} (h : |r| ≤ ρ) (h1 : ρ ≤ 1) : |r ^ 2 * (3 + r) / 4| ≤ ρ ^ 2 * (3 + ρ) / 4 := by
  have h0 : 0 ≤ ρ := (abs_nonneg _).trans h
  have h2 := abs_le.1 h
  have h3 : 0 ≤ 3 + r := by linarith
  have h4 : r ^ 2 ≤ ρ ^ 2 := by rw [← sq_abs]; exact pow_le_pow_left₀ (abs_nonneg _) h 2
  rw [abs_of_nonneg (by positivity)]
  refine div_le_div_of_nonneg_right (mul_le_mul h4 (by linarith) h3 (by positivity)) (by norm_num)

theorem le_of_mul_sq {x y B : ℚ} (hx : 0 < x) (hB : 0 ≤ B) (h : x * y ^ 2 ≤ x * B ^ 2) : |y| ≤ B := by
  have : y ^ 2 ≤ B ^ 2 := le_of_mul_le_mul_left h hx
  exact abs_le_of_sq_le_sq this hB

/-- One iteration on shares. -/
theorem sat_invSqrtStep [NeZero n] (hn : n < 2 ^ 60) (q : ℕ) (method : MaxMethod) (hk0 : 0 < k) (hk : k ≤ 62) (hnk : (n : ℚ) ≤ 2 ^ k) (x y : AST n ι) (hx : x.scale = 2 ^ k)
    (hy : y.scale = 2 ^ k) (B ρ : ι → ℚ) (hx0 : ∀ i, 0 < x.value i) (hB : ∀ i, 0 < B i) (hroot : ∀ i, 2 ≤ x.value i * B i ^ 2)
    (hfit : ∀ i, 2 ^ k * 2 ^ k * ((B i + 1) ^ 2 * (x.value i + 6)) < 2 ^ 63) (hy0 : ∀ i, 0 < y.value i) (hρ : ∀ i, |1 - x.value i * y.value i ^ 2| ≤ ρ i) (hρ1 : ∀ i, ρ i < 1)
    (hnext : ∀ i, ρ i ^ 2 * (3 + ρ i) / 4 + sqrtLoss n k (x.value i) (B i) < 1) :
    Sat ((mpcOps n q method).invSqrtStep x y) fun z => z.scale = 2 ^ k ∧ ∀ i, 0 < z.value i ∧
      |1 - x.value i * z.value i ^ 2| ≤ ρ i ^ 2 * (3 + ρ i) / 4 + sqrtLoss n k (x.value i) (B i) := by
  have hxq := scaleQ_of hx
  have hyq := scaleQ_of hy
  have hp : (0 : ℚ) < 2 ^ k := by positivity
  have hp1 : (1 : ℚ) ≤ 2 ^ k := one_le_pow₀ (by norm_num)
  have hδ0 : (0 : ℚ) ≤ n / 2 ^ k := by positivity
  have hδ1 : (n : ℚ) / 2 ^ k ≤ 1 := by rw [div_le_one hp]; exact hnk
  have hxy : ∀ i, x.value i * y.value i ^ 2 ≤ 2 := fun i => by have := abs_le.1 (hρ i); linarith [hρ1 i, this.1]
  have hyB : ∀ i, |y.value i| ≤ B i := fun i => le_of_mul_sq (hx0 i) (hB i).le ((hxy i).trans (hroot i))
  have hyy : ∀ i, |y.value i * y.value i| ≤ B i ^ 2 := fun i => by
    rw [abs_mul, sq]; exact mul_le_mul (hyB i) (hyB i) (abs_nonneg _) (hB i).le
  have hbig : ∀ i, (2 : ℚ) ^ k * ((B i + 1) ^ 2 * (x.value i + 6)) < 2 ^ 63 := fun i => by
    refine lt_of_le_of_lt ?_ (hfit i)
    have := hx0 i
    rw [mul_assoc]
    exact le_mul_of_one_le_left (by positivity) hp1
  have hF : ∀ i, x.value i + 6 ≤ (B i + 1) ^ 2 * (x.value i + 6) := fun i => by
    have := hx0 i; have := hB i
    exact le_mul_of_one_le_left (by linarith) (one_le_pow₀ (by linarith))
  -- the square
  refine Sat.bind (C56_square hn y k hk hy fun i => ?_) fun s hs => ?_
  · rw [hyq]
    refine fits_scaled (hyy i) (by positivity) (lt_of_le_of_lt (mul_le_mul_of_nonneg_left ?_ (by positivity)) (hfit i))
    have := hx0 i; have := hB i
    nlinarith
  have hs1 : s.scale = 2 ^ k := hs.1.trans hy
  have hsq := scaleQ_of hs1
  have hs2 : ∀ i, |s.value i - y.value i * y.value i| ≤ n / 2 ^ k := fun i => by have := hs.2 i; rw [hyq] at this; exact this.le
  have hxs : ∀ i, |x.value i * s.value i - x.value i * y.value i ^ 2| ≤ x.value i * (n / 2 ^ k) := fun i => by
    have e : x.value i * s.value i - x.value i * y.value i ^ 2 = x.value i * (s.value i - y.value i * y.value i) := by ring
    rw [e, abs_mul, abs_of_pos (hx0 i)]; exact mul_le_mul_of_nonneg_left (hs2 i) (hx0 i).le
  have hxy2 : ∀ i, |x.value i * y.value i ^ 2| ≤ 2 := fun i => by
    rw [abs_of_nonneg (mul_nonneg (hx0 i).le (sq_nonneg _))]; exact hxy i
  have hxsa : ∀ i, |x.value i * s.value i| ≤ x.value i + 2 := fun i => by
    have := abs_near (hxs i) (hxy2 i)
    have := hx0 i
    nlinarith
  -- the product
  refine Sat.bind (C56_mul_equal_scales hn (elementwise ι) x s k hk0 hk hx hs1 fun i => ?_) fun t ht => ?_
  · rw [hsq, hxq, bilinearQ_elementwise]
    refine fits_scaled (hxsa i) (by positivity) (lt_of_le_of_lt (mul_le_mul_of_nonneg_left ?_ (by positivity)) (hfit i))
    linarith [hF i]
  have ht1 : t.scale = 2 ^ k := ht.1.trans hx
  have ht2 : ∀ i, |t.value i - x.value i * y.value i ^ 2| ≤ (x.value i + 1) * (n / 2 ^ k) := fun i => by
    have h1 := (ht.2 i).le
    rw [hxq, bilinearQ_elementwise] at h1
    have h2 := abs_add_le (t.value i - x.value i * s.value i) (x.value i * s.value i - x.value i * y.value i ^ 2)
    rw [sub_add_sub_cancel] at h2
    have h3 := hxs i
    have h4 : (x.value i + 1) * (n / 2 ^ k) = x.value i * (n / 2 ^ k) + n / 2 ^ k := by ring
    linarith
  have hta : ∀ i, |t.value i| ≤ x.value i + 3 := fun i => by
    have := abs_near (ht2 i) (hxy2 i)
    have := hx0 i
    nlinarith
  have hts : 0 < t.scale := by rw [ht1]; exact Nat.two_pow_pos k
  -- three minus the product
  have hneg : ∀ i, t.neg.value i = -t.value i := fun i => by
    refine neg_value hts i fun h => ?_
    rw [scaleQ_of ht1] at h
    have h2 : |(2 : ℚ) ^ k * t.value i| < 2 ^ 63 := by
      rw [abs_mul, abs_of_pos hp]
      refine lt_of_le_of_lt (mul_le_mul_of_nonneg_left ((hta i).trans ?_) hp.le) (hbig i)
      linarith [hF i]
    rw [h, abs_neg, abs_of_pos (by positivity)] at h2
    exact lt_irrefl _ h2
  have hq3 : (truncQ ((t.neg.scale : ℚ) * 3) : ℚ) / t.neg.scale = 3 := by
    show (truncQ ((t.scale : ℚ) * 3) : ℚ) / t.scale = 3
    have e : (t.scale : ℚ) * 3 = ((t.scale * 3 : ℤ) : ℚ) := by push_cast; ring
    rw [e, truncQ_intCast]
    have : (t.scale : ℚ) ≠ 0 := by rw [scaleQ_of ht1]; positivity
    push_cast
    field_simp
  have h3t : ∀ i, |-t.value i + 3| ≤ x.value i + 6 := fun i => (abs_add_le _ _).trans (by rw [abs_neg, abs_of_pos (by norm_num : (0 : ℚ) < 3)]; linarith [hta i])
  have h3 : ∀ i, (t.neg.addPub fun _ => 3).value i = -t.value i + 3 := fun i => by
    rw [addPub_value t.neg _ hts i, hq3, hneg]
    rw [hq3, hneg]
    show Fits ((t.scale : ℚ) * _)
    rw [scaleQ_of ht1]
    refine fits_scaled (h3t i) hp (lt_of_le_of_lt (mul_le_mul_of_nonneg_left ?_ hp.le) (hbig i))
    linarith [hF i]
  -- the product with the iterate
  refine Sat.bind (C56_mul_equal_scales hn (elementwise ι) y (t.neg.addPub fun _ => 3) k hk0 hk hy ht1 fun i => ?_) fun u hu => ?_
  · show Fits ((y.scale : ℚ) * (t.scale : ℚ) * _)
    rw [hyq, scaleQ_of ht1, bilinearQ_elementwise, h3]
    refine fits_scaled (b := B i * (x.value i + 6)) ?_ (by positivity) (lt_of_le_of_lt (mul_le_mul_of_nonneg_left ?_ (by positivity)) (hfit i))
    · rw [abs_mul]; exact mul_le_mul (hyB i) (h3t i) (abs_nonneg _) (hB i).le
    · have := hx0 i; have := hB i
      refine mul_le_mul_of_nonneg_right ?_ (by linarith)
      nlinarith
  have hu1 : u.scale = 2 ^ k := hu.1.trans hy
  have hu2 : ∀ i, |u.value i - y.value i * (3 - t.value i)| ≤ n / 2 ^ k := fun i => by
    have h1 := (hu.2 i).le
    rw [hyq, bilinearQ_elementwise, h3] at h1
    have e : -t.value i + 3 = 3 - t.value i := by ring
    rwa [e] at h1
  have e2 : (2 : ℤ) = ((2 ^ 1 : ℕ) : ℤ) := by norm_num
  show Sat (u.divInt fun _ => (2 : ℤ)) _
  rw [e2]
  refine (near_divPow hn (Near.self hu1) 1 (by norm_num)).mono fun z hz => ⟨hz.1, fun i => ?_⟩
  have hz2 : |z.value i - u.value i / 2| ≤ n / 2 ^ k := by
    have := hz.2 i
    rwa [zero_div, zero_add, pow_one] at this
  obtain ⟨Y, hY⟩ : ∃ Y, Y = y.value i * (3 - x.value i * y.value i ^ 2) / 2 := ⟨_, rfl⟩
  have hε : |z.value i - Y| ≤ sqrtStepErr n k (x.value i) (B i) := by
    have e : z.value i - Y = (z.value i - u.value i / 2) + (u.value i - y.value i * (3 - t.value i)) / 2 + -(y.value i * (t.value i - x.value i * y.value i ^ 2) / 2) := by rw [hY]; ring
    rw [e]
    have h1 : |(u.value i - y.value i * (3 - t.value i)) / 2| ≤ n / 2 ^ k / 2 := by
      rw [abs_div, abs_of_pos (by norm_num : (0 : ℚ) < 2)]; exact div_le_div_of_nonneg_right (hu2 i) (by norm_num)
    have h2 : |-(y.value i * (t.value i - x.value i * y.value i ^ 2) / 2)| ≤ B i * ((x.value i + 1) * (n / 2 ^ k)) / 2 := by
      rw [abs_neg, abs_div, abs_of_pos (by norm_num : (0 : ℚ) < 2), abs_mul]
      exact div_le_div_of_nonneg_right (mul_le_mul (hyB i) (ht2 i) (abs_nonneg _) (hB i).le) (by norm_num)
    refine (abs_add_le _ _).trans ((add_le_add ((abs_add_le _ _).trans (add_le_add hz2 h1)) h2).trans (le_of_eq ?_))
    unfold sqrtStepErr
    ring
  have hres : |1 - x.value i * Y ^ 2| ≤ ρ i ^ 2 * (3 + ρ i) / 4 := by
    rw [hY, sqrt_residual]; exact residual_le (hρ i) (hρ1 i).le
  have hε0 : 0 ≤ sqrtStepErr n k (x.value i) (B i) := (abs_nonneg _).trans hε
  have hloss : sqrtLoss n k (x.value i) (B i) = x.value i * (2 * B i * sqrtStepErr n k (x.value i) (B i) + sqrtStepErr n k (x.value i) (B i) ^ 2) := rfl
  have hloss2 : x.value i * sqrtStepErr n k (x.value i) (B i) ^ 2 ≤ sqrtLoss n k (x.value i) (B i) := by
    rw [hloss]
    have h1 := mul_nonneg (mul_nonneg (mul_nonneg zero_le_two (hB i).le) hε0) (hx0 i).le
    nlinarith
  have hloss0 : 0 ≤ sqrtLoss n k (x.value i) (B i) := le_trans (mul_nonneg (hx0 i).le (sq_nonneg _)) hloss2
  have hYB : |Y| ≤ B i := by
    refine le_of_mul_sq (hx0 i) (hB i).le (le_trans ?_ (hroot i))
    have h1 := abs_le.1 hres; have h2 := hnext i
    linarith [h1.1]
  have hY0 : 0 < Y := by
    rw [hY]
    have := hxy i; have := hy0 i
    refine div_pos (mul_pos (hy0 i) (by linarith)) (by norm_num)
  refine ⟨?_, ?_⟩
  · by_contra hc
    have h1 : Y ≤ |z.value i - Y| := by rw [abs_sub_comm]; exact le_trans (by linarith [not_lt.1 hc]) (le_abs_self _)
    have h2 : Y ^ 2 ≤ sqrtStepErr n k (x.value i) (B i) ^ 2 := pow_le_pow_left₀ hY0.le (h1.trans hε) 2
    have h3 := mul_le_mul_of_nonneg_left h2 (hx0 i).le
    have h4 := abs_le.1 hres; have h5 := hnext i
    linarith [h4.2]
  · have e : 1 - x.value i * z.value i ^ 2 = (1 - x.value i * Y ^ 2) + -(x.value i * (2 * Y * (z.value i - Y) + (z.value i - Y) ^ 2)) := by ring
    rw [e]
    refine (abs_add_le _ _).trans (add_le_add hres ?_)
    rw [abs_neg, abs_mul, abs_of_pos (hx0 i), hloss]
    refine mul_le_mul_of_nonneg_left ((abs_add_le _ _).trans (add_le_add ?_ ?_)) (hx0 i).le
    · rw [abs_mul, abs_mul, abs_of_pos (by norm_num : (0 : ℚ) < 2)]
      exact mul_le_mul (mul_le_mul_of_nonneg_left hYB (by norm_num)) hε (abs_nonneg _) (mul_nonneg (by norm_num) (hB i).le)
    · rw [abs_pow]; exact pow_le_pow_left₀ (abs_nonneg _) hε 2

theorem sqrtErr_succ' (η ρ : ℚ) (t : ℕ) : sqrtErr η ρ (t + 1) = sqrtErr η (ρ ^ 2 * (3 + ρ) / 4 + η) t := by
  induction t with
  | zero => rfl
  | succ t ih => rw [sqrtErr, ih, sqrtErr]

theorem sat_invSqrtLoop [NeZero n] (hn : n < 2 ^ 60) (q : ℕ) (method : MaxMethod) (hk0 : 0 < k) (hk : k ≤ 62) (hnk : (n : ℚ) ≤ 2 ^ k) (x : AST n ι) (hx : x.scale = 2 ^ k)
    (B : ι → ℚ) (hx0 : ∀ i, 0 < x.value i) (hB : ∀ i, 0 < B i) (hroot : ∀ i, 2 ≤ x.value i * B i ^ 2)
    (hfit : ∀ i, 2 ^ k * 2 ^ k * ((B i + 1) ^ 2 * (x.value i + 6)) < 2 ^ 63) : ∀ (T : ℕ) (y : AST n ι) (ρ : ι → ℚ), y.scale = 2 ^ k →
    (∀ i, 0 < y.value i ∧ |1 - x.value i * y.value i ^ 2| ≤ ρ i) → (∀ i, ∀ t ≤ T, sqrtErr (sqrtLoss n k (x.value i) (B i)) (ρ i) t < 1) →
    Sat (iterM ((mpcOps n q method).invSqrtStep x) T y) fun z => z.scale = 2 ^ k ∧
      ∀ i, 0 < z.value i ∧ |1 - x.value i * z.value i ^ 2| ≤ sqrtErr (sqrtLoss n k (x.value i) (B i)) (ρ i) T := by
  intro T
  induction T with
  | zero => intro y ρ hy h _; exact Sat.pure ⟨hy, h⟩
  | succ T ih =>
    intro y ρ hy h hT
    refine Sat.bind (sat_invSqrtStep hn q method hk0 hk hnk x y hx hy B ρ hx0 hB hroot hfit (fun i => (h i).1) (fun i => (h i).2) (fun i => hT i 0 (Nat.zero_le _))
      fun i => hT i 1 (Nat.succ_le_succ (Nat.zero_le T))) fun z hz => ?_
    refine (ih z (fun i => ρ i ^ 2 * (3 + ρ i) / 4 + sqrtLoss n k (x.value i) (B i)) hz.1 hz.2 fun i t ht => ?_).mono fun w hw => ⟨hw.1, fun i => ?_⟩
    · rw [← sqrtErr_succ']; exact hT i (t + 1) (by omega)
    · rw [sqrtErr_succ']; exact hw.2 i

/-- The initial value on shares. -/
theorem sat_invSqrtInit [NeZero n] (hn : n < 2 ^ 60) (q : ℕ) (method : MaxMethod) (hk0 : 0 < k) (hk : k ≤ 62) (hnk : 5 * ((n : ℚ) + 1) ≤ 2 ^ k) (c : FunCfg) (hd : c.expIterations ≤ 62)
    (hsmall : squareErr (n / 2 ^ k) c.expIterations 1 (n / 2 ^ k) ≤ 1) (hsq : SquareFits k (n / 2 ^ k) c.expIterations 1 (n / 2 ^ k)) (T : ℕ) (x : AST n ι)
    (hx : x.scale = 2 ^ k) (B ρ : ι → ℚ) (h : ∀ i, InvSqrtGood n k c.expIterations T (x.value i) (B i) (ρ i)) :
    Sat ((mpcOps n q method).invSqrtInit c x) fun y => y.scale = 2 ^ k ∧ ∀ i, 0 < y.value i ∧ |1 - x.value i * y.value i ^ 2| ≤ ρ i := by
  unfold Ops.invSqrtInit
  generalize c.expIterations = d at *
  have hp : (0 : ℚ) < 2 ^ k := by positivity
  have hp1 : (1 : ℚ) ≤ 2 ^ k := one_le_pow₀ (by norm_num)
  have hδ0 : (0 : ℚ) ≤ n / 2 ^ k := by positivity
  have hu0 : (0 : ℚ) < 1 / 2 ^ k := by positivity
  have hδu : (n : ℚ) / 2 ^ k + 1 / 2 ^ k = (n + 1) / 2 ^ k := by ring
  have hδ1 : ((n : ℚ) + 1) / 2 ^ k ≤ 1 / 5 := by rw [div_le_iff₀ hp]; linarith
  have hbig : ∀ i, (2 : ℚ) ^ k * (x.value i + 6) < 2 ^ 63 := fun i => by
    have h1 := (h i).pos; have h2 := (h i).bpos
    refine lt_of_le_of_lt ?_ (h i).fits
    rw [mul_assoc]
    refine mul_le_mul_of_nonneg_left ?_ hp.le
    have : x.value i + 6 ≤ (B i + 1) ^ 2 * (x.value i + 6) := le_mul_of_one_le_left (by linarith) (one_le_pow₀ (by linarith))
    exact this.trans (le_mul_of_one_le_left (by positivity) hp1)
  have hbig2 : ∀ i, (2 : ℚ) ^ k * 2 ^ k * 6 < 2 ^ 63 := fun i => by
    have h1 := (h i).pos; have h2 := (h i).bpos
    refine lt_of_le_of_lt (mul_le_mul_of_nonneg_left ?_ (by positivity)) (h i).fits
    have : x.value i + 6 ≤ (B i + 1) ^ 2 * (x.value i + 6) := le_mul_of_one_le_left (by linarith) (one_le_pow₀ (by linarith))
    linarith
  have e2 : (2 : ℤ) = ((2 ^ 1 : ℕ) : ℤ) := by norm_num
  have e10 : (1024 : ℤ) = ((2 ^ 10 : ℕ) : ℤ) := by norm_num
  refine Sat.bind (show Sat (x.divInt fun _ => (2 : ℤ)) fun z => Near k z (fun i => x.value i / 2) (n / 2 ^ k) from ?_) fun hh hhh => ?_
  · rw [e2]
    exact (near_divPow hn (Near.self hx) 1 (by norm_num)).mono fun z hz => (hz.mono (by rw [zero_div, zero_add])).congr fun i => by rw [pow_one]
  have hhs := hhh.scaleQ
  have hc := trunc_any k (0.2 : ℚ)
  obtain ⟨c2, hc2⟩ : ∃ c2, (truncQ (2 ^ k * (0.2 : ℚ)) : ℚ) / 2 ^ k = c2 := ⟨_, rfl⟩
  rw [hc2] at hc
  have hc' : |c2 - 1 / 5| ≤ 1 / 2 ^ k := by
    have e : (0.2 : ℚ) = 1 / 5 := by norm_num
    rwa [e] at hc
  have hv1 : ∀ i, |hh.value i + c2 - (x.value i / 2 + 1 / 5)| ≤ (n + 1) / 2 ^ k := fun i => by
    have h1 := hhh.2 i
    have e : hh.value i + c2 - (x.value i / 2 + 1 / 5) = (hh.value i - x.value i / 2) + (c2 - 1 / 5) := by ring
    rw [e, ← hδu]; exact (abs_add_le _ _).trans (add_le_add h1 hc')
  have hv2 : ∀ i, |hh.value i + c2| ≤ x.value i + 6 := fun i => by
    have h1 := (h i).pos
    have := abs_near (hv1 i) (abs_of_pos (by linarith : 0 < x.value i / 2 + 1 / 5)).le
    linarith
  have hadd : ∀ i, (hh.addPub fun _ => 0.2).value i = hh.value i + c2 := fun i => by
    rw [addPub_value hh _ (by rw [hhh.1]; exact Nat.two_pow_pos k) i, hhs, hc2]
    rw [hhs, hc2]
    exact fits_scaled (hv2 i) hp (hbig i)
  have hneg : ∀ i, (hh.addPub fun _ => 0.2).neg.value i = -(hh.value i + c2) := fun i => by
    rw [neg_value (x := hh.addPub fun _ => 0.2) (show 0 < hh.scale by rw [hhh.1]; exact Nat.two_pow_pos k) i, hadd]
    rw [hadd]
    show (hh.scale : ℚ) * _ ≠ _
    rw [hhs]
    intro h'
    have h2 : |(2 : ℚ) ^ k * (hh.value i + c2)| < 2 ^ 63 := by
      rw [abs_mul, abs_of_pos hp]
      exact lt_of_le_of_lt (mul_le_mul_of_nonneg_left (hv2 i) hp.le) (hbig i)
    rw [h', abs_neg, abs_of_pos (by positivity)] at h2
    exact lt_irrefl _ h2
  obtain ⟨a, ha⟩ : ∃ a : ι → ℚ, ∀ i, a i = -(hh.value i + c2) := ⟨_, fun i => rfl⟩
  have ha1 : ∀ i, |a i - -(x.value i / 2 + 1 / 5)| ≤ (n + 1) / 2 ^ k := fun i => by
    have e : a i - -(x.value i / 2 + 1 / 5) = -(hh.value i + c2 - (x.value i / 2 + 1 / 5)) := by rw [ha]; ring
    rw [e, abs_neg]; exact hv1 i
  have hd0 : (0 : ℚ) < 2 ^ d := by positivity
  have hw0 : ∀ i, 0 ≤ 1 + a i / 2 ^ d := fun i => by
    have h1 := abs_le.1 (ha1 i); have h2 := (h i).range
    have : -1 ≤ a i / 2 ^ d := by rw [le_div_iff₀ hd0]; linarith
    linarith
  have hw1 : ∀ i, 1 + a i / 2 ^ d ≤ 1 := fun i => by
    have h1 := abs_le.1 (ha1 i); have h2 := (h i).pos
    have : a i / 2 ^ d ≤ 0 := div_nonpos_of_nonpos_of_nonneg (by linarith) hd0.le
    linarith
  have hP0 : ∀ i, 0 ≤ (1 + a i / 2 ^ d) ^ 2 ^ d := fun i => pow_nonneg (hw0 i) _
  have hP1 : ∀ i, (1 + a i / 2 ^ d) ^ 2 ^ d ≤ 1 := fun i => pow_le_one₀ (hw0 i) (hw1 i)
  refine Sat.bind (C53_exp_encrypted_entries hn q method hk d hd (hh.addPub fun _ => 0.2).neg hhh.1 (fun i => 1 + a i / 2 ^ d)
    (fun i => by rw [hneg, ← ha, abs_of_nonneg (hw0 i)]) (fun i => ?_)
    fun i => squareFits_mono k _ hδ0 d _ 1 _ _ (hw0 i) (hw1 i) hδ0 le_rfl hsq) fun e he => ?_
  · refine lt_of_le_of_lt (mul_le_mul_of_nonneg_left ?_ hp.le) (hbig i)
    have h2 := (h i).pos; have h3 := hw1 i
    linarith
  have heq := scaleQ_of he.1
  have hE : ∀ i, |e.value i - (1 + a i / 2 ^ d) ^ 2 ^ d| ≤ squareErr (n / 2 ^ k) d (1 + a i / 2 ^ d) (n / 2 ^ k) := fun i => by have := he.2 i; rwa [hneg, ← ha] at this
  have hE1 : ∀ i, squareErr (n / 2 ^ k) d (1 + a i / 2 ^ d) (n / 2 ^ k) ≤ 1 := fun i =>
    (squareErr_mono _ hδ0 d _ _ _ _ (hw0 i) (hw1 i) hδ0 le_rfl).trans hsmall
  have hea : ∀ i, |e.value i| ≤ 2 := fun i => by
    have := abs_near (hE i) (abs_of_nonneg (hP0 i)).le
    linarith [hE1 i, hP1 i]
  -- times 2.2
  have hd22 := trunc_any k (2.2 : ℚ)
  obtain ⟨c22, hc22⟩ : ∃ c, (truncQ (2 ^ k * (2.2 : ℚ)) : ℚ) / 2 ^ k = c := ⟨_, rfl⟩
  rw [hc22] at hd22
  have hd22' : |c22 - 11 / 5| ≤ 1 / 2 ^ k := by
    have e : (2.2 : ℚ) = 11 / 5 := by norm_num
    rwa [e] at hd22
  have hu1 : (1 : ℚ) / 2 ^ k ≤ 1 / 5 := by rw [← hδu] at hδ1; linarith
  refine Sat.bind (C56_mul_public hn (elementwise ι) e (fun _ => 2.2) k hk0 hk he.1 (fun i => ?_) fun i => ?_) fun m hm => ?_
  · rw [heq, abs_mul, abs_of_pos hp]
    refine lt_of_le_of_lt (mul_le_mul_of_nonneg_left ?_ hp.le) (hbig i)
    have h2 := (h i).pos
    rw [abs_of_pos (by norm_num)]; norm_num; linarith
  · rw [heq, bilinearQ_elementwise, hc22]
    refine fits_scaled (b := 6) ?_ (by positivity) (hbig2 i)
    rw [abs_mul]
    have h1 := abs_near hd22' (abs_of_pos (by norm_num : (0 : ℚ) < 11 / 5)).le
    have h2 := hea i; have h3 := abs_nonneg (e.value i); have h4 := abs_nonneg c22
    nlinarith
  have hms : m.scale = 2 ^ k := hm.1.trans he.1
  have hmq := scaleQ_of hms
  have hmv : ∀ i, |m.value i - 11 / 5 * (1 + a i / 2 ^ d) ^ 2 ^ d| ≤ 11 / 5 * squareErr (n / 2 ^ k) d (1 + a i / 2 ^ d) (n / 2 ^ k) + 2 * (1 / 2 ^ k) + n / 2 ^ k := fun i => by
    have h1 := (hm.2 i).le
    rw [heq, bilinearQ_elementwise, hc22] at h1
    have e3 : m.value i - 11 / 5 * (1 + a i / 2 ^ d) ^ 2 ^ d = (m.value i - e.value i * c22) + e.value i * (c22 - 11 / 5) + 11 / 5 * (e.value i - (1 + a i / 2 ^ d) ^ 2 ^ d) := by ring
    have h2 : |e.value i * (c22 - 11 / 5)| ≤ 2 * (1 / 2 ^ k) := by
      rw [abs_mul]; exact mul_le_mul (hea i) hd22' (abs_nonneg _) (by norm_num)
    have h3 : |11 / 5 * (e.value i - (1 + a i / 2 ^ d) ^ 2 ^ d)| ≤ 11 / 5 * squareErr (n / 2 ^ k) d (1 + a i / 2 ^ d) (n / 2 ^ k) := by
      rw [abs_mul, abs_of_pos (by norm_num : (0 : ℚ) < 11 / 5)]; exact mul_le_mul_of_nonneg_left (hE i) (by norm_num)
    rw [e3]
    refine (abs_add_le _ _).trans ?_
    have := abs_add_le (m.value i - e.value i * c22) (e.value i * (c22 - 11 / 5))
    linarith
  have hma : ∀ i, |m.value i| ≤ 5 := fun i => by
    have h1 := abs_near (hmv i) (b := 11 / 5 * (1 + a i / 2 ^ d) ^ 2 ^ d) (B := 11 / 5) (by
      rw [abs_of_nonneg (mul_nonneg (by norm_num) (hP0 i))]; linarith [hP1 i])
    have h2 := hE1 i
    rw [← hδu] at hδ1
    linarith
  -- x / 1024
  refine Sat.bind (show Sat (x.divInt fun _ => (1024 : ℤ)) fun z => Near k z (fun i => x.value i / 2 ^ 10) (n / 2 ^ k) from ?_) fun g hg => ?_
  · rw [e10]
    exact (near_divPow hn (Near.self hx) 10 (by norm_num)).mono fun z hz => hz.mono (by rw [zero_div, zero_add])
  have hadd2 : ∀ i, (m.addPub fun _ => 0.2).value i = m.value i + c2 := fun i => by
    rw [addPub_value m _ (by rw [hms]; exact Nat.two_pow_pos k) i, hmq, hc2]
    rw [hmq, hc2]
    refine fits_scaled (b := x.value i + 6) ?_ hp (hbig i)
    have h1 := abs_near hc' (abs_of_pos (by norm_num : (0 : ℚ) < 1 / 5)).le
    have h2 := (h i).pos
    exact (abs_add_le _ _).trans (by linarith [hma i])
  have hga : ∀ i, |g.value i| ≤ x.value i / 2 ^ 10 + 1 / 5 := fun i => by
    have h1 := hg.abs_le (i := i) (B := x.value i / 2 ^ 10) (abs_of_pos (div_pos (h i).pos (by norm_num))).le
    rw [← hδu] at hδ1
    linarith
  have hmax : max (m.addPub fun _ => 0.2).scale g.scale = 2 ^ k := by show max m.scale g.scale = _; rw [hms, hg.1, max_self]
  refine (C56_sub (m.addPub fun _ => 0.2) g ⟨by show 0 < m.scale; rw [hms]; exact Nat.two_pow_pos k, by rw [hg.1]; exact Nat.two_pow_pos k, Or.inl (by show m.scale ∣ _; rw [hms, hg.1])⟩
    fun i => ?_).sat.mono fun y hy => ⟨hy.1.trans hmax, fun i => ?_⟩
  · rw [hmax]
    push_cast
    refine fits_scaled (b := x.value i + 6) ?_ hp (hbig i)
    rw [hadd2]
    have h1 := abs_near hc' (abs_of_pos (by norm_num : (0 : ℚ) < 1 / 5)).le
    have h2 := (h i).pos
    have h3 := hga i
    refine (abs_sub _ _).trans ((add_le_add (abs_add_le _ _) le_rfl).trans ?_)
    have h4 := hma i
    norm_num at h3
    linarith
  · refine (h i).start (a i) (y.value i) (ha1 i) ?_
    rw [hy.2, hadd2]
    have h1 := hmv i
    have h2 := hg.2 i
    have e4 : m.value i + c2 - g.value i - (11 / 5 * (1 + a i / 2 ^ d) ^ 2 ^ d + 1 / 5 - x.value i / 1024) =
        (m.value i - 11 / 5 * (1 + a i / 2 ^ d) ^ 2 ^ d) + (c2 - 1 / 5) + -(g.value i - x.value i / 2 ^ 10) := by norm_num; ring
    rw [e4]
    have h3 := abs_add_le (m.value i - 11 / 5 * (1 + a i / 2 ^ d) ^ 2 ^ d + (c2 - 1 / 5)) (-(g.value i - x.value i / 2 ^ 10))
    have h4 := abs_add_le (m.value i - 11 / 5 * (1 + a i / 2 ^ d) ^ 2 ^ d) (c2 - 1 / 5)
    rw [abs_neg] at h3
    have e5 : (2 * (n : ℚ) + 3) / 2 ^ k = 2 * (n / 2 ^ k) + 3 * (1 / 2 ^ k) := by ring
    rw [e5]
    linarith

/-- **C53, the inverse square root on shares**: Newton's method from `2.2 exp(-(x / 2 + 0.2)) + 0.2 - x / 1024`, every entry positive and within the error that the recursion
computes for it. -/
theorem C53_inv_sqrt_encrypted [NeZero n] (hn : n < 2 ^ 60) (q : ℕ) (method : MaxMethod) (hk0 : 0 < k) (hk : k ≤ 62) (hnk : 5 * ((n : ℚ) + 1) ≤ 2 ^ k) (c : FunCfg)
    (hd : c.expIterations ≤ 62) (hsmall : squareErr (n / 2 ^ k) c.expIterations 1 (n / 2 ^ k) ≤ 1) (hsq : SquareFits k (n / 2 ^ k) c.expIterations 1 (n / 2 ^ k)) (x : AST n ι)
    (hx : x.scale = 2 ^ k) (B ρ : ι → ℚ) (h : ∀ i, InvSqrtGood n k c.expIterations c.sqrtNrIters (x.value i) (B i) (ρ i)) :
    Sat ((mpcOps n q method).invSqrt c x) fun z => z.scale = 2 ^ k ∧
      ∀ i, 0 < z.value i ∧ |1 - x.value i * z.value i ^ 2| ≤ sqrtErr (sqrtLoss n k (x.value i) (B i)) (ρ i) c.sqrtNrIters := by
  have hn0 : (0 : ℚ) ≤ n := Nat.cast_nonneg n
  refine Sat.bind (sat_invSqrtInit hn q method hk0 hk hnk c hd hsmall hsq _ x hx B ρ h) fun y hy => ?_
  exact sat_invSqrtLoop hn q method hk0 hk (by linarith) x hx B (fun i => (h i).pos) (fun i => (h i).bpos) (fun i => (h i).root) (fun i => (h i).fits) c.sqrtNrIters y ρ hy.1 hy.2
    fun i => (h i).contract

/-! ## Two parties and the default configuration -/

theorem sqrtErr_nonneg (η ρ : ℚ) (hη : 0 ≤ η) (hρ : 0 ≤ ρ) : ∀ t, 0 ≤ sqrtErr η ρ t
  | 0 => hρ
  | t + 1 => by
    have := sqrtErr_nonneg η ρ hη hρ t
    rw [sqrtErr]; positivity

theorem sqrtErr_mono (η η' ρ : ℚ) (hη : 0 ≤ η) (hη' : η ≤ η') (hρ : 0 ≤ ρ) : ∀ t, sqrtErr η ρ t ≤ sqrtErr η' ρ t
  | 0 => le_rfl
  | t + 1 => by
    have h0 := sqrtErr_nonneg η ρ hη hρ t
    have h1 := sqrtErr_mono η η' ρ hη hη' hρ t
    rw [sqrtErr, sqrtErr]
    have : sqrtErr η ρ t ^ 2 * (3 + sqrtErr η ρ t) ≤ sqrtErr η' ρ t ^ 2 * (3 + sqrtErr η' ρ t) :=
      mul_le_mul (pow_le_pow_left₀ h0 h1 2) (by linarith) (by linarith) (by positivity)
    linarith

theorem sqrtLoss_mono (n k : ℕ) (x q B : ℚ) (hx : 0 ≤ x) (hB : 0 ≤ B) (hxq : x ≤ q) : 0 ≤ sqrtLoss n k x B ∧ sqrtLoss n k x B ≤ sqrtLoss n k q B := by
  have h0 : 0 ≤ sqrtStepErr n k x B := by unfold sqrtStepErr; positivity
  have h1 : sqrtStepErr n k x B ≤ sqrtStepErr n k q B := by
    unfold sqrtStepErr
    refine mul_le_mul_of_nonneg_right ?_ (by positivity)
    have : B * (x + 1) ≤ B * (q + 1) := mul_le_mul_of_nonneg_left (by linarith) hB
    linarith
  unfold sqrtLoss
  refine ⟨by positivity, mul_le_mul hxq ?_ (by positivity) (hx.trans hxq)⟩
  have : B * sqrtStepErr n k x B ≤ B * sqrtStepErr n k q B := mul_le_mul_of_nonneg_left h1 hB
  have := pow_le_pow_left₀ h0 h1 2
  linarith

/-- The initial value of the iteration and the errors, for the numbers from `p` to `q`: `L` and `U` enclose the exponential. -/
def sqrtCheck (p q B L U : ℚ) : Bool :=
  decide (p ≤ q ∧ q ≤ 128 ∧ 0 < B ∧ 2 ≤ p * B ^ 2 ∧ 2 ^ 16 * 2 ^ 16 * ((B + 1) ^ 2 * (q + 6)) < 2 ^ 63 ∧
    0 ≤ L ∧ L ≤ (1 - (q / 2 + 1 / 5 + 3 / 65536) / 256) ^ 256 ∧ (1 - (p / 2 + 1 / 5 - 3 / 65536) / 256) ^ 256 ≤ U ∧
    0 < (11 / 5 - 22 / 625) * L + 1 / 5 - q / 1024 - 8 / 10000 ∧
    6 / 25 ≤ p * ((11 / 5 - 22 / 625) * L + 1 / 5 - q / 1024 - 8 / 10000) ^ 2 ∧
    q * ((11 / 5 + 22 / 625) * U + 1 / 5 - p / 1024 + 8 / 10000) ^ 2 ≤ 44 / 25 ∧
    sqrtErr (sqrtLoss 2 16 q B) (19 / 25) 1 < 1 ∧ sqrtErr (sqrtLoss 2 16 q B) (19 / 25) 2 < 1 ∧ sqrtErr (sqrtLoss 2 16 q B) (19 / 25) 3 ≤ 2 / 25)

theorem invSqrtGood_of_check (p q B L U x : ℚ) (hc : sqrtCheck p q B L U = true) (hp : 1 / 10 ≤ p) (h1 : p ≤ x) (h2 : x ≤ q) :
    InvSqrtGood 2 16 8 3 x B (19 / 25) ∧ sqrtErr (sqrtLoss 2 16 x B) (19 / 25) 3 ≤ 2 / 25 := by
  obtain ⟨_, hq, hB, hroot, hfit, hL0, hL, hU, hy0, hyl, hyu, e1, e2, e3⟩ := of_decide_eq_true hc
  have hx0 : 0 < x := by linarith
  obtain ⟨l0, l1⟩ := sqrtLoss_mono 2 16 x q B hx0.le hB.le h2
  have hm := sqrtErr_mono _ _ (19 / 25) l0 l1 (by norm_num)
  refine ⟨⟨hx0, hB, hroot.trans (mul_le_mul_of_nonneg_right h1 (by positivity)), ?_, ?_, ?_, ?_⟩, (hm 3).trans e3⟩
  · norm_num; linarith
  · refine lt_of_le_of_lt ?_ hfit
    exact mul_le_mul_of_nonneg_left (mul_le_mul_of_nonneg_left (by linarith) (by positivity)) (by positivity)
  · intro a y ha hy
    have hae : ((2 : ℕ) + 1 : ℚ) / 2 ^ 16 = 3 / 65536 := by norm_num
    rw [hae] at ha
    obtain ⟨ha1, ha2⟩ := abs_le.1 ha
    have h256 : (2 : ℚ) ^ 8 = 256 := by norm_num
    obtain ⟨w, hw⟩ : ∃ w, 1 + a / 2 ^ 8 = w := ⟨_, rfl⟩
    rw [hw] at hy
    rw [h256] at hw
    have hw0 : 0 ≤ 1 - (q / 2 + 1 / 5 + 3 / 65536) / 256 := by
      have : (q / 2 + 1 / 5 + 3 / 65536) / 256 ≤ 1 := by rw [div_le_one (by norm_num)]; linarith
      linarith
    have hwl : 1 - (q / 2 + 1 / 5 + 3 / 65536) / 256 ≤ w := by rw [← hw]; linarith
    have hwu : w ≤ 1 - (p / 2 + 1 / 5 - 3 / 65536) / 256 := by rw [← hw]; linarith
    have hs := squareErr_default w (hw0.trans hwl) (hwu.trans (by linarith))
    have hLP : L ≤ w ^ 2 ^ 8 := hL.trans (pow_le_pow_left₀ hw0 hwl (2 ^ 8))
    have hUP : w ^ 2 ^ 8 ≤ U := (pow_le_pow_left₀ (hw0.trans hwl) hwu (2 ^ 8)).trans hU
    obtain ⟨P, hP⟩ : ∃ P, w ^ 2 ^ 8 = P := ⟨_, rfl⟩
    rw [hP] at hy hs hLP hUP
    obtain ⟨y1, y2⟩ := abs_le.1 hy
    have hpe : (2 * ((2 : ℕ) : ℚ) + 3) / 2 ^ 16 ≤ 14 / 100000 := by norm_num
    have hl : (11 / 5 - 22 / 625) * L + 1 / 5 - q / 1024 - 8 / 10000 ≤ y := by linarith
    have hu : y ≤ (11 / 5 + 22 / 625) * U + 1 / 5 - p / 1024 + 8 / 10000 := by linarith
    have hy' : 0 < y := lt_of_lt_of_le hy0 hl
    refine ⟨hy', abs_le.2 ⟨?_, ?_⟩⟩
    · have : x * y ^ 2 ≤ 44 / 25 := (mul_le_mul h2 (pow_le_pow_left₀ hy'.le hu 2) (by positivity) (by linarith)).trans hyu
      linarith
    · have : 6 / 25 ≤ x * y ^ 2 := hyl.trans (mul_le_mul h1 (pow_le_pow_left₀ hy0.le hl 2) (by positivity) hx0.le)
      linarith
  · intro t ht
    interval_cases t
    · norm_num [sqrtErr]
    · exact (hm 1).trans_lt e1
    · exact (hm 2).trans_lt e2
    · exact (hm 3).trans_lt (e3.trans_lt (by norm_num))

/-- Adjacent intervals, from `p`. -/
def sqrtChain : ℚ → List (ℚ × ℚ × ℚ × ℚ) → Bool
  | _, [] => true
  | p, (q, B, L, U) :: l => sqrtCheck p q B L U && sqrtChain q l

/-- The intervals that cover the numbers from 1/10 to 128: the right end in hundredths, the bound of the iterates in thousandths and the enclosure of the exponential in
hundred-thousandths. -/
def sqrtTable : List (ℕ × ℕ × ℕ × ℕ) :=
  [(20, 4474, 74065, 77875), (40, 3164, 67007, 74073), (61, 2238, 60317, 67015), (73, 1812, 56797, 60324), (81, 1657, 54565, 56804), (87, 1573, 52949, 54571), (91, 1518, 51898, 52955),
   (95, 1484, 50867, 51904), (98, 1452, 50108, 50873), (101, 1430, 49360, 50114), (103, 1409, 48868, 49366), (105, 1395, 48380, 48873), (107, 1382, 47897, 48385), (109, 1369, 47419, 47903),
   (110, 1356, 47182, 47425), (111, 1350, 46946, 47187), (112, 1344, 46711, 46951), (113, 1338, 46477, 46716), (114, 1332, 46245, 46483), (115, 1326, 46014, 46250), (116, 1320, 45783, 46019),
   (117, 1315, 45554, 45789), (118, 1309, 45326, 45560), (119, 1303, 45100, 45332), (120, 1298, 44874, 45105), (121, 1292, 44650, 44879), (122, 1287, 44426, 44655), (123, 1282, 44204, 44431),
   (124, 1277, 43983, 44209), (125, 1272, 43763, 43988), (126, 1266, 43544, 43768), (127, 1261, 43326, 43549), (128, 1256, 43109, 43331), (130, 1251, 42679, 43114), (132, 1242, 42253, 42684),
   (134, 1232, 41831, 42257), (136, 1223, 41413, 41836), (139, 1214, 40794, 41418), (142, 1201, 40185, 40799), (146, 1188, 39386, 40190), (150, 1172, 38604, 39391), (155, 1156, 37647, 38608),
   (162, 1137, 36347, 37651), (171, 1113, 34741, 36351), (184, 1083, 32546, 34746), (205, 1044, 29288, 32550), (241, 989, 24440, 29291), (312, 912, 17099, 24444), (514, 802, 6172, 17102),
   (838, 625, 1193, 6173), (1676, 490, 16, 1194), (3352, 347, 0, 17), (6224, 246, 0, 1), (8968, 181, 0, 1), (12370, 151, 0, 1), (12800, 129, 0, 1)]

/-- The same numbers. -/
def sqrtRows : List (ℚ × ℚ × ℚ × ℚ) := sqrtTable.map fun r => ((r.1 : ℚ) / 100, (r.2.1 : ℚ) / 1000, (r.2.2.1 : ℚ) / 100000, (r.2.2.2 : ℚ) / 100000)

theorem sqrtChain_table : sqrtChain (1 / 10) sqrtRows = true := by decide +kernel

theorem invSqrtGood_of_chain : ∀ (l : List (ℚ × ℚ × ℚ × ℚ)) (p x : ℚ), sqrtChain p l = true → 1 / 10 ≤ p → p ≤ x → x ≤ (l.map Prod.fst).getLastD p →
    l ≠ [] → ∃ B, InvSqrtGood 2 16 8 3 x B (19 / 25) ∧ sqrtErr (sqrtLoss 2 16 x B) (19 / 25) 3 ≤ 2 / 25
  | [], _, _, _, _, _, _, h => absurd rfl h
  | (q, B, L, U) :: l, p, x, hc, hp, h1, h2, _ => by
    rw [sqrtChain, Bool.and_eq_true] at hc
    by_cases hq : x ≤ q
    · exact ⟨B, invSqrtGood_of_check p q B L U x hc.1 hp h1 hq⟩
    · have hpq : p ≤ q := (of_decide_eq_true hc.1).1
      cases l with
      | nil => exact absurd h2 hq
      | cons r l => exact invSqrtGood_of_chain (r :: l) q x hc.2 (hp.trans hpq) (le_of_not_ge hq) h2 (by simp)

/-- Everything between 1/10 and 128 meets the conditions. -/
theorem invSqrtGood_default (x : ℚ) (h1 : 1 / 10 ≤ x) (h2 : x ≤ 128) : ∃ B, InvSqrtGood 2 16 8 3 x B (19 / 25) ∧ sqrtErr (sqrtLoss 2 16 x B) (19 / 25) 3 ≤ 2 / 25 :=
  invSqrtGood_of_chain sqrtRows _ x sqrtChain_table le_rfl h1 (h2.trans (by decide +kernel)) (by simp [sqrtRows, sqrtTable])

theorem root_of_residual {x z : ℝ} {ε : ℝ} (hx : 0 ≤ x) (hz : 0 < z) (h : |1 - x * z ^ 2| ≤ ε) : |Real.sqrt x * z - 1| ≤ ε := by
  have hs : 0 ≤ Real.sqrt x * z := mul_nonneg (Real.sqrt_nonneg x) hz.le
  have e : 1 - x * z ^ 2 = -((Real.sqrt x * z - 1) * (Real.sqrt x * z + 1)) := by
    have := Real.sq_sqrt hx
    nlinarith
  rw [e, abs_neg, abs_mul, abs_of_nonneg (by linarith : 0 ≤ Real.sqrt x * z + 1)] at h
  exact (le_mul_of_one_le_right (abs_nonneg _) (by linarith)).trans h

/-- **C53, `inv_sqrt` with two parties and the default configuration**: for every entry between 1/10 and 128 the result is within 8 % of the inverse square root. -/
theorem C53_inv_sqrt_default_encrypted (q : ℕ) (method : MaxMethod) (c : FunCfg) (hd : c.expIterations = 8) (hT : c.sqrtNrIters = 3) (x : AST 2 ι)
    (hx : x.scale = 2 ^ 16) (h : ∀ i, 1 / 10 ≤ x.value i ∧ x.value i ≤ 128) :
    Sat ((mpcOps 2 q method).invSqrt c x) fun z => z.scale = 2 ^ 16 ∧ ∀ i, 0 < z.value i ∧ |(z.value i : ℝ) - 1 / Real.sqrt (x.value i)| ≤ 2 / 25 * (1 / Real.sqrt (x.value i)) := by
  choose B hB using fun i => invSqrtGood_default (x.value i) (h i).1 (h i).2
  have hsq := squareErr_default 1 (by norm_num) le_rfl
  refine (C53_inv_sqrt_encrypted (n := 2) (k := 16) (by norm_num) q method (by norm_num) (by norm_num) (by norm_num) c (by omega) ?_ ?_ x hx B (fun _ => 19 / 25)
    fun i => by rw [hd, hT]; exact (hB i).1).mono fun z hz => ⟨hz.1, fun i => ⟨(hz.2 i).1, ?_⟩⟩
  · rw [hd]; refine hsq.trans ?_; rw [one_pow]; norm_num
  · rw [hd]; exact squareFits_default 1 (by norm_num) le_rfl
  · have h1 : |1 - x.value i * z.value i ^ 2| ≤ 2 / 25 := (hz.2 i).2.trans (by rw [hT]; exact (hB i).2)
    have hx0 : (0 : ℝ) < x.value i := by
      have : 0 < x.value i := by linarith [(h i).1]
      exact_mod_cast this
    have hz0 : (0 : ℝ) < z.value i := by exact_mod_cast (hz.2 i).1
    have h2 : |1 - (x.value i : ℝ) * (z.value i : ℝ) ^ 2| ≤ 2 / 25 := by
      have := (Rat.cast_le (K := ℝ)).2 h1
      push_cast at this; exact this
    have h3 := root_of_residual hx0.le hz0 h2
    have hs : 0 < Real.sqrt (x.value i) := Real.sqrt_pos.2 hx0
    have e : (z.value i : ℝ) - 1 / Real.sqrt (x.value i) = (Real.sqrt (x.value i) * z.value i - 1) * (1 / Real.sqrt (x.value i)) := by field_simp
    rw [e, abs_mul, abs_of_pos (by positivity : 0 < 1 / Real.sqrt (x.value i))]
    exact mul_le_mul_of_nonneg_right h3 (by positivity)

/-- **C53, `sqrt` with two parties and the default configuration**: for every entry between 1/10 and 128 the result is within 8 % and `2 / 2 ^ 16` of the square root. -/
theorem C53_sqrt_default_encrypted (q : ℕ) (method : MaxMethod) (c : FunCfg) (hd : c.expIterations = 8) (hT : c.sqrtNrIters = 3) (x : AST 2 ι)
    (hx : x.scale = 2 ^ 16) (h : ∀ i, 1 / 10 ≤ x.value i ∧ x.value i ≤ 128) :
    Sat ((mpcOps 2 q method).sqrt c x) fun z => z.scale = 2 ^ 16 ∧ ∀ i, |(z.value i : ℝ) - Real.sqrt (x.value i)| ≤ 2 / 25 * Real.sqrt (x.value i) + 2 / 2 ^ 16 := by
  refine Sat.bind (C53_inv_sqrt_default_encrypted q method c hd hT x hx h) fun y hy => ?_
  have hyq := scaleQ_of hy.1
  have hxq := scaleQ_of hx
  have hx0 : ∀ i, (0 : ℝ) < x.value i := fun i => by
    have : 0 < x.value i := by linarith [(h i).1]
    exact_mod_cast this
  have hb : ∀ i, |(y.value i : ℝ) * x.value i - Real.sqrt (x.value i)| ≤ 2 / 25 * Real.sqrt (x.value i) := fun i => by
    have h1 := (hy.2 i).2
    have hs : 0 < Real.sqrt (x.value i) := Real.sqrt_pos.2 (hx0 i)
    have e : (y.value i : ℝ) * x.value i - Real.sqrt (x.value i) = (y.value i - 1 / Real.sqrt (x.value i)) * x.value i := by
      have : 1 / Real.sqrt (x.value i) * (x.value i : ℝ) = Real.sqrt (x.value i) := by
        rw [one_div, inv_mul_eq_div, Real.div_sqrt]
      rw [sub_mul, this]
    rw [e, abs_mul, abs_of_pos (hx0 i)]
    refine (mul_le_mul_of_nonneg_right h1 (hx0 i).le).trans (le_of_eq ?_)
    rw [mul_assoc, one_div, inv_mul_eq_div, Real.div_sqrt]
  refine (C56_mul_equal_scales (by norm_num) (elementwise ι) y x 16 (by norm_num) (by norm_num) hy.1 hx fun i => ?_).mono fun z hz => ⟨hz.1.trans hy.1, fun i => ?_⟩
  · rw [bilinearQ_elementwise, hyq, hxq]
    refine fits_scaled (b := 256) ?_ (by positivity) (by norm_num)
    have h1 := hb i
    have h2 : Real.sqrt (x.value i) ≤ 128 := by
      rw [Real.sqrt_le_left (by norm_num)]
      have : x.value i ≤ 128 ^ 2 := by linarith [(h i).2]
      exact_mod_cast this
    have h3 : |(y.value i : ℝ) * x.value i| ≤ 256 := by
      have h4 := abs_le.1 h1; have h5 := Real.sqrt_nonneg (x.value i : ℝ)
      exact abs_le.2 ⟨by linarith, by linarith⟩
    exact_mod_cast h3
  · have h1 := (hz.2 i).le
    rw [bilinearQ_elementwise, hyq] at h1
    have h2 : |(z.value i : ℝ) - y.value i * x.value i| ≤ 2 / 2 ^ 16 := by
      have := (Rat.cast_le (K := ℝ)).2 h1
      push_cast at this; exact this
    have e : (z.value i : ℝ) - Real.sqrt (x.value i) = (z.value i - y.value i * x.value i) + (y.value i * x.value i - Real.sqrt (x.value i)) := by ring
    rw [e]
    refine (abs_add_le _ _).trans ?_
    linarith [hb i]

/-- The hypotheses: sharings of 4 and of 1/2 by two parties. -/
example : let x : AST 2 (Fin 2) := ⟨fun p i => if p = 0 then ![262145, 32766] i else ![-1, 2] i, 2 ^ 16⟩
    x.scale = 2 ^ 16 ∧ ∀ i, 1 / 10 ≤ x.value i ∧ x.value i ≤ 128 := by decide +kernel

/-- The general conditions hold of a number between 1/10 and 128 with an error of 8 %. -/
example : ∃ B, InvSqrtGood 2 16 8 3 2 B (19 / 25) := (invSqrtGood_default 2 (by norm_num) (by norm_num)).imp fun _ h => h.1

end CrypTen

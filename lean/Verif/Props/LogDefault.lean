import Verif.Props.LogShares
import Mathlib.Analysis.Complex.ExponentialBounds

/-!
# The logarithm on shares, with two parties and the default configuration
-/

namespace CrypTen
variable {ι : Type}

/-- The initial value and `x exp(-y)` for the numbers from `p` to `q`: `L` and `U` enclose the initial value, `m` is the relative error of `x exp(-y)`. -/
def logCheck (p q L U m : ℚ) : Bool :=
  decide (0 < p ∧ p ≤ q ∧ 2 * q + 1 ≤ 256 ∧ -(22 / 5) ≤ L ∧ U ≤ 22 / 5 ∧ 0 ≤ m ∧ m ≤ 1 / 50 ∧
    L ≤ p / 120 - 20 * ((1 - (2 * p + 1) / 256) ^ 256 + squareErr (1 / 32768) 8 (1 - (2 * p + 1) / 256) (1 / 32768)) + 3 - 8 / 65536 ∧
    q / 120 - 20 * ((1 - (2 * q + 1) / 256) ^ 256 - squareErr (1 / 32768) 8 (1 - (2 * p + 1) / 256) (1 / 32768)) + 3 + 8 / 65536 ≤ U ∧
    squareErr (1 / 32768) 8 (1 - U / 256) (1 / 32768) + 1 / 32768 / p ≤ m * (1 - U / 256) ^ 256 ∧
    39 / 400 ≤ p * (1 - U / 256) ^ 256 * (1 - m) ∧ q * (1 - L / 256) ^ 256 * (1 + m) ≤ 57 / 25)

/-- Adjacent intervals, from `p`. -/
def logChain : ℚ → List (ℚ × ℚ × ℚ × ℚ) → Bool
  | _, [] => true
  | p, (q, L, U, m) :: l => logCheck p q L U m && logChain q l

/-- The intervals that cover the numbers from 1/100 to 100: right ends, enclosures of the initial value (plus 6) and relative errors, in ten-thousandths. -/
def logTable : List (ℕ × ℕ × ℕ × ℕ) :=
  [(160, 16872, 20048, 150), (256, 17748, 21393, 150), (380, 19127, 23089, 150), (459, 20871, 24133, 150), (510, 21959, 24799, 150), (551, 22653, 25333, 150), (580, 23206, 25706, 150), (604, 23594, 26015, 150),
  (622, 23913, 26245, 150), (637, 24152, 26436, 151), (651, 24350, 26615, 151), (663, 24534, 26767, 151), (672, 24692, 26881, 151), (681, 24810, 26995, 151), (689, 24928, 27096, 151), (696, 25032, 27184, 151),
  (703, 25124, 27273, 151), (709, 25215, 27348, 151), (714, 25293, 27411, 151), (719, 25358, 27474, 151), (724, 25423, 27537, 151), (728, 25488, 27587, 151), (732, 25540, 27637, 151), (736, 25591, 27687, 151),
  (740, 25643, 27737, 151), (743, 25695, 27775, 151), (746, 25734, 27812, 151), (749, 25772, 27850, 151), (752, 25811, 27887, 151), (755, 25850, 27925, 151), (758, 25888, 27962, 151), (761, 25927, 28000, 151),
  (763, 25966, 28024, 151), (765, 25991, 28049, 151), (767, 26017, 28074, 151), (769, 26043, 28099, 151), (771, 26068, 28124, 151), (773, 26094, 28149, 151), (775, 26120, 28174, 151), (777, 26145, 28199, 151),
  (779, 26171, 28223, 151), (781, 26197, 28248, 151), (783, 26222, 28273, 151), (785, 26248, 28298, 151), (787, 26274, 28323, 151), (789, 26299, 28348, 151), (791, 26325, 28372, 151), (793, 26350, 28397, 151),
  (795, 26376, 28422, 151), (797, 26402, 28447, 151), (799, 26427, 28471, 151), (801, 26453, 28496, 151), (803, 26478, 28521, 151), (805, 26504, 28546, 151), (807, 26529, 28570, 151), (809, 26555, 28595, 151),
  (811, 26580, 28620, 151), (813, 26606, 28645, 151), (815, 26631, 28669, 151), (817, 26657, 28694, 151), (819, 26682, 28719, 151), (822, 26708, 28756, 151), (825, 26746, 28793, 151), (828, 26784, 28830, 151),
  (831, 26822, 28866, 151), (834, 26860, 28903, 151), (837, 26898, 28940, 151), (840, 26936, 28977, 151), (843, 26974, 29014, 151), (847, 27012, 29063, 151), (851, 27063, 29112, 151), (855, 27113, 29161, 151),
  (859, 27164, 29210, 151), (864, 27214, 29271, 151), (869, 27278, 29332, 151), (875, 27341, 29406, 151), (881, 27416, 29479, 151), (888, 27491, 29564, 151), (895, 27579, 29649, 151), (903, 27667, 29747, 151),
  (912, 27767, 29856, 151), (921, 27880, 29965, 151), (933, 27992, 30110, 151), (945, 28141, 30254, 151), (960, 28290, 30435, 151), (977, 28476, 30639, 151), (999, 28686, 30902, 151), (1024, 28957, 31199, 151),
  (1056, 29263, 31578, 151), (1096, 29652, 32047, 152), (1148, 30135, 32653, 152), (1223, 30758, 33516, 152), (1333, 31645, 34759, 152), (1515, 32921, 36759, 153), (1831, 34973, 40064, 153), (2551, 38362, 46870, 155),
  (4081, 45328, 58432, 158), (6529, 57183, 70858, 163), (9099, 69994, 78669, 168), (10812, 78134, 81994, 170), (12014, 81643, 83742, 171), (12890, 83476, 84779, 172), (13575, 84559, 85474, 172), (14159, 85284, 85997, 172),
  (14707, 85827, 86436, 173), (15220, 86282, 86806, 173), (15751, 86666, 87151, 173), (16300, 87023, 87472, 174), (17002, 87355, 87835, 174), (17906, 87730, 88234, 174), (19357, 88141, 88742, 175), (23001, 88664, 89531, 176),
  (36801, 89475, 90287, 176), (58881, 90256, 90500, 175), (94209, 90481, 90794, 175), (150734, 90776, 91265, 175), (241174, 91247, 92019, 176), (385878, 92001, 93224, 177), (617404, 93207, 95154, 180), (760920, 95136, 96350, 182),
  (865364, 96332, 97220, 183), (943295, 97203, 97870, 185), (1000000, 97852, 98342, 185)]

/-- The same numbers. -/
def logRows : List (ℚ × ℚ × ℚ × ℚ) := logTable.map fun r => ((r.1 : ℚ) / 10000, (r.2.1 : ℚ) / 10000 - 6, (r.2.2.1 : ℚ) / 10000 - 6, (r.2.2.2 : ℚ) / 10000)

theorem logChain_table : logChain (1 / 100) logRows = true := by decide +kernel

theorem log_of_check (p q L U m x y : ℚ) (hc : logCheck p q L U m = true) (h1 : p ≤ x) (h2 : x ≤ q)
    (hy : |y - (x / 120 - 20 * (1 - (2 * x + 1) / 256) ^ 256 + 3)| ≤ 20 * squareErr (1 / 32768) 8 (1 - (2 * x + 1) / 256) (1 / 32768) + 8 / 65536) :
    |y| ≤ 22 / 5 ∧ ∀ v, |v - x * (1 - y / 256) ^ 256| ≤ x * squareErr (1 / 32768) 8 |1 - y / 256| (1 / 32768) + 1 / 32768 →
      |v - x * (1 - y / 256) ^ 256| ≤ 1 / 50 * (x * (1 - y / 256) ^ 256) ∧ 39 / 400 ≤ v ∧ v ≤ 57 / 25 := by
  obtain ⟨hp, hpq, hq, hL, hU, hm0, hm, cL, cU, cm, ca, cb⟩ := of_decide_eq_true hc
  clear hc
  have hx : 0 < x := lt_of_lt_of_le hp h1
  have hwq0 : 0 ≤ 1 - (2 * q + 1) / 256 := by linarith
  have hwx0 : 0 ≤ 1 - (2 * x + 1) / 256 := by linarith
  have hxp : (1 - (2 * x + 1) / 256) ^ 256 ≤ (1 - (2 * p + 1) / 256) ^ 256 := pow_le_pow_left₀ hwx0 (by linarith) _
  have hqx : (1 - (2 * q + 1) / 256) ^ 256 ≤ (1 - (2 * x + 1) / 256) ^ 256 := pow_le_pow_left₀ hwq0 (by linarith) _
  have hse := squareErr_mono (1 / 32768) (by norm_num) 8 (1 - (2 * x + 1) / 256) (1 - (2 * p + 1) / 256) (1 / 32768) (1 / 32768) hwx0 (by linarith) (by norm_num) le_rfl
  generalize (1 - (2 * p + 1) / 256) ^ 256 = A at *
  generalize (1 - (2 * q + 1) / 256) ^ 256 = B at *
  generalize (1 - (2 * x + 1) / 256) ^ 256 = C at *
  generalize squareErr (1 / 32768) 8 (1 - (2 * p + 1) / 256) (1 / 32768) = D at *
  generalize squareErr (1 / 32768) 8 (1 - (2 * x + 1) / 256) (1 / 32768) = E at *
  obtain ⟨y1, y2⟩ := abs_le.1 hy
  have hLy : L ≤ y := by linarith
  have hyU : y ≤ U := by linarith
  clear cL cU hxp hqx hse hy y1 y2
  refine ⟨abs_le.2 ⟨by linarith, by linarith⟩, fun v hv => ?_⟩
  have hwU : 0 < 1 - U / 256 := by linarith
  have hwy : 1 - U / 256 ≤ 1 - y / 256 := by linarith
  have hwy0 : 0 < 1 - y / 256 := lt_of_lt_of_le hwU hwy
  rw [abs_of_pos hwy0] at hv
  have hrel := squareErr_relative (1 / 32768) (by norm_num) 8 (1 - y / 256) (1 - U / 256) (1 / 32768) (1 / 32768) hwU.le hwy (by norm_num) (by norm_num)
    (mul_le_mul_of_nonneg_left hwy (by norm_num))
  have hrel' : squareErr (1 / 32768) 8 (1 - y / 256) (1 / 32768) * (1 - U / 256) ^ 256 ≤ squareErr (1 / 32768) 8 (1 - U / 256) (1 / 32768) * (1 - y / 256) ^ 256 := hrel
  clear hrel
  have hPU : (1 - U / 256) ^ 256 ≤ (1 - y / 256) ^ 256 := pow_le_pow_left₀ hwU.le hwy _
  have hPL : (1 - y / 256) ^ 256 ≤ (1 - L / 256) ^ 256 := pow_le_pow_left₀ hwy0.le (by linarith) _
  have hPU0 : 0 < (1 - U / 256) ^ 256 := pow_pos hwU _
  generalize (1 - U / 256) ^ 256 = PU at *
  generalize (1 - y / 256) ^ 256 = P at *
  generalize (1 - L / 256) ^ 256 = PL at *
  generalize squareErr (1 / 32768) 8 (1 - U / 256) (1 / 32768) = SU at *
  generalize squareErr (1 / 32768) 8 (1 - y / 256) (1 / 32768) = S at *
  have hP0 : 0 < P := lt_of_lt_of_le hPU0 hPU
  have hQ0 : 0 < x * P := mul_pos hx hP0
  have key : |v - x * P| ≤ m * (x * P) := by
    refine hv.trans ?_
    -- divide by `PU`
    refine le_of_mul_le_mul_right ?_ hPU0
    have e1 : 1 / 32768 ≤ 1 / 32768 / p * x := by rw [div_mul_eq_mul_div, le_div_iff₀ hp]; linarith
    have k1 : x * (S * PU) ≤ x * (SU * P) := mul_le_mul_of_nonneg_left hrel' hx.le
    have k2 : 1 / 32768 * PU ≤ (1 / 32768 / p * x) * P := mul_le_mul e1 hPU hPU0.le (by positivity)
    have k3 : (SU + 1 / 32768 / p) * (x * P) ≤ m * PU * (x * P) := mul_le_mul_of_nonneg_right cm hQ0.le
    calc (x * S + 1 / 32768) * PU = x * (S * PU) + 1 / 32768 * PU := by ring
      _ ≤ x * (SU * P) + (1 / 32768 / p * x) * P := add_le_add k1 k2
      _ = (SU + 1 / 32768 / p) * (x * P) := by ring
      _ ≤ m * PU * (x * P) := k3
      _ = m * (x * P) * PU := by ring
  obtain ⟨v1, v2⟩ := abs_le.1 key
  refine ⟨key.trans (mul_le_mul_of_nonneg_right hm hQ0.le), ?_, ?_⟩
  · have k4 : p * PU ≤ x * P := mul_le_mul h1 hPU hPU0.le hx.le
    have k5 : p * PU * (1 - m) ≤ x * P * (1 - m) := mul_le_mul_of_nonneg_right k4 (by linarith)
    linarith
  · have k4 : x * P ≤ q * PL := mul_le_mul h2 hPL hP0.le (by linarith)
    have k5 : x * P * (1 + m) ≤ q * PL * (1 + m) := mul_le_mul_of_nonneg_right k4 (by linarith)
    linarith

theorem log_of_chain : ∀ (l : List (ℚ × ℚ × ℚ × ℚ)) (p x y : ℚ), logChain p l = true → p ≤ x → x ≤ (l.map Prod.fst).getLastD p → l ≠ [] →
    |y - (x / 120 - 20 * (1 - (2 * x + 1) / 256) ^ 256 + 3)| ≤ 20 * squareErr (1 / 32768) 8 (1 - (2 * x + 1) / 256) (1 / 32768) + 8 / 65536 →
    |y| ≤ 22 / 5 ∧ ∀ v, |v - x * (1 - y / 256) ^ 256| ≤ x * squareErr (1 / 32768) 8 |1 - y / 256| (1 / 32768) + 1 / 32768 →
      |v - x * (1 - y / 256) ^ 256| ≤ 1 / 50 * (x * (1 - y / 256) ^ 256) ∧ 39 / 400 ≤ v ∧ v ≤ 57 / 25
  | [], _, _, _, _, _, _, h, _ => absurd rfl h
  | (q, L, U, m) :: l, p, x, y, hc, h1, h2, _, hy => by
    rw [logChain, Bool.and_eq_true] at hc
    by_cases hq : x ≤ q
    · exact log_of_check p q L U m x y hc.1 h1 hq hy
    · cases l with
      | nil => exact absurd h2 hq
      | cons r l => exact log_of_chain (r :: l) q x y hc.2 (le_of_not_ge hq) h2 (by simp) hy

instance decSquareFits (k : ℕ) (δ : ℚ) : ∀ (d : ℕ) (w e : ℚ), Decidable (SquareFits k δ d w e)
  | 0, _, _ => isTrue trivial
  | d + 1, w, e =>
    haveI := decSquareFits k δ d (w * w) (e * (2 * w + e) + δ)
    inferInstanceAs (Decidable (2 ^ k * 2 ^ k * (w + e) ^ 2 < 2 ^ 63 ∧ SquareFits k δ d (w * w) (e * (2 * w + e) + δ)))

theorem logFits_first : LogFits 2 16 8 8 2 100 6 (32 / 25) := by
  constructor <;> decide +kernel

theorem logFits_second : LogFits 2 16 8 8 2 100 6 1 := by
  constructor <;> decide +kernel

theorem polyErr_first : polyErr 2 16 3 (32 / 25) (logCoeffs 8) ≤ 32 / 10000 := by decide +kernel

theorem polyErr_second : polyErr 2 16 3 1 (logCoeffs 8) ≤ 1 / 1000 := by decide +kernel

theorem logExp_second : squareErr (1 / 32768) 8 (1 - 21 / 4 / 256) (1 / 32768) + 1 / 32768 * 3 * (1 - 21 / 4 / 256) ^ 256 ≤ 1 / 40 * (1 - 21 / 4 / 256) ^ 256 := by decide +kernel

theorem abs_log_le {x : ℝ} (h1 : 1 / 100 ≤ x) (h2 : x ≤ 100) : |Real.log x| ≤ 4621 / 1000 := by
  have hx : 0 < x := by linarith
  have h100 : Real.log 100 ≤ 4621 / 1000 := by
    have e : Real.log ((100 : ℝ) ^ 3) ≤ Real.log ((2 : ℝ) ^ 20) := Real.log_le_log (by norm_num) (by norm_num)
    rw [Real.log_pow, Real.log_pow] at e
    have := Real.log_two_lt_d9
    push_cast at e
    linarith
  refine abs_le.2 ⟨?_, (Real.log_le_log hx h2).trans h100⟩
  have := Real.log_le_log (by norm_num) h1
  rw [one_div, Real.log_inv] at this
  linarith

theorem exp_29_50 : Real.exp (29 / 50) ≤ 179 / 100 := by
  have h := Real.exp_bound (x := 29 / 50) (by norm_num) (n := 6) (by norm_num)
  have h2 := (abs_le.1 h).2
  norm_num [Finset.sum_range_succ, Nat.factorial] at h2
  linarith

/-- The second iteration: what is known of `x exp(-y)` if `y` is near the logarithm. -/
theorem log_second (x y : ℚ) (h1 : 1 / 100 ≤ x) (h2 : x ≤ 100) (hd : -(29 / 50) ≤ (y : ℝ) - Real.log x) (hu : (y : ℝ) - Real.log x ≤ 1 / 2) :
    |y| ≤ 21 / 4 ∧ ∀ v, |v - x * (1 - y / 256) ^ 256| ≤ x * squareErr (1 / 32768) 8 |1 - y / 256| (1 / 32768) + 1 / 32768 →
      |v - x * (1 - y / 256) ^ 256| ≤ 1 / 40 * (x * (1 - y / 256) ^ 256) ∧ 43 / 100 ≤ v ∧ v ≤ 46 / 25 := by
  have hx : 0 < x := by linarith
  have hxR : (0 : ℝ) < x := by exact_mod_cast hx
  have hl := abs_le.1 (abs_log_le (x := (x : ℝ)) (by have := (Rat.cast_le (K := ℝ)).2 h1; push_cast at this; exact this) (by exact_mod_cast h2))
  have hyR : |(y : ℝ)| ≤ 21 / 4 := abs_le.2 ⟨by linarith [hl.1], by linarith [hl.2]⟩
  have hy : |y| ≤ 21 / 4 := by
    have e : ((|y| : ℚ) : ℝ) ≤ ((21 / 4 : ℚ) : ℝ) := by push_cast; exact hyR
    exact (Rat.cast_le (K := ℝ)).1 e
  refine ⟨hy, fun v hv => ?_⟩
  obtain ⟨y1, y2⟩ := abs_le.1 hy
  have hw0 : 0 < 1 - y / 256 := by linarith
  -- the exact value
  obtain ⟨g1, g2⟩ := log_base (y := (y : ℝ)) (hyR.trans (by norm_num))
  have hlogQ : Real.log ((x * (1 - y / 256) ^ 256 : ℚ) : ℝ) = Real.log x + 256 * Real.log (1 - (y : ℝ) / 256) := by
    have hb : (0 : ℝ) < 1 - (y : ℝ) / 256 := by have := (abs_le.1 hyR).2; linarith
    have e : ((x * (1 - y / 256) ^ 256 : ℚ) : ℝ) = (x : ℝ) * (1 - (y : ℝ) / 256) ^ 256 := by
      rw [Rat.cast_mul, Rat.cast_pow]; norm_num
    rw [e, Real.log_mul hxR.ne' (pow_pos hb _).ne', Real.log_pow]; norm_num
  have hQ0 : 0 < x * (1 - y / 256) ^ 256 := mul_pos hx (pow_pos hw0 _)
  have hysq : (y : ℝ) ^ 2 ≤ (21 / 4) ^ 2 := by rw [← sq_abs]; exact pow_le_pow_left₀ (abs_nonneg _) hyR 2
  have hrel' : squareErr (1 / 32768) 8 (1 - y / 256) (1 / 32768) * (1 - 21 / 4 / 256) ^ 256 ≤ squareErr (1 / 32768) 8 (1 - 21 / 4 / 256) (1 / 32768) * (1 - y / 256) ^ 256 :=
    squareErr_relative (1 / 32768) (by norm_num) 8 (1 - y / 256) (1 - 21 / 4 / 256) (1 / 32768) (1 / 32768) (by norm_num) (by linarith) (by norm_num) (by norm_num)
      (mul_le_mul_of_nonneg_left (by linarith) (by norm_num))
  have hcm := logExp_second
  have hPU0 : (0 : ℚ) < (1 - 21 / 4 / 256) ^ 256 := pow_pos (by norm_num) _
  rw [abs_of_pos hw0] at hv
  have hP0 : 0 < (1 - y / 256) ^ 256 := pow_pos hw0 _
  generalize (1 - y / 256) ^ 256 = P at *
  generalize ((1 : ℚ) - 21 / 4 / 256) ^ 256 = PU at *
  generalize squareErr (1 / 32768) 8 (1 - y / 256) (1 / 32768) = S at *
  generalize squareErr (1 / 32768) 8 (1 - 21 / 4 / 256) (1 / 32768) = SU at *
  have hQR : (0 : ℝ) < ((x * P : ℚ) : ℝ) := by exact_mod_cast hQ0
  have hQu : x * P ≤ 179 / 100 := by
    have e1 : ((x * P : ℚ) : ℝ) ≤ 179 / 100 := by
      rw [← Real.exp_log hQR, hlogQ]
      exact (Real.exp_le_exp.2 (by linarith)).trans exp_29_50
    have e2 : ((x * P : ℚ) : ℝ) ≤ ((179 / 100 : ℚ) : ℝ) := by push_cast at e1 ⊢; exact e1
    exact (Rat.cast_le (K := ℝ)).1 e2
  have hQl : 4435 / 10000 ≤ x * P := by
    have e1 : (4435 / 10000 : ℝ) ≤ ((x * P : ℚ) : ℝ) := by
      rw [← Real.exp_log hQR, hlogQ]
      have := Real.add_one_le_exp (Real.log x + 256 * Real.log (1 - (y : ℝ) / 256))
      norm_num at hysq
      linarith
    have e2 : ((4435 / 10000 : ℚ) : ℝ) ≤ ((x * P : ℚ) : ℝ) := by push_cast at e1 ⊢; exact e1
    exact (Rat.cast_le (K := ℝ)).1 e2
  have key : |v - x * P| ≤ 1 / 40 * (x * P) := by
    refine hv.trans (le_of_mul_le_mul_right ?_ hPU0)
    have k1 : x * (S * PU) ≤ x * (SU * P) := mul_le_mul_of_nonneg_left hrel' hx.le
    have k2 : 1 / 32768 * PU ≤ 1 / 32768 * 3 * PU * (x * P) := by
      have : PU ≤ 3 * (x * P) * PU := le_mul_of_one_le_left hPU0.le (by linarith)
      nlinarith
    have k3 : (SU + 1 / 32768 * 3 * PU) * (x * P) ≤ 1 / 40 * PU * (x * P) := mul_le_mul_of_nonneg_right hcm hQ0.le
    calc (x * S + 1 / 32768) * PU = x * (S * PU) + 1 / 32768 * PU := by ring
      _ ≤ x * (SU * P) + 1 / 32768 * 3 * PU * (x * P) := add_le_add k1 k2
      _ = (SU + 1 / 32768 * 3 * PU) * (x * P) := by ring
      _ ≤ 1 / 40 * PU * (x * P) := k3
      _ = 1 / 40 * (x * P) * PU := by ring
  obtain ⟨v1, v2⟩ := abs_le.1 key
  exact ⟨key, by linarith, by linarith⟩

theorem log_step_default {x y v z : ℚ} {μ ε a b : ℚ} (hx : 0 < x) (hy : |y| ≤ 6) (hμ : |v - x * (1 - y / 256) ^ 256| ≤ μ * (x * (1 - y / 256) ^ 256)) (hμ1 : μ ≤ 1 / 20)
    (ha : 0 < a) (ha1 : a ≤ 1) (hb1 : 1 ≤ b) (hav : a ≤ v) (hvb : v ≤ b) (hz : |z - (y - logSum 8 (1 - v))| ≤ ε) :
    (z : ℝ) - Real.log x ≤ ((20 / 19 * μ + (1 - a) ^ 9 / (9 * a) + ε : ℚ) : ℝ) ∧
      -((y : ℝ) ^ 2 / 488 + ((20 / 19 * μ + (b - 1) ^ 9 / (8 * b) + ε : ℚ) : ℝ)) ≤ (z : ℝ) - Real.log x := by
  have c : ∀ {p q : ℚ}, p ≤ q → (p : ℝ) ≤ (q : ℝ) := fun h => (Rat.cast_le (K := ℝ)).2 h
  have h1 : |(v : ℝ) - (x : ℝ) * (1 - (y : ℝ) / 256) ^ 256| ≤ (μ : ℝ) * ((x : ℝ) * (1 - (y : ℝ) / 256) ^ 256) := by
    have e : ((x * (1 - y / 256) ^ 256 : ℚ) : ℝ) = (x : ℝ) * (1 - (y : ℝ) / 256) ^ 256 := by
      rw [Rat.cast_mul, Rat.cast_pow]; norm_num
    have := c hμ
    rw [Rat.cast_abs, Rat.cast_sub, Rat.cast_mul μ, e] at this
    exact this
  have h2 : |(z : ℝ) - ((y : ℝ) - ∑ j ∈ Finset.range 8, (1 - (v : ℝ)) ^ (j + 1) / ((j : ℝ) + 1))| ≤ (ε : ℝ) := by
    have := c hz
    unfold logSum at this
    push_cast at this
    exact this
  have h := log_step_real (x := (x : ℝ)) (y := (y : ℝ)) (v := (v : ℝ)) (z := (z : ℝ)) (μ := (μ : ℝ)) (ε := (ε : ℝ)) (a := (a : ℝ)) (b := (b : ℝ)) (by exact_mod_cast hx)
    (by have := c hy; push_cast at this; exact this) h1 (by have := c hμ1; push_cast at this; exact this) (by exact_mod_cast ha) (by exact_mod_cast ha1) (by exact_mod_cast hb1)
    (c hav) (c hvb) h2
  constructor
  · have := h.1; push_cast; exact this
  · have := h.2; push_cast; linarith

/-- **C53, `log` with two parties and the default configuration**: for every entry between 1/100 and 100 the result is within 1/10 of the logarithm; more precisely within
`(|ln x| + 0.58) ^ 2 / 488 + 0.042`. -/
theorem C53_log_default_encrypted (q : ℕ) (method : MaxMethod) (c : FunCfg) (hd : c.expIterations = 8) (hd' : c.logExpIterations = 8) (ho : c.logOrder = 8) (hT : c.logIterations = 2)
    (x : AST 2 ι) (hx : x.scale = 2 ^ 16) (h : ∀ i, 1 / 100 ≤ x.value i ∧ x.value i ≤ 100) :
    Sat ((mpcOps 2 q method).log c x) fun z => z.scale = 2 ^ 16 ∧ ∀ i, |(z.value i : ℝ) - Real.log (x.value i)| ≤ 1 / 10 ∧
      |(z.value i : ℝ) - Real.log (x.value i)| ≤ (|Real.log (x.value i)| + 29 / 50) ^ 2 / 488 + 21 / 500 := by
  have hN : (2 : ℕ) ^ 8 = 256 := rfl
  have h256 : (2 : ℚ) ^ 8 = 256 := by norm_num
  have hδ : ((2 : ℕ) : ℚ) / 2 ^ 16 = 1 / 32768 := by norm_num
  have hx0 : ∀ i, 0 < x.value i := fun i => by linarith [(h i).1]
  have hsq := squareErr_default 1 (by norm_num) le_rfl
  unfold Ops.log
  rw [hd', ho, hT]
  refine Sat.bind (sat_logInit (n := 2) (k := 16) (by norm_num) q method (by norm_num) c (by omega) ?_ ?_ 100 (by norm_num) (by norm_num) x hx (fun i => (hx0 i).le) (fun i => (h i).2)
    fun i => ?_) fun y0 hy0 => ?_
  · rw [hd]; refine hsq.trans ?_; rw [one_pow]; norm_num
  · rw [hd]; exact squareFits_default 1 (by norm_num) le_rfl
  · rw [hd, h256]; linarith [(h i).2]
  obtain ⟨hs0, hv0⟩ := hy0
  rw [hd, h256, hN, hδ] at hv0
  have hv0' : ∀ i, |y0.value i - (x.value i / 120 - 20 * (1 - (2 * x.value i + 1) / 256) ^ 256 + 3)| ≤
      20 * squareErr (1 / 32768) 8 (1 - (2 * x.value i + 1) / 256) (1 / 32768) + 8 / 65536 := fun i => by
    have e : (3 * ((2 : ℕ) : ℚ) + 2) / 2 ^ 16 = 8 / 65536 := by norm_num
    have := hv0 i
    rw [e] at this
    exact this
  have hfirst := fun i => log_of_chain logRows (1 / 100) (x.value i) (y0.value i) logChain_table (h i).1 ((h i).2.trans (by decide +kernel)) (by simp [logRows, logTable]) (hv0' i)
  have step := fun (M Y : ℚ) (hf : LogFits 2 16 8 8 2 100 Y M) (y : AST 2 ι) (hy : y.scale = 2 ^ 16) (hY : ∀ i, |y.value i| ≤ Y) hM =>
    C53_log_step_encrypted (n := 2) (k := 16) (by norm_num) q method (by norm_num) (by norm_num) 8 8 2 (by norm_num) 100 Y M hf x y hx hy (fun i => (hx0 i).le) (fun i => (h i).2) hY hM
  rw [hN] at step
  simp only [h256, hδ] at step
  show Sat (iterM ((mpcOps 2 q method).logStep 8 8 x) (1 + 1) y0) _
  refine Sat.bind (step (32 / 25) 6 logFits_first y0 hs0 (fun i => (hfirst i).1.trans (by norm_num)) fun i v hv => ?_) fun y1 hy1 => ?_
  · obtain ⟨_, k1, k2⟩ := (hfirst i).2 v hv
    exact abs_le.2 ⟨by linarith, by linarith⟩
  obtain ⟨hs1, hv1⟩ := hy1
  have hD : ∀ i, -(29 / 50) ≤ (y1.value i : ℝ) - Real.log (x.value i) ∧ (y1.value i : ℝ) - Real.log (x.value i) ≤ 1 / 2 := fun i => by
    obtain ⟨v, hva, hvb⟩ := hv1 i
    obtain ⟨k0, k1, k2⟩ := (hfirst i).2 v hva
    obtain ⟨d1, d2⟩ := log_step_default (hx0 i) ((hfirst i).1.trans (by norm_num)) k0 (by norm_num) (by norm_num) (by norm_num) (by norm_num) k1 k2 (hvb.trans polyErr_first)
    have hy0R : (y0.value i : ℝ) ^ 2 ≤ (22 / 5) ^ 2 := by
      have e : |(y0.value i : ℝ)| ≤ 22 / 5 := by have := (Rat.cast_le (K := ℝ)).2 (hfirst i).1; push_cast at this; exact this
      rw [← sq_abs]; exact pow_le_pow_left₀ (abs_nonneg _) e 2
    norm_num at d1 d2 hy0R
    constructor <;> linarith
  have hsecond := fun i => log_second (x.value i) (y1.value i) (h i).1 (h i).2 (hD i).1 (hD i).2
  refine Sat.bind (step 1 6 logFits_second y1 hs1 (fun i => (hsecond i).1.trans (by norm_num)) fun i v hv => ?_) fun z hz => ?_
  · obtain ⟨_, k1, k2⟩ := (hsecond i).2 v hv
    exact abs_le.2 ⟨by linarith, by linarith⟩
  refine Sat.pure ⟨hz.1, fun i => ?_⟩
  have hfin : |(z.value i : ℝ) - Real.log (x.value i)| ≤ (|Real.log (x.value i)| + 29 / 50) ^ 2 / 488 + 21 / 500 := by
    obtain ⟨v, hva, hvb⟩ := hz.2 i
    obtain ⟨k0, k1, k2⟩ := (hsecond i).2 v hva
    obtain ⟨d1, d2⟩ := log_step_default (hx0 i) ((hsecond i).1.trans (by norm_num)) k0 (by norm_num) (by norm_num) (by norm_num) (by norm_num) k1 k2 (hvb.trans polyErr_second)
    have hy1R : (y1.value i : ℝ) ^ 2 ≤ (|Real.log (x.value i)| + 29 / 50) ^ 2 := by
      have e : |(y1.value i : ℝ)| ≤ |Real.log (x.value i)| + 29 / 50 := by
        have e1 := abs_add_le ((y1.value i : ℝ) - Real.log (x.value i)) (Real.log (x.value i))
        rw [sub_add_cancel] at e1
        have e2 : |(y1.value i : ℝ) - Real.log (x.value i)| ≤ 29 / 50 := abs_le.2 ⟨(hD i).1, by linarith [(hD i).2]⟩
        linarith
      rw [← sq_abs]; exact pow_le_pow_left₀ (abs_nonneg _) e 2
    have hsq0 : 0 ≤ (|Real.log (x.value i)| + 29 / 50) ^ 2 / 488 := by positivity
    norm_num at d1 d2
    refine abs_le.2 ⟨by linarith, by linarith⟩
  refine ⟨hfin.trans ?_, hfin⟩
  have hl := abs_log_le (x := (x.value i : ℝ)) (by have := (Rat.cast_le (K := ℝ)).2 (h i).1; push_cast at this; exact this) (by exact_mod_cast (h i).2)
  have := pow_le_pow_left₀ (by positivity : 0 ≤ |Real.log (x.value i : ℝ)| + 29 / 50) (add_le_add hl (le_refl (29 / 50 : ℝ))) 2
  norm_num at this
  linarith

/-- The hypotheses: sharings of 4 and of 1/2 by two parties, and the default configuration. -/
example : let x : AST 2 (Fin 2) := ⟨fun p i => if p = 0 then ![262145, 32766] i else ![-1, 2] i, 2 ^ 16⟩
    x.scale = 2 ^ 16 ∧ ∀ i, 1 / 100 ≤ x.value i ∧ x.value i ≤ 100 := by decide +kernel

example : let c : FunCfg := {}
    c.expIterations = 8 ∧ c.logExpIterations = 8 ∧ c.logOrder = 8 ∧ c.logIterations = 2 := by decide +kernel

end CrypTen

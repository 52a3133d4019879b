import Verif.Lemmas.Adaptive
import Mathlib.Tactic.Positivity
import Mathlib.Tactic.NormNum
import Mathlib.Algebra.Order.Field.Rat

/-! # C65: adaptive pooling -/

namespace CrypTen
namespace Adaptive

theorem sum_flatMap_range (f : ℕ → List ℚ) : ∀ n : ℕ, ((List.range n).flatMap f).sum = ∑ a ∈ Finset.range n, (f a).sum
  | 0 => by simp
  | n + 1 => by rw [List.range_succ, List.flatMap_append, List.sum_append, sum_flatMap_range f n, Finset.sum_range_succ]; simp

theorem sum_map_range (f : ℕ → ℚ) : ∀ n : ℕ, ((List.range n).map f).sum = ∑ a ∈ Finset.range n, f a
  | 0 => by simp
  | n + 1 => by rw [List.range_succ, List.map_append, List.sum_append, sum_map_range f n, Finset.sum_range_succ]; simp

theorem foldl_max : ∀ (l : List ℚ) (a : ℚ), (l.foldl max a = a ∨ l.foldl max a ∈ l) ∧ a ≤ l.foldl max a ∧ ∀ q ∈ l, q ≤ l.foldl max a
  | [], a => by simp
  | b :: l, a => by
    obtain ⟨h1, h2, h3⟩ := foldl_max l (max a b)
    rw [List.foldl_cons]
    refine ⟨?_, le_trans (le_max_left a b) h2, fun q hq => ?_⟩
    · rcases h1 with h | h
      · rw [h]
        rcases max_choice a b with h' | h'
        · exact Or.inl h'
        · rw [h']; exact Or.inr (by simp)
      · exact Or.inr (by simp [h])
    · rcases List.mem_cons.1 hq with rfl | h
      · exact le_trans (le_max_right a q) h2
      · exact h3 q h

theorem maxL_greatest {l : List ℚ} (h : l ≠ []) : IsGreatest {q | q ∈ l} (maxL l) := by
  cases l with
  | nil => exact absurd rfl h
  | cons a l =>
    obtain ⟨h1, h2, h3⟩ := foldl_max (a :: l) a
    unfold maxL
    rw [List.headD_cons]
    refine ⟨?_, fun q hq => h3 q hq⟩
    rcases h1 with h | h
    · rw [h]; simp
    · exact h

theorem length_cols (x : Plane) : x.cols.length = x.width := by simp [Plane.cols]

theorem getD_cols (x : Plane) {c : ℕ} (hc : c < x.width) (r : ℕ) : (x.cols.getD c fun _ => 0) r = x.entry r c := by
  unfold Plane.cols Plane.entry
  rw [List.getD_eq_getElem _ _ (by simpa using hc)]
  simp

theorem getD_ofCols (cols : List Row) {h r : ℕ} (hr : r < h) (c : ℕ) : (ofCols cols h).entry r c = (cols.getD c fun _ => 0) r := by
  unfold ofCols Plane.entry
  rw [List.getD_eq_getElem _ _ (by simpa using hr)]
  simp

theorem pool_some (red : Reduction) (p : Plane) {oh ow sh sw : ℕ} (hh : 0 < oh) (hw : 0 < ow) (sh0 : 0 < sh) (sw0 : 0 < sw) (h1 : p.rows.length = oh * sh) (h2 : p.width = ow * sw) :
    ∃ y, pool red p sh sw = some y ∧ y.rows.length = oh ∧ y.width = ow ∧ ∀ i < oh, ∀ j, y.entry i j = match red with | .mean => (block p sh sw i j).sum / (sh * sw) | .max => maxL (block p sh sw i j) := by
  have b1 : sh ≤ oh * sh := Nat.le_mul_of_pos_left _ hh
  have b2 : sw ≤ ow * sw := Nat.le_mul_of_pos_left _ hw
  have e1 : (oh * sh - sh) / sh + 1 = oh := by
    rw [show oh * sh - sh = (oh - 1) * sh by rw [Nat.sub_mul]; simp, Nat.mul_div_cancel _ sh0]; omega
  have e2 : (ow * sw - sw) / sw + 1 = ow := by
    rw [show ow * sw - sw = (ow - 1) * sw by rw [Nat.sub_mul]; simp, Nat.mul_div_cancel _ sw0]; omega
  unfold pool
  rw [h1, h2, if_pos ⟨sh0, sw0, b1, b2⟩, e1, e2]
  refine ⟨_, rfl, by simp, rfl, fun i hi j => ?_⟩
  unfold Plane.entry
  rw [List.getD_eq_getElem _ _ (by simpa using hi)]
  cases red <;> simp

theorem row_lt {oh sh i a : ℕ} (hi : i < oh) (ha : a < sh) : i * sh + a < oh * sh := by
  have : (i + 1) * sh ≤ oh * sh := Nat.mul_le_mul_right sh hi
  rw [Nat.succ_mul] at this; omega

theorem pooled_mean (fl : ℚ → ℚ) (x : Plane) {oh ow : ℕ} (hH : 0 < x.rows.length) (hW : 0 < x.width) (hh : 0 < oh) (hw : 0 < ow) (e1 : Exact fl x.rows.length oh) (e2 : Exact fl x.width ow) :
    ∃ y, ((helper fl .mean x oh ow).bind fun r => pool .mean r.1 r.2.1 r.2.2) = some y ∧ IsAdaptiveMean x y oh ow := by
  obtain ⟨r, sh, hr, sh0, rl, hrm⟩ := adapt_mean fl x.rows oh hh hH e1
  have cl := length_cols ⟨r, x.width⟩
  obtain ⟨c, sw, hc, sw0, cl', hcm⟩ := adapt_mean fl (Plane.cols ⟨r, x.width⟩) ow hw (by rw [cl]; exact hW) (by rw [cl]; exact e2)
  have hhelp : helper fl .mean x oh ow = some (ofCols c r.length, sh, sw) := by
    unfold helper
    rw [hr]
    simp only [Option.bind_eq_bind, Option.bind_some, hc, Option.pure_def]
  rw [hhelp, Option.bind_some]
  obtain ⟨y, hy, y1, y2, y3⟩ := pool_some .mean (ofCols c r.length) hh hw sh0 sw0 (by simp [ofCols, rl]) (by simp [ofCols, cl'])
  refine ⟨y, hy, y1, y2, fun i hi j hj => ?_⟩
  rw [y3 i hi j]
  simp only
  have hent : ∀ a ∈ Finset.range sh, ∀ b ∈ Finset.range sw, ((ofCols c r.length).rows.getD (i * sh + a) fun _ => 0) (j * sw + b) = (c.getD (j * sw + b) fun _ => 0) (i * sh + a) := fun a ha b _ =>
    getD_ofCols c (by rw [rl]; exact row_lt hi (Finset.mem_range.1 ha)) _
  have hsum : (block (ofCols c r.length) sh sw i j).sum = ∑ a ∈ Finset.range sh, ∑ b ∈ Finset.range sw, (c.getD (j * sw + b) fun _ => 0) (i * sh + a) := by
    unfold block
    rw [sum_flatMap_range]
    refine Finset.sum_congr rfl fun a ha => ?_
    rw [sum_map_range]
    exact Finset.sum_congr rfl fun b hb => hent a ha b hb
  rw [hsum, ← div_div, div_right_comm, Finset.sum_div]
  have hcol : ∀ a ∈ Finset.range sh, (∑ b ∈ Finset.range sw, (c.getD (j * sw + b) fun _ => 0) (i * sh + a)) / (sw : ℚ) = (∑ cc ∈ window x.width ow j, (r.getD (i * sh + a) fun _ => 0) cc) / ((window x.width ow j).card : ℚ) := by
    intro a _
    rw [hcm j hj, cl]
    congr 1
    refine Finset.sum_congr rfl fun cc hcc => ?_
    rw [getD_cols ⟨r, x.width⟩ (lt_of_lt_of_le (Finset.mem_Ico.1 hcc).2 (winEnd_le hw hj))]
    rfl
  rw [Finset.sum_congr rfl hcol, ← Finset.sum_div, Finset.sum_comm, div_right_comm, Finset.sum_div]
  have hrow : ∀ cc ∈ window x.width ow j, (∑ a ∈ Finset.range sh, (r.getD (i * sh + a) fun _ => 0) cc) / (sh : ℚ) = (∑ q ∈ window x.rows.length oh i, x.entry q cc) / ((window x.rows.length oh i).card : ℚ) := fun cc _ => hrm i hi cc
  rw [Finset.sum_congr rfl hrow, ← Finset.sum_div, div_div, Finset.sum_comm]

theorem pooled_max (fl : ℚ → ℚ) (x : Plane) {oh ow : ℕ} (hH : 0 < x.rows.length) (hW : 0 < x.width) (hh : 0 < oh) (hw : 0 < ow) (e1 : Exact fl x.rows.length oh) (e2 : Exact fl x.width ow) :
    ∃ y, ((helper fl .max x oh ow).bind fun r => pool .max r.1 r.2.1 r.2.2) = some y ∧ IsAdaptiveMax x y oh ow := by
  obtain ⟨r, sh, hr, sh0, rl, hrm⟩ := adapt_max fl x.rows oh hh hH e1
  have cl := length_cols ⟨r, x.width⟩
  obtain ⟨c, sw, hc, sw0, cl', hcm⟩ := adapt_max fl (Plane.cols ⟨r, x.width⟩) ow hw (by rw [cl]; exact hW) (by rw [cl]; exact e2)
  have hhelp : helper fl .max x oh ow = some (ofCols c r.length, sh, sw) := by
    unfold helper
    rw [hr]
    simp only [Option.bind_eq_bind, Option.bind_some, hc, Option.pure_def]
  rw [hhelp, Option.bind_some]
  obtain ⟨y, hy, y1, y2, y3⟩ := pool_some .max (ofCols c r.length) hh hw sh0 sw0 (by simp [ofCols, rl]) (by simp [ofCols, cl'])
  refine ⟨y, hy, y1, y2, fun i hi j hj => ?_⟩
  rw [y3 i hi j]
  simp only
  have hmem : ∀ q, q ∈ block (ofCols c r.length) sh sw i j ↔ ∃ a < sh, ∃ b < sw, q = (c.getD (j * sw + b) fun _ => 0) (i * sh + a) := by
    intro q
    unfold block
    simp only [List.mem_flatMap, List.mem_map, List.mem_range]
    constructor
    · rintro ⟨a, ha, b, hb, rfl⟩
      exact ⟨a, ha, b, hb, getD_ofCols c (by rw [rl]; exact row_lt hi ha) _⟩
    · rintro ⟨a, ha, b, hb, rfl⟩
      exact ⟨a, ha, b, hb, getD_ofCols c (by rw [rl]; exact row_lt hi ha) _⟩
  have hne : block (ofCols c r.length) sh sw i j ≠ [] := by
    intro h
    have := (hmem _).2 ⟨0, sh0, 0, sw0, rfl⟩
    rw [h] at this
    simp at this
  have hset : {q | ∃ r ∈ window x.rows.length oh i, ∃ c ∈ window x.width ow j, q = x.entry r c} = {q | q ∈ block (ofCols c r.length) sh sw i j} := by
    ext q
    simp only [Set.mem_setOf_eq, hmem]
    constructor
    · rintro ⟨q1, h1, q2, h2, rfl⟩
      obtain ⟨a, ha, ea⟩ := (hrm i hi).2 q1 h1
      obtain ⟨b, hb, eb⟩ := (hcm j hj).2 q2 (by rw [cl]; exact h2)
      refine ⟨a, ha, b, hb, ?_⟩
      rw [eb, getD_cols ⟨r, x.width⟩ (lt_of_lt_of_le (Finset.mem_Ico.1 h2).2 (winEnd_le hw hj))]
      exact (congrFun ea q2).symm
    · rintro ⟨a, ha, b, hb, rfl⟩
      obtain ⟨q1, h1, ea⟩ := (hrm i hi).1 a ha
      obtain ⟨q2, h2, eb⟩ := (hcm j hj).1 b hb
      rw [cl] at h2
      refine ⟨q1, h1, q2, h2, ?_⟩
      rw [eb, getD_cols ⟨r, x.width⟩ (lt_of_lt_of_le (Finset.mem_Ico.1 h2).2 (winEnd_le hw hj))]
      exact congrFun ea q2
  rw [hset]
  exact maxL_greatest hne

/-- `y` is the adaptive pooling of `x`. -/
def IsAdaptive (red : Reduction) (x y : Plane) (o : ℕ × ℕ) : Prop := match red with
  | .mean => IsAdaptiveMean x y o.1 o.2
  | .max => IsAdaptiveMax x y o.1 o.2

/-- **C65 (modules).** `AdaptiveAvgPool2d` and `AdaptiveMaxPool2d` return torch's adaptive pooling: for every input that is not empty, every output size (an integer, or a pair with possible `None`) that is not zero, as long as the floating-point computation of the windows gives torch's windows. -/
theorem C65_module_partial (fl : ℚ → ℚ) (red : Reduction) (x : Plane) (o : OutSize) (ho : o ≠ .none) (hH : 0 < x.rows.length) (hW : 0 < x.width) (h1 : 0 < (o.target x.rows.length x.width).1) (h2 : 0 < (o.target x.rows.length x.width).2)
    (e1 : Exact fl x.rows.length (o.target x.rows.length x.width).1) (e2 : Exact fl x.width (o.target x.rows.length x.width).2) :
    ∃ y, module fl red x o = some y ∧ IsAdaptive red x y (o.target x.rows.length x.width) := by
  cases o with
  | none => exact absurd rfl ho
  | int n =>
    cases red with
    | mean => exact pooled_mean fl x hH hW h1 h2 e1 e2
    | max => exact pooled_max fl x hH hW h1 h2 e1 e2
  | pair h w =>
    cases red with
    | mean => exact pooled_mean fl x hH hW h1 h2 e1 e2
    | max => exact pooled_max fl x hH hW h1 h2 e1 e2

theorem window_self {n i : ℕ} (hn : 0 < n) : window n n i = {i} := by
  unfold window winStart winEnd
  rw [Nat.mul_div_cancel _ hn, show (i + 1) * n + n - 1 = n * (i + 1) + (n - 1) by rw [Nat.mul_comm]; omega, Nat.mul_add_div hn, Nat.div_eq_of_lt (by omega), Nat.add_zero]
  exact Nat.Ico_succ_singleton i

theorem adaptive_self (red : Reduction) (x : Plane) (hH : 0 < x.rows.length) (hW : 0 < x.width) : IsAdaptive red x x (x.rows.length, x.width) := by
  cases red with
  | mean => exact ⟨rfl, rfl, fun i _ j _ => by simp [window_self hH, window_self hW]⟩
  | max => exact ⟨rfl, rfl, fun i _ j _ => by simp [window_self hH, window_self hW]⟩

/-- **C65 (functions).** The functions `adaptive_avg_pool2d` and `adaptive_max_pool2d`, for `None` and for a pair whose first entry is not `None`. -/
theorem C65_function_partial (fl : ℚ → ℚ) (red : Reduction) (x : Plane) (o : OutSize) (ho : o = .none ∨ ∃ h w, o = .pair (some h) w) (hH : 0 < x.rows.length) (hW : 0 < x.width) (h1 : 0 < (o.target x.rows.length x.width).1)
    (h2 : 0 < (o.target x.rows.length x.width).2) (e1 : Exact fl x.rows.length (o.target x.rows.length x.width).1) (e2 : Exact fl x.width (o.target x.rows.length x.width).2) :
    ∃ y, function fl red x o = some y ∧ IsAdaptive red x y (o.target x.rows.length x.width) := by
  rcases ho with rfl | ⟨h, w, rfl⟩
  · exact ⟨x, rfl, adaptive_self red x hH hW⟩
  · rw [function]
    split
    · rename_i hc
      obtain ⟨rfl, rfl⟩ := hc
      exact ⟨x, rfl, adaptive_self red x hH hW⟩
    · cases red with
      | mean => exact pooled_mean fl x hH hW h1 h2 e1 e2
      | max => exact pooled_max fl x hH hW h1 h2 e1 e2

/-- **C65 fails for an integer** passed to the functions: it is documented, and raises for every input. -/
theorem C65_function_int_wrong (fl : ℚ → ℚ) (red : Reduction) (x : Plane) (n : ℕ) : function fl red x (.int n) = none := rfl

/-- **C65 fails for `(None, w)`** passed to the functions: the input is returned, so the width is not the one asked for. -/
theorem C65_function_none_wrong (fl : ℚ → ℚ) (red : Reduction) (x : Plane) (w : ℕ) (hw : w ≠ x.width) : ∃ y, function fl red x (.pair none (some w)) = some y ∧ ¬IsAdaptive red x y ((OutSize.pair none (some w)).target x.rows.length x.width) := by
  refine ⟨x, rfl, fun h => hw ?_⟩
  cases red with
  | mean => exact h.2.1.symm
  | max => exact h.2.1.symm

/-- **C65 fails for some sizes because of rounding.** In double precision `7 * (29 / 7)` is above 29; pooling 29 rows to 7 returns only 6 rows. -/
theorem C65_rounding_wrong (red : Reduction) : ∃ x y : Plane, x.rows.length = 29 ∧ x.width = 1 ∧ module dbl red x (.pair (some 7) (some 1)) = some y ∧ y.rows.length = 6 := by
  have h : ((module dbl red ⟨List.replicate 29 fun _ => 0, 1⟩ (.pair (some 7) (some 1))).map fun y => y.rows.length) = some 6 := by
    cases red <;> decide +kernel
  obtain ⟨y, h1, h2⟩ := Option.map_eq_some_iff.1 h
  exact ⟨_, y, by simp, rfl, h1, h2⟩

/-! ## When rounding does not matter -/

theorem exponent_le {x : ℚ} (hx : 0 < x) : (2 : ℚ) ^ exponent x ≤ x := by
  unfold exponent
  split
  · rename_i h
    have h1 : 1 ≤ ⌊x⌋ := Int.le_floor.2 (by simpa using h)
    rw [zpow_natCast]
    have h2 : (2 : ℕ) ^ Nat.log2 ⌊x⌋.toNat ≤ ⌊x⌋.toNat := Nat.log2_self_le (by omega)
    have h3 : ((⌊x⌋.toNat : ℕ) : ℚ) = (⌊x⌋ : ℚ) := by
      have : ((⌊x⌋.toNat : ℕ) : ℤ) = ⌊x⌋ := Int.toNat_of_nonneg (by omega)
      exact_mod_cast this
    calc (2 : ℚ) ^ Nat.log2 ⌊x⌋.toNat ≤ (⌊x⌋.toNat : ℚ) := by exact_mod_cast h2
      _ = (⌊x⌋ : ℚ) := h3
      _ ≤ x := Int.floor_le x
  · rename_i h
    have h1 : 1 < x⁻¹ := (one_lt_inv₀ hx).2 (not_le.1 h)
    have h2 : 1 < ⌈x⁻¹⌉ := Int.lt_ceil.2 (by simpa using h1)
    have h3 : ⌈x⁻¹⌉.toNat - 1 < 2 ^ (Nat.log2 (⌈x⁻¹⌉.toNat - 1) + 1) := Nat.lt_log2_self
    have h4 : ((⌈x⁻¹⌉.toNat : ℕ) : ℚ) = (⌈x⁻¹⌉ : ℚ) := by
      have : ((⌈x⁻¹⌉.toNat : ℕ) : ℤ) = ⌈x⁻¹⌉ := Int.toNat_of_nonneg (by omega)
      exact_mod_cast this
    have h5 : x⁻¹ ≤ (2 : ℚ) ^ (Nat.log2 (⌈x⁻¹⌉.toNat - 1) + 1) := by
      calc x⁻¹ ≤ (⌈x⁻¹⌉ : ℚ) := Int.le_ceil _
        _ = (⌈x⁻¹⌉.toNat : ℚ) := h4.symm
        _ ≤ _ := by exact_mod_cast (by omega : ⌈x⁻¹⌉.toNat ≤ 2 ^ (Nat.log2 (⌈x⁻¹⌉.toNat - 1) + 1))
    rw [zpow_neg]
    rw [show ((Nat.log2 (⌈x⁻¹⌉.toNat - 1) : ℤ) + 1) = ((Nat.log2 (⌈x⁻¹⌉.toNat - 1) + 1 : ℕ) : ℤ) by push_cast; ring, zpow_natCast]
    rw [inv_le_comm₀ (by positivity) hx]
    exact h5

theorem roundEven_int (z : ℤ) : roundEven (z : ℚ) = z := by
  unfold roundEven
  rw [Int.floor_intCast]
  norm_num

/-- Numbers with at most 53 bits are not rounded. -/
theorem dbl_exact (m k : ℕ) (hm : m < 2 ^ 53) : dbl ((m : ℚ) / 2 ^ k) = (m : ℚ) / 2 ^ k := by
  unfold dbl
  rcases Nat.eq_zero_or_pos m with rfl | hm0
  · simp
  have hx : 0 < (m : ℚ) / 2 ^ k := by positivity
  rw [if_neg (not_le.2 hx)]
  have he := exponent_le hx
  generalize exponent ((m : ℚ) / 2 ^ k) = e at he
  have h2 : (2 : ℚ) ^ (e + k) < 2 ^ (53 : ℤ) := by
    rw [zpow_add₀ (by norm_num), zpow_natCast]
    calc (2 : ℚ) ^ e * 2 ^ k ≤ (m : ℚ) / 2 ^ k * 2 ^ k := mul_le_mul_of_nonneg_right he (by positivity)
      _ = m := div_mul_cancel₀ _ (by positivity)
      _ < ((2 ^ 53 : ℕ) : ℚ) := by exact_mod_cast hm
      _ = 2 ^ (53 : ℤ) := by norm_num
  have h3 : e + k < 53 := (zpow_lt_zpow_iff_right₀ (by norm_num : (1 : ℚ) < 2)).1 h2
  obtain ⟨d, hd⟩ : ∃ d : ℕ, (52 - e - k : ℤ) = d := ⟨(52 - e - k).toNat, by omega⟩
  have h4 : (m : ℚ) / 2 ^ k / 2 ^ (e - 52) = ((m * 2 ^ d : ℕ) : ℤ) := by
    have : (2 : ℚ) ^ k * 2 ^ (e - 52) * 2 ^ d = 1 := by
      rw [← zpow_natCast, ← zpow_natCast, ← zpow_add₀ (by norm_num), ← zpow_add₀ (by norm_num), ← hd, show (k : ℤ) + (e - 52) + (52 - e - k) = 0 by ring, zpow_zero]
    rw [div_div, div_eq_iff (mul_ne_zero (pow_ne_zero _ (by norm_num)) (zpow_ne_zero _ (by norm_num)))]
    push_cast
    rw [mul_assoc, mul_comm ((2 : ℚ) ^ d), this, mul_one]
  rw [h4, roundEven_int, ← h4, div_mul_cancel₀ _ (zpow_ne_zero _ (by norm_num))]

/-- The floating-point windows are torch's if the ratio of the sizes is a fraction with a power of two as its denominator (and sizes below 2^26): in particular if the output size divides the input size or is a power of two times a divisor of it. -/
theorem C65_exact_dyadic (n o m k : ℕ) (h : n * 2 ^ k = m * o) (hs : o * m < 2 ^ 53) : Exact dbl n o := by
  intro ho
  have ho0 : (o : ℚ) ≠ 0 := by exact_mod_cast (by omega : o ≠ 0)
  have hq : (n : ℚ) / o = (m : ℚ) / 2 ^ k := by
    rw [div_eq_div_iff ho0 (by positivity)]
    exact_mod_cast h
  have hm : m < 2 ^ 53 := lt_of_le_of_lt (Nat.le_mul_of_pos_left m (by omega)) hs
  have hj : ∀ j ≤ o, dbl ((j : ℚ) * dbl ((n : ℚ) / o)) = ((j * n : ℕ) : ℚ) / o := by
    intro j hjo
    rw [hq, dbl_exact m k hm]
    have : (j : ℚ) * ((m : ℚ) / 2 ^ k) = ((j * m : ℕ) : ℚ) / 2 ^ k := by push_cast; ring
    rw [this, dbl_exact (j * m) k (lt_of_le_of_lt (Nat.mul_le_mul_right m hjo) hs), ← this, ← hq]
    push_cast; ring
  unfold windows exactWindows
  refine List.map_congr_left fun j hjm => ?_
  have hjo := List.mem_range.1 hjm
  rw [hj j hjo.le, hj (j + 1) hjo]
  refine Prod.ext ?_ ?_
  · dsimp only
    unfold winStart
    rw [Rat.floor_natCast_div_natCast, ← Int.natCast_ediv, Int.toNat_natCast]
  · dsimp only
    unfold winEnd
    have : ⌈(((j + 1) * n : ℕ) : ℚ) / o⌉ = ((((j + 1) * n + o - 1) / o : ℕ) : ℤ) := by
      rw [Int.ceil_eq_iff]
      have h1 := Nat.div_add_mod ((j + 1) * n + o - 1) o
      have h2 := Nat.mod_lt ((j + 1) * n + o - 1) (by omega : 0 < o)
      generalize ((j + 1) * n + o - 1) / o = q at *
      have ho' : (0 : ℚ) < o := by exact_mod_cast (by omega : 0 < o)
      constructor
      · rw [lt_div_iff₀ ho']
        have : (q : ℤ) * o - o < ((j + 1) * n : ℕ) := by
          have e : ((o * q : ℕ) : ℤ) = q * o := by push_cast; ring
          rw [← e]; omega
        have e2 : ((q : ℤ) : ℚ) - 1 = ((q : ℚ) - 1) := by push_cast; ring
        rw [e2, sub_mul, one_mul]
        exact_mod_cast this
      · rw [div_le_iff₀ ho']
        have : (j + 1) * n ≤ q * o := by rw [Nat.mul_comm q]; omega
        exact_mod_cast this
    rw [this, Int.toNat_natCast]

/-- A concrete case: 10 rows to 4. -/
example (x : Plane) (hx : x.rows.length = 10) (hw : x.width = 6) : ∃ y, module dbl .mean x (.pair (some 4) none) = some y ∧ IsAdaptive .mean x y (4, 6) := by
  have := C65_module_partial dbl .mean x (.pair (some 4) none) (by simp) (by omega) (by omega) (by simp [OutSize.target]) (by simp [OutSize.target]; omega)
    (by rw [hx]; exact C65_exact_dyadic 10 4 5 1 (by norm_num) (by norm_num)) (by rw [hw]; exact C65_exact_dyadic 6 6 1 0 (by norm_num) (by norm_num))
  rw [hx, hw] at this
  exact this

end Adaptive
end CrypTen

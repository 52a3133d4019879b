import Verif.Model.Encoder
import Verif.Lemmas.Int64
import Mathlib.Tactic.Positivity
import Mathlib.Tactic.FieldSimp

/-!
# C05, C06, C07, C58: the fixed-point encoder
-/

namespace CrypTen

theorem truncQ_bounds (x : ℚ) : |(truncQ x : ℚ) - x| < 1 ∧ |(truncQ x : ℚ)| ≤ |x| ∧ 0 ≤ (truncQ x : ℚ) * x := by
  unfold truncQ
  split
  · next h =>
    have h1 := Int.floor_le x; have h2 := Int.lt_floor_add_one x
    have h3 : (0 : ℚ) ≤ ⌊x⌋ := by exact_mod_cast Int.floor_nonneg.2 h
    refine ⟨by rw [abs_lt]; constructor <;> linarith, ?_, by positivity⟩
    rw [abs_of_nonneg h3, abs_of_nonneg h]; exact h1
  · next h =>
    push Not at h
    have h1 := Int.le_ceil x; have h2 := Int.ceil_lt_add_one x
    have h3 : ((⌈x⌉ : ℤ) : ℚ) ≤ 0 := by exact_mod_cast Int.ceil_le.2 (by push_cast; linarith)
    refine ⟨by rw [abs_lt]; constructor <;> linarith, ?_, mul_nonneg_of_nonpos_of_nonpos h3 h.le⟩
    rw [abs_of_nonpos h3, abs_of_neg h]; linarith

theorem truncQ_intCast (z : ℤ) : truncQ (z : ℚ) = z := by
  unfold truncQ; split <;> simp

theorem truncQ_neg (x : ℚ) : truncQ (-x) = -truncQ x := by
  unfold truncQ
  rcases lt_trichotomy x 0 with h | h | h
  · rw [if_pos (by linarith), if_neg (by linarith), Int.floor_neg]
  · subst h; simp
  · rw [if_neg (by linarith), if_pos h.le, Int.ceil_neg]

theorem truncQ_mono {x y : ℚ} (h : x ≤ y) : truncQ x ≤ truncQ y := by
  unfold truncQ
  split
  · rw [if_pos (by linarith)]; exact Int.floor_mono h
  · split
    · next h1 h2 =>
      push Not at h1
      have : ⌈x⌉ ≤ 0 := Int.ceil_le.2 (by push_cast; linarith)
      have := Int.floor_nonneg.2 h2
      omega
    · exact Int.ceil_mono h

theorem truncQ_range {x : ℚ} (h : |x| < 2 ^ 63) : -2 ^ 63 ≤ truncQ x ∧ truncQ x < 2 ^ 63 := by
  obtain ⟨_, h2, _⟩ := truncQ_bounds x
  have h3 : |(truncQ x : ℚ)| < 2 ^ 63 := lt_of_le_of_lt h2 h
  rw [abs_lt] at h3
  constructor
  · have : ((-2 ^ 63 : ℤ) : ℚ) ≤ truncQ x := by push_cast; linarith [h3.1]
    exact_mod_cast this
  · have : (truncQ x : ℚ) < ((2 ^ 63 : ℤ) : ℚ) := by push_cast; linarith [h3.2]
    exact_mod_cast this

/-- The inputs that denote a real number `x` (numpy arrays are treated in C58). -/
inductive Denotes : PlainInput → ℚ → Prop where
  | pyInt (z : ℤ) : Denotes (.pyInt z) z
  | pyFloat (x : ℚ) : Denotes (.pyFloat x) x
  | listElem (x : ℚ) : Denotes (.listElem x) x
  | floatTensor (x : ℚ) : Denotes (.floatTensor x) x
  | intTensor (z : I64) : Denotes (.intTensor z) z.toInt

/-- For every input denoting `x` with `|scale * x| < 2^63`, `encode` succeeds and yields `trunc (scale * x)`. -/
theorem C05_encode_eq_trunc (scale : ℕ) (inp : PlainInput) (x : ℚ) (h : Denotes inp x)
    (hr : |(scale : ℚ) * x| < 2 ^ 63) :
    ∃ e, encode scale inp = .ok e ∧ e.toInt = truncQ (scale * x) := by
  have hb := truncQ_range hr
  cases h with
  | pyInt z => exact ⟨_, by simp only [encode, toLongChecked]; rw [if_pos hb], toInt_ofInt64 hb.1 hb.2⟩
  | pyFloat x => exact ⟨_, by simp only [encode, toLongChecked]; rw [if_pos hb], toInt_ofInt64 hb.1 hb.2⟩
  | listElem x => exact ⟨_, rfl, by rw [toLong, mul_comm x, toInt_ofInt64 hb.1 hb.2]⟩
  | floatTensor x => exact ⟨_, rfl, toInt_ofInt64 hb.1 hb.2⟩
  | intTensor z =>
    refine ⟨_, rfl, ?_⟩
    have e : (scale : ℚ) * (z.toInt : ℚ) = ((scale * z.toInt : ℤ) : ℚ) := by push_cast; ring
    rw [e, truncQ_intCast] at hb
    rw [e, truncQ_intCast]
    have : BitVec.ofNat 64 scale * z = BitVec.ofInt 64 (scale * z.toInt) := by
      rw [ofInt_mul64, ofInt_toInt]; congr 1
    rw [this, toInt_ofInt64 hb.1 hb.2]

/-- **C05.** The encoded value is within one unit of `scale * x`, never larger in magnitude, and of the same sign. -/
theorem C05_encode_error (scale : ℕ) (inp : PlainInput) (x : ℚ) (h : Denotes inp x)
    (hr : |(scale : ℚ) * x| < 2 ^ 63) :
    ∃ e, encode scale inp = .ok e ∧ |(e.toInt : ℚ) - scale * x| < 1 ∧
      |(e.toInt : ℚ)| ≤ |scale * x| ∧ 0 ≤ (e.toInt : ℚ) * (scale * x) := by
  obtain ⟨e, he, ht⟩ := C05_encode_eq_trunc scale inp x h hr
  obtain ⟨a, b, c⟩ := truncQ_bounds (scale * x)
  exact ⟨e, he, by rw [ht]; exact a, by rw [ht]; exact b, by rw [ht]; exact c⟩

/-- **C05 (integers).** Integers encode exactly, for every input form. -/
theorem C05_encode_integers_exact (scale : ℕ) (inp : PlainInput) (z : ℤ) (h : Denotes inp z)
    (hr : |(scale : ℚ) * z| < 2 ^ 63) :
    ∃ e, encode scale inp = .ok e ∧ e.toInt = scale * z := by
  obtain ⟨e, he, ht⟩ := C05_encode_eq_trunc scale inp z h hr
  refine ⟨e, he, ?_⟩
  rw [ht, show (scale : ℚ) * (z : ℚ) = ((scale * z : ℤ) : ℚ) by push_cast; ring, truncQ_intCast]

/-- **C05 (integer tensors).** Integer tensors encode to `scale * z` in the ring, without any range condition. -/
theorem C05_encode_int_tensor_ring (scale : ℕ) (z : I64) :
    encode scale (.intTensor z) = .ok ((scale : I64) * z) := rfl

/-- **C05 (order, oddness).** Encoding is monotone and commutes with negation. -/
theorem C05_encode_monotone_odd (scale : ℕ) (x y : ℚ) (hx : |(scale : ℚ) * x| < 2 ^ 63) (hy : |(scale : ℚ) * y| < 2 ^ 63) :
    ∃ ex ey enx, encode scale (.floatTensor x) = .ok ex ∧ encode scale (.floatTensor y) = .ok ey ∧
      encode scale (.floatTensor (-x)) = .ok enx ∧ (x ≤ y → ex.toInt ≤ ey.toInt) ∧ enx.toInt = -ex.toInt := by
  obtain ⟨ex, h1, h1'⟩ := C05_encode_eq_trunc scale _ x (.floatTensor x) hx
  obtain ⟨ey, h2, h2'⟩ := C05_encode_eq_trunc scale _ y (.floatTensor y) hy
  obtain ⟨en, h3, h3'⟩ := C05_encode_eq_trunc scale _ (-x) (.floatTensor (-x)) (by rwa [mul_neg, abs_neg])
  refine ⟨ex, ey, en, h1, h2, h3, fun h => ?_, ?_⟩
  · rw [h1', h2']; exact truncQ_mono (mul_le_mul_of_nonneg_left h (Nat.cast_nonneg _))
  · rw [h3', h1', mul_neg, truncQ_neg]

/-- **C05 (scale bookkeeping).** After any sequence of assignments that set the precision, or set the scale to a power of
two, the scale is two to the precision. -/
theorem C05_scale_is_power_of_precision (p0 : ℕ) (as : List EncoderAssign)
    (hp : ∀ s, EncoderAssign.setScale s ∈ as → ∃ k, s = 2 ^ k) :
    let e := as.foldl EncoderState.assign (EncoderState.init p0)
    e.scale = 2 ^ e.precisionBits := by
  have : ∀ (as : List EncoderAssign) (e : EncoderState), e.scale = 2 ^ e.precisionBits →
      (∀ s, EncoderAssign.setScale s ∈ as → ∃ k, s = 2 ^ k) →
      (as.foldl EncoderState.assign e).scale = 2 ^ (as.foldl EncoderState.assign e).precisionBits := by
    intro as
    induction as with
    | nil => intro e he _; exact he
    | cons a as ih =>
      intro e he hp
      refine ih _ ?_ (fun s hs => hp s (List.mem_cons_of_mem _ hs))
      cases a with
      | setPrecision b => rfl
      | setScale s =>
        obtain ⟨k, rfl⟩ := hp s List.mem_cons_self
        simp [EncoderState.assign]
  exact this as _ rfl hp

example : Denotes (.pyFloat (-3 / 7)) (-3 / 7) ∧ |((65536 : ℕ) : ℚ) * (-3 / 7)| < 2 ^ 63 :=
  ⟨.pyFloat _, by norm_num [abs_lt]⟩

/-! ## C58: numpy arrays -/

/-- **C58 is refuted.** A numpy array element `1/2` at the default precision 16 is encoded as `0` instead of `32768`: the
array is converted to integers before scaling. -/
theorem C58_ndarray_loses_fraction :
    encode (2 ^ 16) (.ndarray (1 / 2)) = .ok 0#64 ∧ encode (2 ^ 16) (.floatTensor (1 / 2)) = .ok 32768#64 := by
  constructor
  · simp only [encode, toLong, truncQ]
    norm_num
  · simp only [encode, toLong, truncQ]
    norm_num

/-- **C58, the part that holds:** arrays with integer entries encode exactly. Missing: entries with a fraction, for which the
claim is false. -/
theorem C58_ndarray_partial (scale : ℕ) (z : ℤ) (hr : |(scale : ℚ) * z| < 2 ^ 63) :
    ∃ e, encode scale (.ndarray z) = .ok e ∧ e.toInt = scale * z := by
  refine ⟨_, rfl, ?_⟩
  rw [toLong, truncQ_intCast]
  have hb := truncQ_range hr
  rw [show (scale : ℚ) * (z : ℚ) = ((scale * z : ℤ) : ℚ) by push_cast; ring, truncQ_intCast] at hb
  have : BitVec.ofNat 64 scale * BitVec.ofInt 64 z = BitVec.ofInt 64 (scale * z) := by
    rw [ofInt_mul64]; congr 1
  rw [this, toInt_ofInt64 hb.1 hb.2]

example : |((2 ^ 16 : ℕ) : ℚ) * ((-5 : ℤ) : ℚ)| < 2 ^ 63 := by norm_num [abs_lt]

/-! ## C06: decode -/

theorem ofNat_toInt {s : ℕ} (h : s < 2 ^ 63) : (BitVec.ofNat 64 s).toInt = s := by
  have : BitVec.ofNat 64 s = BitVec.ofInt 64 (s : ℤ) := rfl
  rw [this]
  exact toInt_ofInt64 (by omega) (by exact_mod_cast h)

theorem decode_neg_eq {s : ℕ} (h2 : 2 ≤ s) (hs : s < 2 ^ 63) (t : I64) (ht : t.toInt < 0) :
    decode s t = some ((t.toInt / ((s : ℤ) - 1) : ℤ) +
      ((if t.toInt % s = 0 then (s : ℤ) else t.toInt % s : ℤ) : ℚ) / s) := by
  have hsI := ofNat_toInt hs
  have hlo := toInt_ge t
  norm_num at hlo hs
  have h1 : (BitVec.ofNat 64 s - 1#64).toInt = (s : ℤ) - 1 := by
    rw [toInt_sub_of_range] <;> rw [hsI] <;> norm_num <;> omega
  have hc : boolI64 (decide (t.toInt < 0)) = 1#64 := by simp [boolI64, ht]
  have hmod0 := Int.emod_nonneg t.toInt (b := (s : ℤ)) (by omega)
  have hmod1 := Int.emod_lt_of_pos t.toInt (b := (s : ℤ)) (by omega)
  have hd1 : t.toInt ≤ t.toInt / ((s : ℤ) - 1) := by
    rw [Int.le_ediv_iff_mul_le (by omega)]
    nlinarith
  have hd2 : t.toInt / ((s : ℤ) - 1) < 0 := Int.ediv_neg_of_neg_of_pos ht (by omega)
  have hdiv : (fdivI64 t (BitVec.ofNat 64 s - 1#64)).toInt = t.toInt / ((s : ℤ) - 1) := by
    unfold fdivI64
    rw [h1, Int.fdiv_eq_ediv_of_nonneg _ (by omega), toInt_ofInt64 (by norm_num; omega) (by norm_num; omega)]
  have hmod : (fmodI64 t (BitVec.ofNat 64 s)).toInt = t.toInt % s := by
    unfold fmodI64
    rw [hsI, Int.fmod_eq_emod_of_nonneg _ (by omega), toInt_ofInt64 (by norm_num; omega) (by norm_num; omega)]
  have hrem : (fmodI64 t (BitVec.ofNat 64 s) +
      boolI64 (decide (fmodI64 t (BitVec.ofNat 64 s) = 0#64)) * BitVec.ofNat 64 s * 1#64).toInt =
      if t.toInt % s = 0 then (s : ℤ) else t.toInt % s := by
    by_cases hz : t.toInt % s = 0
    · have : fmodI64 t (BitVec.ofNat 64 s) = 0#64 := BitVec.eq_of_toInt_eq (by rw [hmod, hz]; rfl)
      rw [if_pos hz, this]
      simp [boolI64, hsI]
    · have : fmodI64 t (BitVec.ofNat 64 s) ≠ 0#64 := fun h => hz (by rw [← hmod, h]; rfl)
      rw [if_neg hz]
      simp [boolI64, this, hmod]
  unfold decode
  rw [if_pos (by omega : s > 1)]
  simp only [hc, hdiv, hrem]

/-- **C06, exact characterisation.** For every scale `s ≥ 2` and every 64-bit value `t`, decoding gives `t / s` when `t ≥ 0`; when
`t = -(q*s + r)` is negative it gives `t / s` minus the natural number `(q + r - 1) / (s - 1)` (integer division). -/
theorem C06_decode_characterised (s : ℕ) (h2 : 2 ≤ s) (hs : s < 2 ^ 63) (t : I64) :
    decode s t = some (if 0 ≤ t.toInt then (t.toInt : ℚ) / s else
      (t.toInt : ℚ) / s - (((-t.toInt) / s + (-t.toInt) % s - 1) / ((s : ℤ) - 1) : ℤ)) := by
  have hs0 : (s : ℚ) ≠ 0 := by norm_cast; omega
  split
  · next ht =>
    have hsI := ofNat_toInt hs
    have hhi := toInt_lt t
    norm_num at hhi hs
    have hmod0 := Int.emod_nonneg t.toInt (b := (s : ℤ)) (by omega)
    have hmod1 := Int.emod_lt_of_pos t.toInt (b := (s : ℤ)) (by omega)
    have hd1 : t.toInt / (s : ℤ) ≤ t.toInt := Int.ediv_le_self _ ht
    have hd2 : 0 ≤ t.toInt / (s : ℤ) := Int.ediv_nonneg ht (by omega)
    have hc : boolI64 (decide (t.toInt < 0)) = 0#64 := by simp [boolI64, not_lt.2 ht]
    have hdiv : (fdivI64 t (BitVec.ofNat 64 s)).toInt = t.toInt / (s : ℤ) := by
      unfold fdivI64
      rw [hsI, Int.fdiv_eq_ediv_of_nonneg _ (by omega), toInt_ofInt64 (by norm_num; omega) (by norm_num; omega)]
    have hmod : (fmodI64 t (BitVec.ofNat 64 s)).toInt = t.toInt % s := by
      unfold fmodI64
      rw [hsI, Int.fmod_eq_emod_of_nonneg _ (by omega), toInt_ofInt64 (by norm_num; omega) (by norm_num; omega)]
    unfold decode
    rw [if_pos (by omega : s > 1)]
    have e : fmodI64 t (BitVec.ofNat 64 s) +
      boolI64 (decide (fmodI64 t (BitVec.ofNat 64 s) = 0#64)) * BitVec.ofNat 64 s * 0#64 = fmodI64 t (BitVec.ofNat 64 s) := by
      simp
    simp only [hc, e, hmod, show BitVec.ofNat 64 s - 0#64 = BitVec.ofNat 64 s by simp, hdiv]
    have := Int.mul_ediv_add_emod t.toInt s
    congr 1
    field_simp
    have : ((t.toInt / (s : ℤ) : ℤ) : ℚ) * s + ((t.toInt % (s : ℤ) : ℤ) : ℚ) = (t.toInt : ℚ) := by
      rw [mul_comm]; exact_mod_cast this
    linarith
  · next ht =>
    push Not at ht
    rw [decode_neg_eq h2 hs t ht]
    generalize ht' : t.toInt = T at *
    have hm := Int.mul_ediv_add_emod (-T) s
    have hr0 := Int.emod_nonneg (-T) (b := (s : ℤ)) (by omega)
    have hr1 := Int.emod_lt_of_pos (-T) (b := (s : ℤ)) (by omega)
    have hq0 : 0 ≤ (-T) / (s : ℤ) := Int.ediv_nonneg (by omega) (by omega)
    generalize hq : (-T) / (s : ℤ) = q at *
    generalize hr : (-T) % (s : ℤ) = r at *
    -- remainder of `T`
    have hTmod : T % (s : ℤ) = if r = 0 then 0 else s - r := by
      have hT : T = -r + s * (-q) := by linarith
      rw [hT, Int.add_mul_emod_self_left]
      split
      · next h => simp [h]
      · next h =>
        rw [Int.neg_emod]
        have hnd : ¬ ((s : ℤ) ∣ r) := fun hd => h (Int.eq_zero_of_dvd_of_nonneg_of_lt hr0 hr1 hd)
        rw [if_neg hnd, Int.emod_eq_of_lt hr0 hr1]; simp
    -- quotient
    have hTdiv : T / ((s : ℤ) - 1) = -(q + 1) - (q + r - 1) / ((s : ℤ) - 1) := by
      have hT : T = -(q + r) + ((s : ℤ) - 1) * (-q) := by linarith
      rw [hT, Int.add_mul_ediv_left _ _ (by omega)]
      have hneg : -(q + r) / ((s : ℤ) - 1) = -1 - (q + r - 1) / ((s : ℤ) - 1) := by
        have := Int.mul_ediv_add_emod (q + r - 1) ((s : ℤ) - 1)
        have h0 := Int.emod_nonneg (q + r - 1) (b := (s : ℤ) - 1) (by omega)
        have h1 := Int.emod_lt_of_pos (q + r - 1) (b := (s : ℤ) - 1) (by omega)
        generalize (q + r - 1) / ((s : ℤ) - 1) = Q at *
        generalize (q + r - 1) % ((s : ℤ) - 1) = R at *
        rw [Int.ediv_eq_iff_of_pos (by omega)]
        constructor <;> nlinarith
      omega
    have hrem : (if T % (s : ℤ) = 0 then (s : ℤ) else T % (s : ℤ)) = s - r := by
      rw [hTmod]
      by_cases h : r = 0
      · simp [h]
      · simp only [if_neg h]; rw [if_neg (by omega)]
    rw [hrem, hTdiv]
    congr 1
    have hTq : (T : ℚ) = -(s * q + r) := by
      have : -T = s * q + r := hm.symm
      have h' : ((-T : ℤ) : ℚ) = s * q + r := by rw [this]; push_cast; ring
      push_cast at h'; linarith
    rw [hTq]
    push_cast
    field_simp
    ring

/-- **C06, when decoding is exact:** precisely when `t ≥ 0` or `t = -(q*s + r)` with `q + r < s`. -/
theorem C06_decode_exact_iff (s : ℕ) (h2 : 2 ≤ s) (hs : s < 2 ^ 63) (t : I64) :
    decode s t = some ((t.toInt : ℚ) / s) ↔ (0 ≤ t.toInt ∨ (-t.toInt) / s + (-t.toInt) % s < s) := by
  rw [C06_decode_characterised s h2 hs t]
  by_cases ht : 0 ≤ t.toInt
  · simp [ht]
  · rw [if_neg ht]
    simp only [ht, false_or, Option.some.injEq, sub_eq_self, Int.cast_eq_zero]
    push Not at ht
    have hr0 := Int.emod_nonneg (-t.toInt) (b := (s : ℤ)) (by omega)
    have hq0 : 0 ≤ (-t.toInt) / (s : ℤ) := Int.ediv_nonneg (by omega) (by omega)
    have hm := Int.mul_ediv_add_emod (-t.toInt) s
    have hpos : 0 < (-t.toInt) / (s : ℤ) + (-t.toInt) % (s : ℤ) := by
      rcases hq0.lt_or_eq with h | h
      · omega
      · rw [← h] at hm; omega
    generalize (-t.toInt) / (s : ℤ) = q at *
    generalize (-t.toInt) % (s : ℤ) = r at *
    constructor
    · intro h
      by_contra hc
      push Not at hc
      have : 1 ≤ (q + r - 1) / ((s : ℤ) - 1) := by
        rw [Int.le_ediv_iff_mul_le (by omega)]; omega
      omega
    · intro h
      exact Int.ediv_eq_zero_of_lt (by omega) (by omega)

/-- **C06, the part that holds.** Decoding is exact for all nonnegative values and for all values of magnitude at most one
(`-s ≤ t`). Missing: negative values below `-1`, for which it is false in general. -/
theorem C06_decode_exact_partial (s : ℕ) (h2 : 2 ≤ s) (hs : s < 2 ^ 63) (t : I64) (ht : -(s : ℤ) ≤ t.toInt) :
    decode s t = some ((t.toInt : ℚ) / s) := by
  rw [C06_decode_exact_iff s h2 hs t]
  by_cases h0 : 0 ≤ t.toInt
  · exact .inl h0
  · right
    push Not at h0
    have hm := Int.mul_ediv_add_emod (-t.toInt) s
    have hr0 := Int.emod_nonneg (-t.toInt) (b := (s : ℤ)) (by omega)
    have hr1 := Int.emod_lt_of_pos (-t.toInt) (b := (s : ℤ)) (by omega)
    have hq0 : 0 ≤ (-t.toInt) / (s : ℤ) := Int.ediv_nonneg (by omega) (by omega)
    have hq1 : (-t.toInt) / (s : ℤ) ≤ 1 := by
      by_contra h
      push Not at h
      nlinarith
    rcases (by omega : (-t.toInt) / (s : ℤ) = 0 ∨ (-t.toInt) / (s : ℤ) = 1) with h | h
    · omega
    · rw [h] at hm; omega

/-- **C06 is refuted.** At the default precision of 16 bits, the encoding of `-1000000` decodes to `-1000015`. -/
theorem C06_decode_not_exact :
    encode (2 ^ 16) (.intTensor (BitVec.ofInt 64 (-1000000))) = .ok (BitVec.ofInt 64 (-65536000000)) ∧
    decode (2 ^ 16) (BitVec.ofInt 64 (-65536000000)) = some (-1000015) := by
  constructor
  · rfl
  · rw [C06_decode_characterised (2 ^ 16) (by norm_num) (by norm_num)]
    have : (BitVec.ofInt 64 (-65536000000)).toInt = -65536000000 := by decide
    rw [this]
    norm_num

/-- The error of decoding is never positive and its relative size is below `1/(s-1)`, plus at most one unit. -/
theorem C06_decode_error_bound_partial (s : ℕ) (h2 : 2 ≤ s) (hs : s < 2 ^ 63) (t : I64) :
    ∃ v, decode s t = some v ∧ v ≤ (t.toInt : ℚ) / s ∧ (t.toInt : ℚ) / s - v ≤ |(t.toInt : ℚ) / s| / (s - 1) + 1 := by
  have hs1 : (0 : ℚ) < (s : ℚ) - 1 := by have : (2 : ℚ) ≤ s := by exact_mod_cast h2
                                         linarith
  refine ⟨_, C06_decode_characterised s h2 hs t, ?_, ?_⟩
  · split
    · exact le_refl _
    · next ht =>
      have : (0 : ℤ) ≤ (-t.toInt / s + -t.toInt % s - 1) / ((s : ℤ) - 1) := by
        apply Int.ediv_nonneg _ (by omega)
        have hr0 := Int.emod_nonneg (-t.toInt) (b := (s : ℤ)) (by omega)
        have hq0 : 0 ≤ (-t.toInt) / (s : ℤ) := Int.ediv_nonneg (by omega) (by omega)
        have hm := Int.mul_ediv_add_emod (-t.toInt) s
        rcases hq0.lt_or_eq with h | h
        · omega
        · rw [← h] at hm; omega
      have : (0 : ℚ) ≤ ((-t.toInt / s + -t.toInt % s - 1) / ((s : ℤ) - 1) : ℤ) := by exact_mod_cast this
      linarith
  · split
    · rw [sub_self]; positivity
    · next ht =>
      push Not at ht
      rw [sub_sub_cancel]
      have hr1 := Int.emod_lt_of_pos (-t.toInt) (b := (s : ℤ)) (by omega)
      have hr0 := Int.emod_nonneg (-t.toInt) (b := (s : ℤ)) (by omega)
      have hm := Int.mul_ediv_add_emod (-t.toInt) s
      have hd := Int.ediv_mul_le (-t.toInt / s + -t.toInt % s - 1) (b := (s : ℤ) - 1) (by omega)
      have hT : |(t.toInt : ℚ) / s| = ((-t.toInt / s : ℤ) : ℚ) + ((-t.toInt % s : ℤ) : ℚ) / s := by
        have hs0 : (0 : ℚ) < s := by linarith
        rw [abs_of_neg (by rw [div_neg_iff]; right; exact ⟨by exact_mod_cast ht, hs0⟩)]
        have : ((s * (-t.toInt / s) + -t.toInt % s : ℤ) : ℚ) = ((-t.toInt : ℤ) : ℚ) := by rw [hm]
        push_cast at this
        field_simp
        push_cast at *
        linarith
      rw [hT]
      generalize -t.toInt / (s : ℤ) = q at *
      generalize -t.toInt % (s : ℤ) = r at *
      generalize (q + r - 1) / ((s : ℤ) - 1) = E at *
      have hE : (E : ℚ) * ((s : ℚ) - 1) ≤ q + r - 1 := by exact_mod_cast hd
      have hr1' : (r : ℚ) ≤ s - 1 := by
        have : r ≤ (s : ℤ) - 1 := by omega
        exact_mod_cast this
      have hr0' : (0 : ℚ) ≤ (r : ℚ) / s := div_nonneg (by exact_mod_cast hr0) (by positivity)
      rw [← sub_le_iff_le_add, le_div_iff₀ hs1]
      linarith

example : (2 : ℕ) ≤ 65536 ∧ 65536 < 2 ^ 63 ∧ -((65536 : ℕ) : ℤ) ≤ (BitVec.ofInt 64 (-65535)).toInt := by decide

/-- With scale 1 decoding is exact for every value. -/
theorem C06_decode_scale_one (t : I64) : decode 1 t = some (t.toInt : ℚ) := by
  have h1 : (BitVec.ofInt 64 ((1 : ℕ) : ℤ)) = 1#64 := rfl
  have hm : ∀ a : I64, fmodI64 a 1#64 = 0#64 := by
    intro a; simp [fmodI64, Int.fmod_one]
  have hd : tdivI64 t 1#64 = t := by
    have : (1#64 : I64).toInt = 1 := by decide
    rw [tdivI64, this, Int.tdiv_one, ofInt_toInt]
  simp only [decode, nearestIntegerDivision, h1, hm, hd]
  have : ¬ ((2#64 * (0#64 + boolI64 (decide (t.toInt < 0)) * 0#64)).toInt > (1#64).toInt) := by
    simp
  norm_num [this, boolI64]

/-! ## C07: nearest_integer_division -/

/-- The remainder computed by the function when the subtraction `d - t` does not overflow or the divisor divides `2^64`. -/
theorem nid_eq {t : I64} {d : ℤ} (hd : 0 < d) (hd' : d ≤ 2 ^ 62)
    (hov : 0 ≤ t.toInt ∨ d - t.toInt < 2 ^ 63 ∨ d ∣ 2 ^ 64) :
    ∃ r, nearestIntegerDivision t d = some r ∧
      r.toInt = t.toInt.tdiv d + t.toInt.sign * (if 2 * (t.toInt.natAbs % d) > d then 1 else 0) := by
  have hlo := toInt_ge t; have hhi := toInt_lt t
  norm_num at hlo hhi hd'
  have hdI : (BitVec.ofInt 64 d).toInt = d := toInt_ofInt64 (by norm_num; omega) (by norm_num; omega)
  refine ⟨_, by simp only [nearestIntegerDivision]; rw [if_pos hd], ?_⟩
  -- remainder
  have hrem : (fmodI64 ((1#64 - boolI64 (decide (t.toInt < 0))) * t) (BitVec.ofInt 64 d) +
      boolI64 (decide (t.toInt < 0)) * fmodI64 (BitVec.ofInt 64 d - t) (BitVec.ofInt 64 d)).toInt = t.toInt.natAbs % d := by
    by_cases ht : t.toInt < 0
    · have hc : boolI64 (decide (t.toInt < 0)) = 1#64 := by simp [boolI64, ht]
      have hna : (t.toInt.natAbs : ℤ) = -t.toInt := by omega
      rw [hc, hna]
      have hz : fmodI64 ((1#64 - 1#64) * t) (BitVec.ofInt 64 d) = 0#64 := by
        simp [fmodI64]
      rw [hz, BitVec.zero_add, BitVec.one_mul]
      unfold fmodI64
      have key : (BitVec.ofInt 64 d - t).toInt % d = -t.toInt % d := by
        rcases hov with h | h | h
        · omega
        · rw [toInt_sub_of_range (by rw [hdI]; norm_num; omega) (by rw [hdI]; norm_num at h ⊢; omega), hdI]
          rw [sub_eq_add_neg, Int.add_emod_left]
        · have h1 : (2 : ℤ) ^ 64 ∣ (BitVec.ofInt 64 d - t).toInt - (d - t.toInt) := by
            rw [← toInt_eq_sub_iff, sub_eq_add_neg d, ofInt_add64, BitVec.ofInt_neg, ofInt_toInt, sub_eq_add_neg]
          have h2 := (h.trans h1)
          have h3 : (BitVec.ofInt 64 d - t).toInt % d = (d - t.toInt) % d := Int.emod_eq_emod_iff_emod_sub_eq_zero.2 (Int.emod_eq_zero_of_dvd h2)
          rw [h3, sub_eq_add_neg, Int.add_emod_left]
      have h0 := Int.emod_nonneg (-t.toInt) (b := d) (by omega)
      have h1 := Int.emod_lt_of_pos (-t.toInt) (b := d) hd
      rw [hdI, Int.fmod_eq_emod_of_nonneg _ hd.le, key, toInt_ofInt64 (by norm_num; omega) (by norm_num; omega)]
    · have hc : boolI64 (decide (t.toInt < 0)) = 0#64 := by simp [boolI64, ht]
      have hna : (t.toInt.natAbs : ℤ) = t.toInt := by omega
      rw [hc, hna, BitVec.zero_mul, BitVec.add_zero]
      have h1' : (1#64 - 0#64) * t = t := by simp
      rw [h1']
      unfold fmodI64
      have h0 := Int.emod_nonneg (t.toInt) (b := d) (by omega)
      have h1 := Int.emod_lt_of_pos (t.toInt) (b := d) hd
      rw [hdI, Int.fmod_eq_emod_of_nonneg _ hd.le, toInt_ofInt64 (by norm_num; omega) (by norm_num; omega)]
  have hr0 := Int.emod_nonneg (t.toInt.natAbs : ℤ) (b := d) (by omega)
  have hr1 := Int.emod_lt_of_pos (t.toInt.natAbs : ℤ) (b := d) hd
  have h2rem : (2#64 * (fmodI64 ((1#64 - boolI64 (decide (t.toInt < 0))) * t) (BitVec.ofInt 64 d) +
      boolI64 (decide (t.toInt < 0)) * fmodI64 (BitVec.ofInt 64 d - t) (BitVec.ofInt 64 d))).toInt = 2 * (t.toInt.natAbs % d) := by
    have h2 : (2#64 : I64).toInt = 2 := by decide
    generalize (t.toInt.natAbs : ℤ) % d = ρ at *
    rw [toInt_mul_of_range] <;> rw [h2, hrem] <;> norm_num <;> omega
  rw [h2rem, hdI]
  -- quotient
  have hq : (tdivI64 t (BitVec.ofInt 64 d)).toInt = t.toInt.tdiv d := by
    unfold tdivI64
    rw [hdI]
    have habs : (t.toInt.tdiv d).natAbs ≤ t.toInt.natAbs := by
      rw [Int.natAbs_tdiv]; exact Nat.div_le_self _ _
    by_cases hm : t.toInt.tdiv d = 2 ^ 63
    · exfalso
      have hle := Int.natAbs_tdiv t.toInt d
      rcases le_or_gt 0 t.toInt with h | h
      · have : t.toInt.tdiv d ≤ t.toInt := by
          have := Int.tdiv_nonneg h hd.le; omega
        rw [hm] at this; norm_num at this; omega
      · have : t.toInt.tdiv d ≤ 0 := by
          have h' := Int.tdiv_nonneg (a := -t.toInt) (by omega) hd.le
          rw [Int.neg_tdiv] at h'; omega
        rw [hm] at this; norm_num at this
    · have : -2 ^ 63 ≤ t.toInt.tdiv d ∧ t.toInt.tdiv d < 2 ^ 63 := by
        norm_num at hm ⊢; omega
      exact toInt_ofInt64 this.1 this.2
  -- final sum: the magnitude of the result is at most the magnitude of t unless d = 1 (no correction then)
  have hqa : (t.toInt.tdiv d).natAbs = t.toInt.natAbs / d.natAbs := Int.natAbs_tdiv _ _
  by_cases hcor : 2 * ((t.toInt.natAbs : ℤ) % d) > d
  · have hd2 : 2 ≤ d := by
      by_contra h
      have : d = 1 := by omega
      subst this; simp at hcor
    have ht0 : t.toInt ≠ 0 := by intro h; rw [h] at hcor; simp at hcor; omega
    have hhalf : (t.toInt.tdiv d).natAbs ≤ 2 ^ 62 := by
      rw [hqa]
      calc t.toInt.natAbs / d.natAbs ≤ t.toInt.natAbs / 2 := Nat.div_le_div_left (by omega) (by omega)
        _ ≤ 2 ^ 62 := by omega
    simp only [hcor, decide_true, boolI64, if_true]
    have hs : (signI64 t * 1#64).toInt = t.toInt.sign := by
      rw [BitVec.mul_one]
      unfold signI64
      split
      · next h => rw [Int.sign_eq_neg_one_of_neg h]; decide
      · next h =>
        rw [if_neg (fun h' => ht0 (by rw [h']; rfl)), Int.sign_eq_one_of_pos (by omega)]; decide
    have hsg : t.toInt.sign = 1 ∨ t.toInt.sign = -1 := by
      rcases lt_or_gt_of_ne ht0 with h | h
      · right; exact Int.sign_eq_neg_one_of_neg h
      · left; exact Int.sign_eq_one_of_pos h
    clear hqa
    generalize t.toInt.tdiv d = Q at *
    have hQ : -2 ^ 62 ≤ Q ∧ Q ≤ 2 ^ 62 := by norm_num at hhalf ⊢; omega
    rw [toInt_add_of_range] <;> rw [hq, hs] <;> norm_num at hQ ⊢ <;> omega
  · have : boolI64 (decide (2 * ((t.toInt.natAbs : ℤ) % d) > d)) = 0#64 := by rw [decide_eq_false hcor]; rfl
    rw [this, if_neg hcor, BitVec.mul_zero, BitVec.add_zero, hq]; ring

/-- Round to nearest, ties toward zero, in integer form: the specification of C07. -/
def IsNearest (r t d : ℤ) : Prop := 2 * |r * d - t| ≤ d

theorem nearest_of_formula {t d : ℤ} (hd : 0 < d) :
    IsNearest (t.tdiv d + t.sign * (if 2 * ((t.natAbs : ℤ) % d) > d then 1 else 0)) t d := by
  have h := Int.mul_tdiv_add_tmod t d
  have hna : |t.tmod d| = (t.natAbs : ℤ) % d := by
    have := Int.natAbs_tmod t d
    rw [Int.abs_eq_natAbs, this, Int.natCast_mod]
    have : (d.natAbs : ℤ) = d := by omega
    rw [this]
  have hr1 := Int.emod_lt_of_pos (t.natAbs : ℤ) (b := d) hd
  have hsg : t.tmod d = t.sign * ((t.natAbs : ℤ) % d) := by
    rcases lt_trichotomy t 0 with h | h | h
    · rw [Int.sign_eq_neg_one_of_neg h, ← hna, abs_of_nonpos]; · ring
      have := Int.tmod_nonneg (a := -t) d (by omega)
      rw [Int.neg_tmod] at this; omega
    · subst h; simp
    · rw [Int.sign_eq_one_of_pos h, ← hna, abs_of_nonneg]; · ring
      exact Int.tmod_nonneg _ h.le
  unfold IsNearest
  set q := t.tdiv d
  set ρ := (t.natAbs : ℤ) % d
  have hρ0 : 0 ≤ ρ := Int.emod_nonneg _ (by omega)
  have e : t = d * q + t.sign * ρ := by rw [← hsg, h]
  split
  · next hc =>
    rcases lt_trichotomy t 0 with h0 | h0 | h0
    · have s := Int.sign_eq_neg_one_of_neg h0
      rw [s] at e ⊢
      have : (q + -1 * 1) * d - t = ρ - d := by rw [e]; ring
      rw [this, abs_of_nonpos (by omega)]; omega
    · have : ρ = 0 := by simp [ρ, h0]
      omega
    · have s := Int.sign_eq_one_of_pos h0
      rw [s] at e ⊢
      have : (q + 1 * 1) * d - t = d - ρ := by rw [e]; ring
      rw [this, abs_of_nonneg (by omega)]; omega
  · next hc =>
    have : (q + t.sign * 0) * d - t = -(t.sign * ρ) := by
      have : (q + t.sign * 0) * d = d * q := by ring
      rw [this]; linarith
    rw [this, abs_neg, abs_mul]
    have hs1 : |t.sign| ≤ 1 := by
      rcases Int.sign_trichotomy t with h | h | h <;> rw [h] <;> norm_num
    rw [abs_of_nonneg hρ0]
    nlinarith [abs_nonneg t.sign]

/-- **C07, the part that holds.** For every 64-bit `t` and every divisor `0 < d ≤ 2^62` such that `d - t` does not overflow (or
`t ≥ 0`), the result is a nearest integer to `t/d`, and it is exact when `d` divides `t`.  Missing: `d > 2^62`, and negative `t`
close to `-2^63` when `d` is not a power of two, for which the claim is false. -/
theorem C07_nearest_division_partial (t : I64) (d : ℤ) (hd : 0 < d) (hd' : d ≤ 2 ^ 62)
    (hov : 0 ≤ t.toInt ∨ d - t.toInt < 2 ^ 63) :
    ∃ r, nearestIntegerDivision t d = some r ∧ IsNearest r.toInt t.toInt d ∧ (d ∣ t.toInt → r.toInt * d = t.toInt) := by
  obtain ⟨r, h1, h2⟩ := nid_eq (t := t) hd hd' (by tauto)
  refine ⟨r, h1, by rw [h2]; exact nearest_of_formula hd, fun ⟨k, hk⟩ => ?_⟩
  have : IsNearest r.toInt t.toInt d := by rw [h2]; exact nearest_of_formula hd
  unfold IsNearest at this
  rw [hk] at this ⊢
  have e : r.toInt * d - d * k = (r.toInt - k) * d := by ring
  rw [e, abs_mul, abs_of_pos hd] at this
  have : |r.toInt - k| < 1 := by
    by_contra hc; push Not at hc; nlinarith
  have : r.toInt - k = 0 := Int.abs_lt_one_iff.1 this
  rw [show r.toInt = k by omega]; ring

/-- **C07 for the divisors the library uses (powers of two up to `2^62`): no exception at all.** -/
theorem C07_nearest_division_power_of_two (t : I64) (k : ℕ) (hk : k ≤ 62) :
    ∃ r, nearestIntegerDivision t (2 ^ k) = some r ∧ IsNearest r.toInt t.toInt (2 ^ k) := by
  obtain ⟨r, h1, h2⟩ := nid_eq (t := t) (d := 2 ^ k) (by positivity)
    (pow_le_pow_right₀ (by norm_num) hk) (.inr (.inr (pow_dvd_pow 2 (by omega))))
  exact ⟨r, h1, by rw [h2]; exact nearest_of_formula (by positivity)⟩

/-- **C07 (negation).** The function commutes with negation, in the same range. -/
theorem C07_nearest_division_odd_partial (t : I64) (d : ℤ) (hd : 0 < d) (hd' : d ≤ 2 ^ 62)
    (hov : d + |t.toInt| < 2 ^ 63) :
    ∃ r r', nearestIntegerDivision t d = some r ∧ nearestIntegerDivision (-t) d = some r' ∧ r'.toInt = -r.toInt := by
  have hl := le_abs_self t.toInt
  have hn := neg_abs_le t.toInt
  have hneg : (-t).toInt = -t.toInt := by
    rw [show -t = 0#64 - t by simp, toInt_sub_of_range] <;> norm_num at hov ⊢ <;> omega
  obtain ⟨r, h1, h2⟩ := nid_eq (t := t) hd hd' (by right; left; omega)
  obtain ⟨r', h1', h2'⟩ := nid_eq (t := -t) hd hd' (by right; left; rw [hneg]; omega)
  refine ⟨r, r', h1, h1', ?_⟩
  rw [h2, h2', hneg, Int.neg_tdiv, Int.sign_neg, Int.natAbs_neg]; ring

example : (0 : ℤ) < 10 ∧ (10 : ℤ) ≤ 2 ^ 62 ∧ (10 : ℤ) + |(BitVec.ofInt 64 (-37)).toInt| < 2 ^ 63 := by decide

/-- **C07 is refuted for large arguments.** `t = -2^63`, `d = 3`: the remainder wraps around and the result is not nearest;
and `t = 2^62 + 1`, `d = 2^63 - 1`: doubling the remainder overflows. -/
theorem C07_nearest_division_not_always :
    (∃ r, nearestIntegerDivision (BitVec.ofInt 64 (-2 ^ 63)) 3 = some r ∧ ¬ IsNearest r.toInt (-2 ^ 63) 3) ∧
    (∃ r, nearestIntegerDivision (BitVec.ofInt 64 (2 ^ 62 + 1)) (2 ^ 63 - 1) = some r ∧
      ¬ IsNearest r.toInt (2 ^ 62 + 1) (2 ^ 63 - 1)) := by
  constructor
  · refine ⟨_, rfl, ?_⟩
    unfold IsNearest; decide
  · refine ⟨_, rfl, ?_⟩
    unfold IsNearest; decide

end CrypTen

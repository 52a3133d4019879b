import Verif.Spec.Division
import Verif.Props.Program

/-!
# C86: division of encrypted tensors
-/

namespace CrypTen
variable {n : ℕ} {ι ι' κ : Type}

/-! ## Integers, also negative ones -/

theorem tmod_abs_le (a : ℤ) {y : ℤ} (hy : y ≠ 0) : |a.tmod y| ≤ |y| - 1 := by
  rcases lt_or_gt_of_ne hy with h | h
  · have := (tdiv_bounds a (show 0 < -y by omega)).2
    rw [Int.tmod_neg] at this
    rw [abs_of_neg h]; exact this
  · rw [abs_of_pos h]; exact (tdiv_bounds a h).2

theorem fmod_abs_le (a : ℤ) {y : ℤ} (hy : y ≠ 0) : |a.fmod y| ≤ |y| - 1 := by
  rcases lt_or_gt_of_ne hy with h | h
  · have h1 := Int.emod_nonneg a hy
    have h2 := Int.emod_lt_abs a hy
    rw [Int.fmod_eq_emod, abs_of_neg h] at *
    split
    · rename_i h3
      rcases h3 with h3 | h3
      · omega
      · rw [Int.emod_eq_zero_of_dvd h3] at *; simp; omega
    · rename_i h3
      have h4 : a % y ≠ 0 := fun h => h3 (.inr (Int.dvd_of_emod_eq_zero h))
      rw [abs_le]; constructor <;> omega
  · rw [Int.fmod_eq_emod_of_nonneg _ h.le, abs_of_pos h, abs_of_nonneg (Int.emod_nonneg _ hy)]
    have := Int.emod_lt_of_pos a h; omega

theorem sat_divInt_nonzero [NeZero n] (x : Shares n ι) (z : ι → ℤ) (hz : ∀ i, z i ≠ 0) (hz' : ∀ i, |z i| < 2 ^ 63) :
    Sat (Proto.divInt x z) fun s => ∀ i, ∃ v : ℤ, reveal s i = BitVec.ofInt 64 v ∧
      |z i * v - (reveal x i).toInt| ≤ (if n ≤ 2 then (n : ℤ) else 3 * n + 2) * (|z i| - 1) := by
  intro T hT c hg i
  have hgood : DivGood (T.wrap c ι) x i := hg i
  have hr := abs_lt.1 (hz' i)
  have htd : ∀ a : I64, tdivI64 a (BitVec.ofInt 64 (z i)) = BitVec.ofInt 64 (a.toInt.tdiv (z i)) := fun a => by
    rw [tdivI64, toInt_ofInt64 (by linarith) hr.2]
  have hsum : z i * ∑ p, (x p i).toInt.tdiv (z i) = ∑ p, (x p i).toInt - ∑ p, (x p i).toInt.tmod (z i) := by
    rw [Finset.mul_sum, ← Finset.sum_sub_distrib]
    refine Finset.sum_congr rfl fun p _ => ?_
    have := Int.mul_tdiv_add_tmod (x p i).toInt (z i); linarith
  have hR : |∑ p, (x p i).toInt.tmod (z i)| ≤ n * (|z i| - 1) := by
    refine le_trans (Finset.abs_sum_le_sum_abs _ _) ?_
    refine le_trans (Finset.sum_le_sum (g := fun _ => |z i| - 1) fun p _ => tmod_abs_le _ (hz i)) ?_
    simp only [Finset.sum_const, Finset.card_univ, Fintype.card_fin, nsmul_eq_mul, le_refl]
  show ∃ v : ℤ, reveal (divInt (T.wrap c ι) x z) i = BitVec.ofInt 64 v ∧ _
  unfold DivGood at hgood
  split at hgood
  · rename_i h2
    obtain ⟨hmin, hη'⟩ := hgood
    obtain ⟨θ, η, hw, hθ, hη⟩ := C15_wraps_protocol _ (hT.wrap c ι) x i hmin
    have h0 : η = 0 := by omega
    subst h0
    refine ⟨∑ p, (x p i).toInt.tdiv (z i) - (θ + 0) * 4 * (2 ^ 62 : ℤ).fdiv (z i), ?_, ?_⟩
    · rw [divInt, if_pos (by omega), truncateBeaver]
      simp only [reveal_subShares, Pi.sub_apply, reveal_mulInt, Pi.mul_apply, hw]
      rw [ofInt_sub64, ofInt_mul64, ofInt_mul64, ofInt_sum, reveal_apply]
      congr 1
      exact Finset.sum_congr rfl fun p _ => htd _
    · rw [if_neg (by omega)]
      have hQ : z i * (2 ^ 62 : ℤ).fdiv (z i) + (2 ^ 62 : ℤ).fmod (z i) = 2 ^ 62 := Int.mul_fdiv_add_fmod _ _
      have hF := fmod_abs_le (2 ^ 62) (hz i)
      have hT2 : |2 * θ| ≤ n + 1 := by
        have h1 := toInt_ge (reveal x i); have h2 := toInt_lt (reveal x i)
        have h3 : -2 ^ 63 * (n : ℤ) ≤ ∑ p, (x p i).toInt := by
          have := Finset.sum_le_sum (s := Finset.univ) (f := fun _ : Fin n => (-2 ^ 63 : ℤ)) (g := fun p => (x p i).toInt) fun p _ => toInt_ge _
          simp only [Finset.sum_const, Finset.card_univ, Fintype.card_fin, nsmul_eq_mul] at this
          linarith
        have h4 : ∑ p, (x p i).toInt ≤ 2 ^ 63 * (n : ℤ) := by
          have := Finset.sum_le_sum (s := Finset.univ) (g := fun _ : Fin n => (2 ^ 63 : ℤ)) (f := fun p => (x p i).toInt) fun p _ => (toInt_lt _).le
          simp only [Finset.sum_const, Finset.card_univ, Fintype.card_fin, nsmul_eq_mul] at this
          linarith
        rw [abs_le]
        omega
      have e : z i * (∑ p, (x p i).toInt.tdiv (z i) - (θ + 0) * 4 * (2 ^ 62 : ℤ).fdiv (z i)) - (reveal x i).toInt
          = (2 * θ) * (2 * (2 ^ 62 : ℤ).fmod (z i)) - ∑ p, (x p i).toInt.tmod (z i) := by
        rw [mul_sub, hsum, hθ]
        linear_combination (-4) * θ * hQ
      rw [e]
      have h1 : |(2 * θ) * (2 * (2 ^ 62 : ℤ).fmod (z i))| ≤ (n + 1) * (2 * (|z i| - 1)) := by
        rw [abs_mul]
        refine mul_le_mul hT2 ?_ (abs_nonneg _) (by positivity)
        rw [abs_mul, abs_two]; linarith
      have := abs_sub (2 * θ * (2 * (2 ^ 62 : ℤ).fmod (z i))) (∑ p, (x p i).toInt.tmod (z i))
      linarith
  · rename_i h2
    refine ⟨∑ p, (x p i).toInt.tdiv (z i), ?_, ?_⟩
    · rw [divInt, if_neg h2, reveal_apply, ofInt_sum]
      exact Finset.sum_congr rfl fun p _ => htd _
    · rw [if_pos (by omega), hsum, hgood, sub_sub_cancel_left, abs_neg]
      exact hR

/-- How many units in the last place a division by integers may be off. -/
def divUnits (n : ℕ) : ℕ := if n ≤ 2 then n else 3 * n + 2

theorem near_divIntegers [NeZero n] (hn : n < 2 ^ 60) (x : AST n κ) (hx : 0 < x.scale) (z : κ → ℤ) (hz : ∀ i, z i ≠ 0) (hz' : ∀ i, |z i| < 2 ^ 63)
    (hfit : ∀ i, x.scale * (x.value i / z i) < 2 ^ 63) :
    Sat (x.divInt z) fun r => r.scale = x.scale ∧ ∀ i, |r.value i - x.value i / z i| < divUnits n / x.scale := by
  refine Sat.bind (sat_divInt_nonzero x.share z hz hz') fun s hs => Sat.pure ⟨rfl, fun i => ?_⟩
  obtain ⟨v, hv, hb⟩ := hs i
  have hsc : (0 : ℚ) < x.scale := by exact_mod_cast hx
  have hX := word_eq_value hx i
  have hX1 := toInt_ge (reveal x.share i)
  have hX2 := toInt_lt (reveal x.share i)
  have hu : (if n ≤ 2 then (n : ℤ) else 3 * n + 2) = (divUnits n : ℤ) := by unfold divUnits; split <;> push_cast <;> rfl
  rw [hu] at hb
  have hun : 0 < divUnits n ∧ divUnits n < 2 ^ 62 := by
    have := Nat.pos_of_neZero n
    unfold divUnits; split <;> omega
  have hzi := hz i
  have hzabs : 1 ≤ |z i| := Int.one_le_abs hzi
  have hv' : (BitVec.ofInt 64 v).toInt = v := by
    rcases (show |z i| = 1 ∨ 2 ≤ |z i| by omega) with h1 | h1
    · rw [h1, sub_self, mul_zero, abs_nonpos_iff, sub_eq_zero] at hb
      rcases (abs_eq (by norm_num : (0 : ℤ) ≤ 1)).1 h1 with h2 | h2
      · rw [h2, one_mul] at hb; apply toInt_ofInt64 <;> omega
      · have h3 := hfit i
        rw [h2, ← mul_div_assoc, ← hX, ← hb, h2] at h3
        have : v < 2 ^ 63 := by
          have h4 : (v : ℚ) < 2 ^ 63 := by simpa using h3
          exact_mod_cast h4
        rw [h2] at hb
        apply toInt_ofInt64 <;> omega
    · have h3 : |z i| * |v| ≤ 2 ^ 63 + divUnits n * (|z i| - 1) := by
        rw [← abs_mul]
        have h4 := abs_sub_abs_le_abs_sub (z i * v) (reveal x.share i).toInt
        have h5 : |(reveal x.share i).toInt| ≤ 2 ^ 63 := by rw [abs_le]; constructor <;> omega
        linarith
      have h6 : |v| < 2 ^ 63 := by
        by_contra hcon
        push Not at hcon
        have : (divUnits n : ℤ) < 2 ^ 62 := by exact_mod_cast hun.2
        nlinarith
      rw [abs_lt] at h6
      exact toInt_ofInt64 h6.1.le h6.2
  show |((reveal s i).toInt : ℚ) / (x.scale : ℚ) - _| < _
  rw [hv, hv']
  have hzq : (z i : ℚ) ≠ 0 := by exact_mod_cast hzi
  have hzq' : (0 : ℚ) < |(z i : ℚ)| := abs_pos.2 hzq
  have e : (v : ℚ) / x.scale - x.value i / z i = ((z i * v - (reveal x.share i).toInt : ℤ) : ℚ) / z i / x.scale := by
    push_cast; rw [hX]; field_simp
  rw [e, abs_div, abs_of_pos hsc, abs_div]
  refine div_lt_div_of_pos_right ?_ hsc
  rw [div_lt_iff₀ hzq']
  have hb' : |((z i * v - (reveal x.share i).toInt : ℤ) : ℚ)| ≤ divUnits n * (|(z i : ℚ)| - 1) := by exact_mod_cast hb
  have : (0 : ℚ) < divUnits n := by exact_mod_cast hun.1
  nlinarith

theorem divBy_integers [NeZero n] [Fintype κ] (F : FloatUnit) (s t : List ℕ) (x : AST n κ) (d : Divisor κ) (z : κ → ℤ) (hd : d.Integers z) :
    x.divBy F s t d = x.divIntegers z := by
  cases d with
  | int w => rw [AST.divBy]; congr; funext i; exact (hd i).symm
  | float y =>
    cases y with
    | none => exact hd.elim
    | some q =>
      rw [AST.divBy, if_pos hd.1]
      congr; funext i
      have := congrArg Rat.num (hd.2 i)
      simpa using this.symm
  | intTensor w => rw [AST.divBy]; congr; funext i; exact (hd i).symm
  | floatTensor w =>
    have h : ∀ i, (w i).integral = true := fun i => by rw [hd i]; simp [Fl.integral]
    rw [AST.divBy, if_pos h]
    congr; funext i; rw [hd i]; simp
  | other => exact hd.elim

/-- **C86 (integers).** Division by public integers, positive or negative, given as Python integers, as floats with integral values or as tensors of either type that are broadcast:
the result has the precision of `x` and is the quotient up to fewer than `n` (one or two parties) or `3 n + 2` units in the last place. The last hypothesis excludes
the quotient `-2^63 / -1`, which does not fit. -/
theorem C86_integer_divisor [NeZero n] [Fintype κ] (hn : n < 2 ^ 60) (F : FloatUnit) (s t : List ℕ) (g : κ → ι) (x : AST n ι) (hx : 0 < x.scale) (d : Divisor κ) (z : κ → ℤ)
    (hd : d.Integers z) (hz : ∀ i, z i ≠ 0) (hz' : ∀ i, |z i| < 2 ^ 63) (hfit : ∀ i, x.scale * (x.value (g i) / z i) < 2 ^ 63) :
    ∃ m, x.div F s t g d = .ok m ∧
      Sat m fun r => r.scale = x.scale ∧ ∀ i, |r.value i - x.value (g i) / z i| < (if n ≤ 2 then n else 3 * n + 2 : ℕ) / x.scale := by
  refine ⟨(x.reindex g).divInt z, ?_, ?_⟩
  · rw [AST.div, divBy_integers F s t _ d z hd, AST.divIntegers, if_neg]
    rintro ⟨i, hi⟩
    exact hz i hi
  · refine (near_divIntegers hn (x.reindex g) hx z hz hz' fun i => ?_).mono fun r hr => ⟨hr.1, fun i => ?_⟩
    · rw [value_reindex]; exact hfit i
    · have := hr.2 i
      rw [value_reindex] at this
      exact this

/-- **C86 (zero).** If one of the integers is zero the division raises. -/
theorem C86_zero_divisor [NeZero n] [Fintype κ] (F : FloatUnit) (s t : List ℕ) (g : κ → ι) (x : AST n ι) (d : Divisor κ) (z : κ → ℤ) (hd : d.Integers z) (i : κ) (hi : z i = 0) :
    x.div F s t g d = .error .zeroDivision := by
  rw [AST.div, divBy_integers F s t _ d z hd, AST.divIntegers, if_pos ⟨i, hi⟩]

/-- **C86 (unsupported divisors).** Python floats that are infinite or not a number, and anything that is neither number nor tensor, raise. -/
theorem C86_unsupported [NeZero n] [Fintype κ] (F : FloatUnit) (s t : List ℕ) (g : κ → ι) (x : AST n ι) :
    x.div F s t g (.float none) = .error .notFinite ∧ x.div F s t g .other = .error .assertion := ⟨rfl, rfl⟩

/-! ## Other numbers -/

theorem mulReciprocal_eq [NeZero n] (F : FloatUnit) (s t : List ℕ) (x : AST n κ) (y : κ → Fl) (r : κ → ℚ) (hr : ∀ i, F.recip (y i) = some (r i)) (hs : inplaceFits s t = true) :
    x.mulReciprocal F s t y = .ok (AST.mulPub (elementwise κ) x r) := by
  rw [AST.mulReciprocal, if_pos hs]
  have : encodeReciprocals F x.scale y = encodePublic x.scale r := by
    funext i; rw [encodeReciprocals, hr i]; rfl
  rw [this]; rfl

theorem inplaceFits_one {s : List ℕ} : inplaceFits s [1] = true ↔ s ≠ [] := by
  rcases List.eq_nil_or_concat s with h | ⟨l, a, h⟩
  · subst h; simp [inplaceFits]
  · subst h; simp [inplaceFits]

theorem divBy_fraction [NeZero n] [Fintype κ] (F : FloatUnit) (s t : List ℕ) (x : AST n κ) (d : Divisor κ) (y : κ → ℚ) (ε : ℚ) (hd : d.Fraction y) (ha : d.Accurate F ε y)
    (hs : d.FitsShape s t) : ∃ r : κ → ℚ, x.divBy F s t d = .ok (AST.mulPub (elementwise κ) x r) ∧ ∀ i, |r i - 1 / y i| ≤ ε / |y i| := by
  cases d with
  | int w => exact hd.elim
  | intTensor w => exact hd.elim
  | other => exact hd.elim
  | float w =>
    cases w with
    | none => exact hd.elim
    | some q =>
      choose r hr1 hr2 using ha
      refine ⟨r, ?_, hr2⟩
      rw [AST.divBy, if_neg hd.1]
      exact mulReciprocal_eq F s [1] x _ r (fun i => by rw [← hd.2 i]; exact hr1 i) (inplaceFits_one.2 hs)
  | floatTensor w =>
    choose r hr1 hr2 using ha
    refine ⟨r, ?_, hr2⟩
    obtain ⟨h1, j, hj⟩ := hd
    rw [AST.divBy, if_neg]
    · exact mulReciprocal_eq F s t x _ r (fun i => by rw [h1 i]; exact hr1 i) hs
    · intro h
      have := h j
      rw [h1 j] at this
      simp [Fl.integral, hj] at this

theorem sat_mulPub_elementwise [NeZero n] (hn : n < 2 ^ 60) (k : ℕ) (hk : 0 < k) (hk' : k ≤ 62) (x : AST n κ) (hx : x.scale = 2 ^ k) (r : κ → ℚ)
    (hr : ∀ i, 2 ^ k * |r i| < 2 ^ 63) (hfit : ∀ i, 2 ^ k * 2 ^ k * (|x.value i| * |r i|) < 2 ^ 63) :
    Sat (AST.mulPub (elementwise κ) x r) fun z => z.scale = 2 ^ k ∧ ∀ i, |z.value i - x.value i * ((truncQ (2 ^ k * r i) : ℚ) / 2 ^ k)| < n / 2 ^ k := by
  have hxq : (x.scale : ℚ) = 2 ^ k := by rw [hx]; push_cast; rfl
  have hp : (0 : ℚ) < 2 ^ k := by positivity
  have hval : ∀ j, bilinearQ (elementwise κ) x.value (fun i => (truncQ (x.scale * r i) : ℚ) / x.scale) j = x.value j * ((truncQ (2 ^ k * r j) : ℚ) / 2 ^ k) := by
    intro j; simp [bilinearQ, elementwise, Torch.mulOp, hxq]
  refine (C56_mul_public hn (elementwise κ) x r k hk hk' hx (fun i => ?_) fun j => ?_).mono fun z hz => ⟨hz.1.trans hx, fun i => ?_⟩
  · rw [hxq, abs_mul, abs_of_pos hp]; exact hr i
  · rw [hval, hxq]
    refine fits_of_abs (le_refl _) (lt_of_le_of_lt ?_ (hfit j))
    rw [abs_mul, abs_of_pos (mul_pos hp hp), abs_mul, abs_div, abs_of_pos hp]
    refine mul_le_mul_of_nonneg_left (mul_le_mul_of_nonneg_left ?_ (abs_nonneg _)) (mul_pos hp hp).le
    rw [div_le_iff₀ hp]
    have := (truncQ_bounds (2 ^ k * r j)).2.1
    rw [abs_mul, abs_of_pos hp] at this
    linarith
  · have := hz.2 i
    rw [hval, hxq] at this
    exact this

/-- **C86 (other numbers).** Division by numbers that are not all integers multiplies by reciprocals: the result is the quotient up to `n` units in the last place plus `|x|`
times the error of the reciprocal, which is one unit in the last place (an absolute error) and the floating-point error `ε / |y|`. -/
theorem C86_fraction_divisor [NeZero n] [Fintype κ] (hn : n < 2 ^ 60) (k : ℕ) (hk : 0 < k) (hk' : k ≤ 62) (F : FloatUnit) (s t : List ℕ) (g : κ → ι) (x : AST n ι)
    (hx : x.scale = 2 ^ k) (d : Divisor κ) (y : κ → ℚ) (ε : ℚ) (hd : d.Fraction y) (ha : d.Accurate F ε y) (hs : d.FitsShape s t)
    (hy : ∀ i, 2 ^ k * ((1 + ε) / |y i|) < 2 ^ 63) (hfit : ∀ i, 2 ^ k * 2 ^ k * (|x.value (g i)| * ((1 + ε) / |y i|)) < 2 ^ 63) :
    ∃ m, x.div F s t g d = .ok m ∧
      Sat m fun r => r.scale = x.scale ∧ ∀ i, |r.value i - x.value (g i) / y i| < |x.value (g i)| * (1 / 2 ^ k + ε / |y i|) + n / 2 ^ k := by
  obtain ⟨r, hr, he⟩ := divBy_fraction F s t (x.reindex g) d y ε hd ha hs
  have hrb : ∀ i, |r i| ≤ (1 + ε) / |y i| := fun i => by
    have h1 := abs_sub_abs_le_abs_sub (r i) (1 / y i)
    have h2 := he i
    rw [abs_div, abs_one] at h1
    rw [add_div]; linarith
  have hp : (0 : ℚ) < 2 ^ k := by positivity
  refine ⟨_, hr, ?_⟩
  refine (sat_mulPub_elementwise hn k hk hk' (x.reindex g) hx r (fun i => ?_) fun i => ?_).mono fun z hz => ⟨hz.1.trans hx.symm, fun i => ?_⟩
  · exact lt_of_le_of_lt (mul_le_mul_of_nonneg_left (hrb i) hp.le) (hy i)
  · rw [value_reindex]
    exact lt_of_le_of_lt (mul_le_mul_of_nonneg_left (mul_le_mul_of_nonneg_left (hrb i) (abs_nonneg _)) (mul_pos hp hp).le) (hfit i)
  · have h1 := hz.2 i
    rw [value_reindex] at h1
    have h2 := trunc_any k (r i)
    have h3 := he i
    have h4 : |x.value (g i) * ((truncQ (2 ^ k * r i) : ℚ) / 2 ^ k) - x.value (g i) / y i| ≤ |x.value (g i)| * (1 / 2 ^ k + ε / |y i|) := by
      have e : x.value (g i) * ((truncQ (2 ^ k * r i) : ℚ) / 2 ^ k) - x.value (g i) / y i
          = x.value (g i) * (((truncQ (2 ^ k * r i) : ℚ) / 2 ^ k - r i) + (r i - 1 / y i)) := by ring
      rw [e, abs_mul]
      exact mul_le_mul_of_nonneg_left ((abs_add_le _ _).trans (add_le_add h2 h3)) (abs_nonneg _)
    have h5 := abs_add_le (z.value i - x.value (g i) * ((truncQ (2 ^ k * r i) : ℚ) / 2 ^ k)) (x.value (g i) * ((truncQ (2 ^ k * r i) : ℚ) / 2 ^ k) - x.value (g i) / y i)
    rw [sub_add_sub_cancel] at h5
    linarith

/-- **C86 is false for large divisors that are no integers**: above `2^16` (at the default precision) the reciprocal is encoded as zero, so the result is zero up to `n` units
in the last place whatever `x` is, for example `200000 / 100000.5`. -/
theorem C86_large_divisor_wrong [NeZero n] [Fintype κ] (hn : n < 2 ^ 60) (k : ℕ) (hk : 0 < k) (hk' : k ≤ 62) (F : FloatUnit) (s t : List ℕ) (g : κ → ι) (x : AST n ι)
    (hx : x.scale = 2 ^ k) (d : Divisor κ) (y : κ → ℚ) (ε : ℚ) (hε : 0 ≤ ε) (hd : d.Fraction y) (ha : d.Accurate F ε y) (hs : d.FitsShape s t)
    (hy : ∀ i, 2 ^ k * ((1 + ε) / |y i|) < 2 ^ 63) (hfit : ∀ i, 2 ^ k * 2 ^ k * (|x.value (g i)| * ((1 + ε) / |y i|)) < 2 ^ 63) (i : κ) (hi : 2 ^ k * (1 + ε) < |y i|) :
    ∃ m, x.div F s t g d = .ok m ∧ Sat m fun r => |r.value i| < n / 2 ^ k := by
  obtain ⟨r, hr, he⟩ := divBy_fraction F s t (x.reindex g) d y ε hd ha hs
  have hrb : ∀ i, |r i| ≤ (1 + ε) / |y i| := fun i => by
    have h1 := abs_sub_abs_le_abs_sub (r i) (1 / y i)
    have h2 := he i
    rw [abs_div, abs_one] at h1
    rw [add_div]; linarith
  have hp : (0 : ℚ) < 2 ^ k := by positivity
  refine ⟨_, hr, ?_⟩
  refine (sat_mulPub_elementwise hn k hk hk' (x.reindex g) hx r (fun i => ?_) fun i => ?_).mono fun z hz => ?_
  · exact lt_of_le_of_lt (mul_le_mul_of_nonneg_left (hrb i) hp.le) (hy i)
  · rw [value_reindex]
    exact lt_of_le_of_lt (mul_le_mul_of_nonneg_left (mul_le_mul_of_nonneg_left (hrb i) (abs_nonneg _)) (mul_pos hp hp).le) (hfit i)
  · have h1 := hz.2 i
    have hyi : 0 < |y i| := lt_of_le_of_lt (by positivity) hi
    have h0 : truncQ (2 ^ k * r i) = 0 := by
      have h2 := (truncQ_bounds (2 ^ k * r i)).2.1
      have h3 : |2 ^ k * r i| < 1 := by
        rw [abs_mul, abs_of_pos hp]
        refine lt_of_le_of_lt (mul_le_mul_of_nonneg_left (hrb i) hp.le) ?_
        rw [← mul_div_assoc, div_lt_one hyi]; exact hi
      have h4 : |(truncQ (2 ^ k * r i) : ℚ)| < 1 := lt_of_le_of_lt h2 h3
      have h5 : |truncQ (2 ^ k * r i)| < 1 := by exact_mod_cast h4
      exact Int.abs_lt_one_iff.1 h5
    rw [h0] at h1
    simpa using h1

/-- **C86 (infinite entries).** Entries of a float tensor that are infinite (reciprocal zero) give zero, up to `n` units in the last place. -/
theorem C86_infinite_entry [NeZero n] [Fintype κ] (hn : n < 2 ^ 60) (k : ℕ) (hk : 0 < k) (hk' : k ≤ 62) (F : FloatUnit) (s t : List ℕ) (g : κ → ι) (x : AST n ι)
    (hx : x.scale = 2 ^ k) (w : κ → Fl) (r : κ → ℚ) (hr : ∀ i, F.recip (w i) = some (r i)) (hs : inplaceFits s t = true)
    (hfit1 : ∀ i, 2 ^ k * |r i| < 2 ^ 63) (hfit : ∀ i, 2 ^ k * 2 ^ k * (|x.value (g i)| * |r i|) < 2 ^ 63) (i : κ) (hi : w i = none) (hri : r i = 0) :
    ∃ m, x.div F s t g (.floatTensor w) = .ok m ∧ Sat m fun z => |z.value i| < n / 2 ^ k := by
  refine ⟨AST.mulPub (elementwise κ) (x.reindex g) r, ?_, ?_⟩
  · rw [AST.div, AST.divBy, if_neg, mulReciprocal_eq F s t _ w r hr hs]
    intro h
    have := h i
    rw [hi] at this
    simp [Fl.integral] at this
  · refine (sat_mulPub_elementwise hn k hk hk' (x.reindex g) hx r hfit1 fun i => ?_).mono fun z hz => ?_
    · rw [value_reindex]; exact hfit i
    · have := hz.2 i
      rw [hri, mul_zero, truncQ_zero] at this
      simpa using this

/-- **C86 is false for tensors without dimensions** (`x.sum() / 2.5`): dividing one by a Python float that is no integer always raises, because it is multiplied in place by
a tensor with one dimension. -/
theorem C86_scalar_wrong [NeZero n] [Fintype κ] (F : FloatUnit) (t : List ℕ) (g : κ → ι) (x : AST n ι) (y : ℚ) (hy : y.den ≠ 1) :
    x.div F [] t g (.float (some y)) = .error .shape := by
  show (x.reindex g).divBy F [] t _ = _
  rw [AST.divBy, if_neg hy, AST.mulReciprocal, if_neg (by simp [inplaceFits])]

/-- **C86 is false for tensors without fraction bits**, which is what comparisons return: all quotients are integers. In particular half of an encrypted one, `(x > y) / 2`, is
off by at least one half. -/
theorem C86_unscaled_wrong [NeZero n] [Fintype κ] (F : FloatUnit) (s t : List ℕ) (g : κ → ι) (x : AST n ι) (hx : x.scale = 1) (d : Divisor κ) (z : κ → ℤ) (hd : d.Integers z)
    (hz : ∀ i, z i ≠ 0) :
    ∃ m, x.div F s t g d = .ok m ∧ ∀ T c i, (∃ w : ℤ, (m T c).val.value i = w) ∧ (x.value (g i) = 1 → z i = 2 → 1 / 2 ≤ |(m T c).val.value i - x.value (g i) / z i|) := by
  refine ⟨(x.reindex g).divInt z, ?_, fun T c i => ?_⟩
  · rw [AST.div, divBy_integers F s t _ d z hd, AST.divIntegers, if_neg]
    rintro ⟨i, hi⟩
    exact hz i hi
  · have hw : ∃ w : ℤ, ((x.reindex g).divInt z T c).val.value i = w :=
      ⟨_, by show (_ : ℚ) / ((x.scale : ℕ) : ℚ) = _; rw [hx, Nat.cast_one, div_one]⟩
    refine ⟨hw, fun h1 h2 => ?_⟩
    obtain ⟨w, hw⟩ := hw
    rw [hw, h1, h2]
    have h3 : (w : ℚ) ≤ 0 ∨ (1 : ℚ) ≤ w := by
      rcases le_or_gt w 0 with h | h
      · left; exact_mod_cast h
      · right; exact_mod_cast h
    rw [le_abs]
    push_cast
    rcases h3 with h | h
    · right; linarith
    · left; linarith

/-- The same for means: the fraction of the encrypted bits that are one (as in computing an accuracy, `(prediction == label).mean()`) always comes out as an integer, so
that one half is off by at least one half. -/
theorem C86_mean_of_comparisons_wrong [NeZero n] [Fintype ι] (F : FloatUnit) (s : List ℕ) (m : ℕ) (hm : 0 < m) (x : AST n (Fin m × ι)) (hx : x.scale = 1) :
    ∃ p, x.meanFirst F m s = .ok p ∧ ∀ T c i, (∃ w : ℤ, (p T c).val.value i = w) ∧
      ((∑ j, x.value (j, i)) / m = 1 / 2 → 1 / 2 ≤ |(p T c).val.value i - (∑ j, x.value (j, i)) / m|) := by
  have hne : ¬ ∃ _ : ι, (m : ℤ) = 0 := fun ⟨_, h⟩ => by omega
  refine ⟨x.sumFirst.divInt fun _ => (m : ℤ), ?_, fun T c i => ?_⟩
  · rw [AST.meanFirst, AST.divBy, AST.divIntegers, if_neg hne]
  · have hw : ∃ w : ℤ, ((x.sumFirst.divInt fun _ => (m : ℤ)) T c).val.value i = w :=
      ⟨_, by show (_ : ℚ) / ((x.scale : ℕ) : ℚ) = _; rw [hx, Nat.cast_one, div_one]⟩
    refine ⟨hw, fun h1 => ?_⟩
    obtain ⟨w, hw⟩ := hw
    rw [hw, h1]
    have h3 : (w : ℚ) ≤ 0 ∨ (1 : ℚ) ≤ w := by
      rcases le_or_gt w 0 with h | h
      · left; exact_mod_cast h
      · right; exact_mod_cast h
    rw [le_abs]
    rcases h3 with h | h
    · right; linarith
    · left; linarith

/-- **C86 is false for float tensors with a zero and a fraction**: no exception is raised, unlike for integers (`C86_zero_divisor`), and the entries that are divided by zero
are whatever the conversion of infinity to an integer makes of them. Here one party divides by `(0, 1/2)`: with `junk = -2^63` (as on x86) and `x = 1.5` the result is 0. -/
theorem C86_zero_entry_wrong (F : FloatUnit) (h0 : F.recip (some 0) = none) (x : AST 1 ι) (hx : x.scale = 2 ^ 16) (g : Fin 2 → ι) :
    ∃ m, x.div F [2] [2] g (.floatTensor fun i => if i = 0 then some 0 else some (1 / 2)) = .ok m ∧
      ∀ T c, reveal (m T c).val.share 0 = tdivI64 (reveal x.share (g 0) * F.junk) (2 ^ 16) := by
  have hf : inplaceFits [2] [2] = true := by decide
  have hd : ((1 : ℚ) / 2).den = 2 := by decide +kernel
  have hni : ¬ ∀ i : Fin 2, Fl.integral (if i = 0 then some 0 else some (1 / 2)) = true := fun h => by
    have := h 1
    rw [if_neg (by decide), Fl.integral, hd] at this
    simp at this
  have hs : (x.reindex g).scale > 1 := by show x.scale > 1; rw [hx]; norm_num
  refine ⟨_, by rw [AST.div, AST.divBy, if_neg hni, AST.mulReciprocal, if_pos hf], fun T c => ?_⟩
  simp only [if_pos hs]
  change reveal (divInt (T.wrap c (Fin 2)) (bilinearPublic (elementwise (Fin 2)) (x.reindex g).share
    (encodeReciprocals F (x.reindex g).scale fun i => if i = 0 then some 0 else some (1 / 2))) fun _ => ((x.reindex g).scale : ℤ)) 0 = _
  rw [divInt, if_neg (by omega), reveal_apply, Fin.sum_univ_one, truncLocal]
  have e1 : bilinearPublic (elementwise (Fin 2)) (x.reindex g).share (encodeReciprocals F (x.reindex g).scale fun i => if i = 0 then some 0 else some (1 / 2)) 0 0
      = reveal x.share (g 0) * F.junk := by
    rw [reveal_apply, Fin.sum_univ_one]
    simp [bilinearPublic, BilinearOp.apply, elementwise, Torch.mulOp, encodeReciprocals, h0, AST.reindex]
  rw [e1]
  show tdivI64 _ (BitVec.ofInt 64 (x.scale : ℤ)) = _
  rw [hx]; rfl

example : tdivI64 (98304 * BitVec.intMin 64) (2 ^ 16) = 0 := by decide

/-- **C86 (encrypted divisors).** If the reciprocals have been computed up to `δ`, dividing by an encrypted tensor gives the quotient up to `|x| δ` and `n` units in the last
place. Partial: for how accurate reciprocals are see C53. -/
theorem C86_encrypted_divisor_partial [NeZero n] (hn : n < 2 ^ 60) (k : ℕ) (hk : 0 < k) (hk' : k ≤ 62) (recip : AST n ι' → Proto n (AST n ι')) (g : κ → ι) (h : κ → ι')
    (x : AST n ι) (y : AST n ι') (hx : x.scale = 2 ^ k) (δ : ι' → ℚ) (hr : Sat (recip y) fun r => r.scale = 2 ^ k ∧ ∀ j, |r.value j - 1 / y.value j| ≤ δ j)
    (hfit : ∀ i, 2 ^ k * 2 ^ k * (|x.value (g i)| * (|1 / y.value (h i)| + δ (h i))) < 2 ^ 63) :
    Sat (x.divEncrypted recip g h y) fun r => r.scale = 2 ^ k ∧ ∀ i, |r.value i - x.value (g i) / y.value (h i)| < |x.value (g i)| * δ (h i) + n / 2 ^ k := by
  refine Sat.bind hr fun r hr => ?_
  have hp : (0 : ℚ) < 2 ^ k := by positivity
  have hxq : (x.scale : ℚ) = 2 ^ k := by rw [hx]; push_cast; rfl
  have hval : ∀ i, bilinearQ (Torch.mulOp id h) (x.reindex g).value r.value i = x.value (g i) * r.value (h i) := fun i => by
    simp [bilinearQ, Torch.mulOp, value_reindex]
  refine (C56_mul_equal_scales hn (Torch.mulOp id h) (x.reindex g) r k hk hk' hx hr.1 fun i => ?_).mono fun z hz => ⟨hz.1.trans hx, fun i => ?_⟩
  · rw [hval]
    show Fits ((x.scale : ℚ) * r.scale * _)
    rw [hxq, hr.1]
    refine fits_of_abs (le_refl _) (lt_of_le_of_lt ?_ (hfit i))
    push_cast
    rw [abs_mul, abs_of_pos (mul_pos hp hp), abs_mul]
    refine mul_le_mul_of_nonneg_left (mul_le_mul_of_nonneg_left ?_ (abs_nonneg _)) (mul_pos hp hp).le
    have h1 := hr.2 (h i)
    have h2 := abs_sub_abs_le_abs_sub (r.value (h i)) (1 / y.value (h i))
    linarith
  · have h1 := hz.2 i
    rw [hval] at h1
    have h1' : |z.value i - x.value (g i) * r.value (h i)| < n / 2 ^ k := by rw [← hxq]; exact h1
    have h2 : |x.value (g i) * r.value (h i) - x.value (g i) / y.value (h i)| ≤ |x.value (g i)| * δ (h i) := by
      rw [div_eq_mul_one_div, ← mul_sub, abs_mul]
      exact mul_le_mul_of_nonneg_left (hr.2 (h i)) (abs_nonneg _)
    have h3 := abs_add_le (z.value i - x.value (g i) * r.value (h i)) (x.value (g i) * r.value (h i) - x.value (g i) / y.value (h i))
    rw [sub_add_sub_cancel] at h3
    linarith

/-- **C56 is false for products of tensors without fraction bits with public fractions**: the public numbers are encoded with the precision of the encrypted tensor, so
that `(x > y) * 0.75` is zero. -/
theorem C56_mul_public_unscaled_wrong [NeZero n] (x : AST n κ) (hx : x.scale = 1) (y : κ → ℚ) (hy : ∀ i, |y i| < 1) (T : Tuples n) (c : ℕ) (i : κ) :
    ((AST.mulPub (elementwise κ) x y) T c).val.value i = 0 := by
  have h0 : encodePublic x.scale y = fun _ => 0 := by
    funext i
    have h2 := (truncQ_bounds (x.scale * y i)).2.1
    rw [hx, Nat.cast_one, one_mul] at h2
    have h4 : |(truncQ (y i) : ℚ)| < 1 := lt_of_le_of_lt h2 (hy i)
    have h5 : |truncQ (y i)| < 1 := by exact_mod_cast h4
    rw [encodePublic_ofInt, hx, Nat.cast_one, one_mul, Int.abs_lt_one_iff.1 h5]; rfl
  unfold AST.mulPub
  simp only [hx, h0, gt_iff_lt, lt_irrefl, if_false]
  rw [hx] at h0
  simp only [h0]
  show ((reveal (bilinearPublic (elementwise κ) x.share fun _ => 0) i).toInt : ℚ) / _ = 0
  rw [reveal_bilinearPublic]
  simp [BilinearOp.apply, elementwise, Torch.mulOp]

/-! ## The hypotheses are met -/

/-- `-7.5 / -2`, three parties, as a Python integer, a float and a broadcast tensor. -/
example : ∃ x : AST 3 Unit, x.scale = 2 ^ 16 ∧ x.value () = -15 / 2 ∧ (Divisor.int (κ := Fin 4) (-2)).Integers (fun _ => -2) ∧
    (Divisor.float (κ := Fin 4) (some (-2))).Integers (fun _ => -2) ∧ (Divisor.floatTensor (κ := Fin 4) fun i => some (-2 - (i.val : ℚ))).Integers (fun i => -2 - (i.val : ℤ)) ∧
    x.scale * (x.value () / (-2 : ℤ)) < 2 ^ 63 := by
  have e : (reveal (fun p _ => if p = 0 then -1000000 else if p = 1 then 500000 else 8480 : Shares 3 Unit) ()).toInt = -491520 := by rw [reveal_apply]; decide
  have hv : AST.value (⟨fun p _ => if p = 0 then -1000000 else if p = 1 then 500000 else 8480, 2 ^ 16⟩ : AST 3 Unit) () = -15 / 2 := by
    rw [AST.value, e]; norm_num
  refine ⟨⟨fun p _ => if p = 0 then -1000000 else if p = 1 then 500000 else 8480, 2 ^ 16⟩, rfl, hv, fun _ => rfl, ⟨rfl, fun _ => by norm_num⟩, fun i => by push_cast; rfl, ?_⟩
  rw [hv]; norm_num

/-- Exact reciprocals are accurate, and 100000.5 is a large divisor. -/
example : ∃ F : FloatUnit, (Divisor.float (κ := Fin 2) (some (200001 / 2))).Fraction (fun _ => 200001 / 2) ∧
    (Divisor.float (κ := Fin 2) (some (200001 / 2))).Accurate F (1 / 2 ^ 24) (fun _ => 200001 / 2) ∧ (Divisor.float (κ := Fin 2) (some (200001 / 2))).FitsShape [2] [] ∧
    2 ^ 16 * ((1 + 1 / 2 ^ 24) / |(200001 : ℚ) / 2|) < 2 ^ 63 ∧ (2 : ℚ) ^ 16 * (1 + 1 / 2 ^ 24) < |200001 / 2| ∧
    2 ^ 16 * 2 ^ 16 * (|(200000 : ℚ)| * ((1 + 1 / 2 ^ 24) / |200001 / 2|)) < 2 ^ 63 := by
  refine ⟨⟨some, fun y => y.map fun q => 1 / q, 0⟩, ⟨by decide +kernel, fun _ => rfl⟩, fun _ => ⟨1 / (200001 / 2), rfl, ?_⟩, by simp [Divisor.FitsShape], ?_, ?_, ?_⟩
  · rw [sub_self, abs_zero]; positivity
  all_goals norm_num [abs_of_pos]

/-- One half and infinity. -/
example : ∃ (F : FloatUnit) (w : Bool → Fl) (r : Bool → ℚ), (∀ i, F.recip (w i) = some (r i)) ∧ w true = none ∧ r true = 0 ∧ r false = 2 ∧ inplaceFits [2] [2] = true ∧
    (∀ i, 2 ^ 16 * |r i| < 2 ^ 63) ∧ ∀ i, 2 ^ 16 * 2 ^ 16 * (|(1000 : ℚ)| * |r i|) < 2 ^ 63 := by
  refine ⟨⟨some, fun y => match y with | some q => some (1 / q) | none => some 0, 0⟩, fun b => if b then none else some (1 / 2), fun b => if b then 0 else 2, ?_, rfl, rfl, rfl, by decide, ?_, ?_⟩ <;>
    intro i <;> cases i <;> norm_num

/-- In a tensor, the integer 100000 is divided by just as badly if another entry is no integer. -/
example : (Divisor.floatTensor (κ := Bool) fun b => some (if b then 100000 else 5 / 2)).Fraction (fun b => if b then 100000 else 5 / 2) ∧
    (2 : ℚ) ^ 16 * (1 + 1 / 2 ^ 24) < |100000| := by
  refine ⟨⟨fun _ => rfl, false, by decide +kernel⟩, by norm_num [abs_of_pos]⟩

/-- A protocol that encrypts the reciprocal of 4, and the operands of an encrypted division. -/
example : ∃ (x y : AST 1 Unit) (recip : AST 1 Unit → Proto 1 (AST 1 Unit)), x.scale = 2 ^ 16 ∧ y.value () = 4 ∧ x.value () = 3 ∧
    (Sat (recip y) fun r => r.scale = 2 ^ 16 ∧ ∀ j, |r.value j - 1 / y.value j| ≤ 0) ∧ 2 ^ 16 * 2 ^ 16 * (|x.value ()| * (|1 / y.value ()| + 0)) < 2 ^ 63 := by
  have e1 : (reveal (fun _ _ => 196608 : Shares 1 Unit) ()).toInt = 196608 := by rw [reveal_apply]; decide
  have e2 : (reveal (fun _ _ => 262144 : Shares 1 Unit) ()).toInt = 262144 := by rw [reveal_apply]; decide
  have e3 : (reveal (fun _ _ => 16384 : Shares 1 Unit) ()).toInt = 16384 := by rw [reveal_apply]; decide
  have v1 : AST.value (⟨fun _ _ => 196608, 2 ^ 16⟩ : AST 1 Unit) () = 3 := by rw [AST.value, e1]; norm_num
  have v2 : AST.value (⟨fun _ _ => 262144, 2 ^ 16⟩ : AST 1 Unit) () = 4 := by rw [AST.value, e2]; norm_num
  have v3 : AST.value (⟨fun _ _ => 16384, 2 ^ 16⟩ : AST 1 Unit) () = 1 / 4 := by rw [AST.value, e3]; norm_num
  refine ⟨⟨fun _ _ => 196608, 2 ^ 16⟩, ⟨fun _ _ => 262144, 2 ^ 16⟩, fun _ => pure ⟨fun _ _ => 16384, 2 ^ 16⟩, rfl, v2, v1, Sat.pure ⟨rfl, fun j => ?_⟩, ?_⟩
  · cases j; rw [v2, v3]; norm_num
  · rw [v1, v2]; norm_num [abs_of_pos]

end CrypTen

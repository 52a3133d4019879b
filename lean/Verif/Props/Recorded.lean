import Verif.Model.Recorded
import Verif.Props.Logic
import Verif.Props.FixedPoint
import Verif.Props.Reciprocal

/-!
# C87: results while gradients are recorded

The values of `relu`, `hardtanh`, `relu6` when gradients are recorded, against those of the native methods (`C23_relu`, `C23_hardtanh`).
-/

namespace CrypTen
variable {n : ℕ} {ι : Type}

theorem abs_truncQ_le (q : ℚ) : |(truncQ q : ℚ)| ≤ |q| := by
  unfold truncQ
  split
  · rename_i h
    rw [abs_of_nonneg (by exact_mod_cast Int.floor_nonneg.2 h), abs_of_nonneg h]; exact Int.floor_le q
  · rename_i h
    push Not at h
    have : (⌈q⌉ : ℚ) ≤ 0 := by exact_mod_cast Int.ceil_nonpos.2 h.le
    rw [abs_of_nonpos this, abs_of_neg h]; linarith [Int.le_ceil q]

/-- A bit times a Python number: the number is rounded to an integer, because a bit has no fraction bits. -/
theorem sat_bit_mulPy [NeZero n] {c : AST n ι} {b : ι → Bool} (hc : IsBit c b) (q : PyNum) (hq : |q.val| < 2 ^ 63) :
    SatX (c.mulPy q) fun z => z.scale = 1 ∧ ∀ i, z.value i = if b i then (truncQ q.val : ℚ) else 0 := by
  have hr := truncQ_range hq
  have main : ∀ (z : AST n ι), z.scale = 1 → (∀ i, reveal z.share i = boolI64 (b i) * BitVec.ofInt 64 (truncQ q.val)) → z.scale = 1 ∧ ∀ i, z.value i = if b i then (truncQ q.val : ℚ) else 0 := by
    intro z hz hw
    refine ⟨hz, fun i => ?_⟩
    rw [AST.value, hw, hz]
    cases b i
    · rw [show boolI64 false = 0#64 from rfl, BitVec.zero_mul]; simp
    · rw [show boolI64 true = 1#64 from rfl, BitVec.one_mul, toInt_ofInt64 hr.1 hr.2]; simp
  cases q with
  | int z =>
    refine SatX.pure (main _ hc.1 fun i => ?_)
    rw [AST.mulInt, reveal_mulInt, Pi.mul_apply, hc.2]
    show _ = _ * BitVec.ofInt 64 (truncQ (z : ℚ))
    rw [truncQ_intCast]
  | float q =>
    show SatX (AST.mulPub (elementwise ι) c fun _ => q) _
    unfold AST.mulPub
    simp only
    rw [if_neg (by rw [hc.1]; norm_num)]
    refine SatX.pure (main _ hc.1 fun i => ?_)
    rw [reveal_bilinearPublic]
    simp only [BilinearOp.apply, elementwise, Torch.mulOp, List.map_cons, List.map_nil, List.sum_cons, List.sum_nil, id, add_zero]
    rw [hc.2, encodePublic_ofInt, hc.1, Nat.cast_one, one_mul]; rfl

theorem fits_abs {a : ℚ} (h : |a| < 2 ^ 63) : Fits a := fits_of_abs le_rfl h

/-- **C87 for `relu`**: recorded or not (`C23_relu`), the result is `max x 0`; recorded, for every number but the smallest one. -/
theorem C87_relu [NeZero n] {D : ℕ} (hD : 0 < D) (x : AST n ι) (hx : StdScale D x.scale) (hmin : ∀ i, x.scale * x.value i ≠ -2 ^ 63) :
    SatX (x.reluRec D) fun z => z.scale = x.scale ∧ ∀ i, z.value i = max (x.value i) 0 := by
  have h0 : ∀ i, (Operand.pub (n := n) fun _ : ι => (0 : ℚ)).valueAt x.scale i = 0 := by
    intro i
    show (truncQ (x.scale * 0) : ℚ) / x.scale = 0
    rw [mul_zero, truncQ_zero]; simp
  have e : ∀ i, x.value i * (if 0 < x.value i then 1 else 0) = max (x.value i) 0 := by
    intro i
    split
    · rename_i h; rw [max_eq_left h.le]; ring
    · rename_i h; rw [max_eq_right (not_lt.1 h)]; ring
  refine SatX.bind (sat_gt_bit hD x hx (.pub fun _ => 0) trivial fun i => ?_) fun g hg => ?_
  · rw [h0, zero_sub]
    show Fits (x.scale * -x.value i)
    have h := value_int_range x (hx.pos hD) i
    have h2 := hmin i
    unfold Fits at *
    rw [mul_neg]
    refine ⟨by linarith [h.2], ?_⟩
    have := lt_of_le_of_ne h.1 (by rw [ne_comm]; exact h2)
    linarith
  have hgv : ∀ i, g.value i = if 0 < x.value i then 1 else 0 := by
    intro i; rw [hg.value, h0]; simp only [decide_eq_true_eq]
  refine (C56_mul_unscaled (elementwise ι) x g (hx.pos hD) (by rw [hg.1]; norm_num) (Or.inr hg.1) fun i => ?_).mono fun z hz => ⟨?_, fun i => ?_⟩
  · rw [bilinearQ_elementwise, hgv, e, hg.1, Nat.cast_one, mul_one]
    have := value_int_range x (hx.pos hD) i
    rcases le_total 0 (x.value i) with h | h
    · rwa [max_eq_left h]
    · rw [max_eq_right h]; unfold Fits; norm_num
  · rw [hz.1, hg.1, mul_one]
  · rw [hz.2, bilinearQ_elementwise, hgv, e]

/-- -3 meets the conditions. -/
example : ∃ x : AST 2 Unit, StdScale (2 ^ 16) x.scale ∧ (∀ i, x.scale * x.value i ≠ -2 ^ 63) ∧ (∀ i, |x.scale * x.value i| ≤ 2 ^ 60) ∧ (x.scale : ℚ) * 6 ≤ 2 ^ 60 ∧ ∀ i, x.value i = -3 := by
  have hv : ∀ i, (holder 2 Unit (-196608) (2 ^ 16)).value i = -3 := fun i => by
    rw [holder_value (z := -196608) (hz := by decide)]; norm_num
  have hs : (holder 2 Unit (-196608) (2 ^ 16)).scale = 2 ^ 16 := rfl
  refine ⟨_, Or.inr rfl, fun i => ?_, fun i => ?_, ?_, hv⟩ <;> rw [hs]
  · rw [hv]; norm_num
  · rw [hv]; norm_num [abs_of_neg]
  · norm_num

/-- The common part of `hardtanh` and `relu6`: two comparisons at once, and their sum less one. -/
theorem sat_clampParts [NeZero n] {D : ℕ} (hD : 0 < D) (x u v : AST n ι) (hu : u.scale = x.scale) (hv : v.scale = x.scale) (hx : StdScale D x.scale)
    (hub : ∀ i, |x.scale * u.value i| < 2 ^ 63) (hvb : ∀ i, |x.scale * v.value i| < 2 ^ 63) :
    SatX ((u.pair v).gt D (.pub fun _ => 0)) fun g => IsBit (g.reindex fun i => (false, i)) (fun i => decide (0 < u.value i)) ∧
      IsBit (g.reindex fun i => (true, i)) (fun i => decide (0 < v.value i)) ∧
      (g.sumFirst.subPub fun _ => 1).scale = 1 ∧
      ∀ i, (g.sumFirst.subPub fun _ => 1).value i = (if 0 < u.value i then 1 else 0) + (if 0 < v.value i then 1 else 0) - 1 := by
  have hps : (u.pair v).scale = x.scale := hu
  have h0 : ∀ i, (Operand.pub (n := n) fun _ : Bool × ι => (0 : ℚ)).valueAt (u.pair v).scale i = 0 := by
    intro i
    show (truncQ (_ * 0) : ℚ) / _ = 0
    rw [mul_zero, truncQ_zero]; simp
  have hpv := value_pair u v (by rw [hu, hv])
  refine (sat_gt_bit hD (u.pair v) (by rw [hps]; exact hx) (.pub fun _ => 0) trivial fun i => ?_).mono fun g hg => ?_
  · rw [h0, zero_sub]
    show Fits ((u.pair v).scale * -(u.pair v).value i)
    obtain ⟨b, i⟩ := i
    rw [hps, hpv, mul_neg]
    apply fits_abs
    rw [abs_neg]
    cases b
    · exact hub i
    · exact hvb i
  · have hb : ∀ b i, reveal g.share (b, i) = boolI64 (decide (0 < if b then v.value i else u.value i)) := by
      intro b i
      rw [hg.2]; beta_reduce; rw [h0, hpv]
    have hs : (g.sumFirst.subPub fun _ => 1).scale = 1 := hg.1
    refine ⟨⟨hg.1, fun i => ?_⟩, ⟨hg.1, fun i => ?_⟩, hs, fun i => ?_⟩
    · have : reveal (g.reindex fun i : ι => (false, i)).share i = reveal g.share (false, i) := by simp only [AST.reindex, reveal_apply]
      rw [this, hb]; rfl
    · have : reveal (g.reindex fun i : ι => (true, i)).share i = reveal g.share (true, i) := by simp only [AST.reindex, reveal_apply]
      rw [this, hb]; rfl
    · have e1 : (g.sumFirst : AST n ι).scale = 1 := hg.1
      rw [AST.value, hs, subPub_word, reveal_sumFirst, Fintype.sum_bool, hb, hb, e1, Nat.cast_one, one_mul, truncQ_one]
      simp only [if_true, Bool.false_eq_true, if_false]
      by_cases h1 : 0 < u.value i <;> by_cases h2 : 0 < v.value i <;> simp [h1, h2, boolI64]

/-- What `hardtanh` computes while gradients are recorded: outside the bounds the bound with its fraction cut off. -/
theorem C87_hardtanh_value [NeZero n] {D : ℕ} (hD : 0 < D) (x : AST n ι) (hx : StdScale D x.scale) (lo hi : PyNum) (hne : lo.val ≠ hi.val) (lo' hi' : ℚ)
    (hlo' : lo' = (truncQ (x.scale * lo.val) : ℚ) / x.scale) (hhi' : hi' = (truncQ (x.scale * hi.val) : ℚ) / x.scale)
    (hlo : |x.scale * lo.val| ≤ 2 ^ 60) (hhi : |x.scale * hi.val| ≤ 2 ^ 60) (hb : ∀ i, |x.scale * x.value i| ≤ 2 ^ 60) :
    SatX (x.hardtanhRec D lo hi) fun z => z.scale = x.scale ∧ ∀ i, z.value i =
      ((if lo' < x.value i then 1 else 0) + (if x.value i < hi' then 1 else 0) - 1) * x.value i
      + (if lo' < x.value i then 0 else (truncQ lo.val : ℚ)) + (if x.value i < hi' then 0 else (truncQ hi.val : ℚ)) := by
  have hs := hx.pos hD
  have hs' : (0 : ℚ) < x.scale := by exact_mod_cast hs
  have hs1 : (1 : ℚ) ≤ x.scale := by exact_mod_cast hs
  have t1 : |(x.scale : ℚ) * lo'| ≤ 2 ^ 60 := by
    rw [hlo', mul_div_cancel₀ _ hs'.ne']; exact (abs_truncQ_le _).trans hlo
  have t2 : |(x.scale : ℚ) * hi'| ≤ 2 ^ 60 := by
    rw [hhi', mul_div_cancel₀ _ hs'.ne']; exact (abs_truncQ_le _).trans hhi
  have small : ∀ q : ℚ, |x.scale * q| ≤ 2 ^ 60 → |(x.scale : ℚ) * truncQ q| ≤ 2 ^ 60 := by
    intro q hq
    rw [abs_mul] at hq ⊢
    exact (mul_le_mul_of_nonneg_left (abs_truncQ_le q) (abs_nonneg _)).trans hq
  have small' : ∀ q : ℚ, |x.scale * q| ≤ 2 ^ 60 → |q| < 2 ^ 63 := by
    intro q hq
    rw [abs_mul, abs_of_pos hs'] at hq
    have : |q| ≤ x.scale * |q| := le_mul_of_one_le_left (abs_nonneg q) hs1
    linarith [show (2 : ℚ) ^ 60 < 2 ^ 63 by norm_num]
  have tl := small _ hlo
  have th := small _ hhi
  have v1 : ∀ i, (x.subPub fun _ => lo.val).value i = x.value i - lo' := by
    intro i
    rw [subPub_value x _ hs i, ← hlo']
    rw [← hlo']
    apply fits_abs
    rw [mul_sub]
    have := abs_sub (x.scale * x.value i) (x.scale * lo' : ℚ)
    have := hb i
    linarith [show (2 : ℚ) ^ 60 + 2 ^ 60 < 2 ^ 63 by norm_num]
  have vneg : ∀ i, x.neg.value i = -x.value i := by
    intro i
    refine value_of_word (x := x.neg) hs (neg_word x i) ?_ ?_
    · push_cast; rw [word_eq_value hs]; show _ = (x.scale : ℚ) * _; ring
    · show Fits ((x.scale : ℚ) * _)
      apply fits_abs; rw [mul_neg, abs_neg]
      linarith [hb i, show (2 : ℚ) ^ 60 < 2 ^ 63 by norm_num]
  have v2 : ∀ i, (AST.rsubPub (fun _ => hi.val) x).value i = hi' - x.value i := by
    intro i
    unfold AST.rsubPub
    have e : (truncQ ((x.neg.scale : ℚ) * hi.val) : ℚ) / x.neg.scale = hi' := hhi'.symm
    rw [addPub_value x.neg _ hs i, e, vneg]
    · ring
    · rw [e, vneg]
      show Fits ((x.scale : ℚ) * _)
      apply fits_abs
      have := abs_sub (x.scale * hi' : ℚ) (x.scale * x.value i)
      have := hb i
      rw [show (x.scale : ℚ) * (-x.value i + hi') = x.scale * hi' - x.scale * x.value i by ring]
      linarith [show (2 : ℚ) ^ 60 + 2 ^ 60 < 2 ^ 63 by norm_num]
  unfold AST.hardtanhRec
  rw [if_neg hne]
  refine SatX.bind (sat_clampParts hD x (x.subPub fun _ => lo.val) (AST.rsubPub (fun _ => hi.val) x) rfl rfl hx (fun i => ?_) (fun i => ?_)) fun g hg => ?_
  · rw [v1, mul_sub]
    have := abs_sub (x.scale * x.value i) (x.scale * lo' : ℚ)
    have := hb i
    linarith [show (2 : ℚ) ^ 60 + 2 ^ 60 < 2 ^ 63 by norm_num]
  · rw [v2, mul_sub]
    have := abs_sub (x.scale * hi' : ℚ) (x.scale * x.value i)
    have := hb i
    linarith [show (2 : ℚ) ^ 60 + 2 ^ 60 < 2 ^ 63 by norm_num]
  obtain ⟨b1, b2, gs, gv⟩ := hg
  have gv' : ∀ i, (g.sumFirst.subPub fun _ => 1).value i = (if lo' < x.value i then 1 else 0) + (if x.value i < hi' then 1 else 0) - 1 := by
    intro i; rw [gv, v1, v2]; simp only [sub_pos]
  have gb : ∀ i, |(x.scale : ℚ) * (((if lo' < x.value i then 1 else 0) + (if x.value i < hi' then 1 else 0) - 1) * x.value i)| ≤ 2 ^ 60 := by
    intro i
    have := hb i
    split <;> split
    · rw [show ((1 : ℚ) + 1 - 1) * x.value i = x.value i by ring]; exact this
    · norm_num
    · norm_num
    · rw [show (x.scale : ℚ) * (((0 : ℚ) + 0 - 1) * x.value i) = -(x.scale * x.value i) by ring, abs_neg]; exact this
  refine SatX.bind (C56_mul_unscaled (elementwise ι) (g.sumFirst.subPub fun _ => 1) x (by rw [gs]; norm_num) hs (Or.inl gs) fun i => ?_) fun r hr => ?_
  · rw [bilinearQ_elementwise, gv', gs, Nat.cast_one, one_mul]
    exact fits_abs (by linarith [gb i, show (2 : ℚ) ^ 60 < 2 ^ 63 by norm_num])
  have rs : r.scale = x.scale := by rw [hr.1, gs, one_mul]
  refine SatX.bind (sat_bit_mulPy b1.oneMinus lo (small' _ hlo)) fun a ha => ?_
  have av : ∀ i, a.value i = if lo' < x.value i then 0 else (truncQ lo.val : ℚ) := by
    intro i; rw [ha.2, v1]; by_cases h : lo' < x.value i <;> simp [h]
  have ab : ∀ i, |(x.scale : ℚ) * (if lo' < x.value i then 0 else (truncQ lo.val : ℚ))| ≤ 2 ^ 60 := by
    intro i; split
    · norm_num
    · exact tl
  have hm1 : max r.scale a.scale = x.scale := by rw [rs, ha.1]; exact max_eq_left hs
  refine SatX.bind (C56_add r a (by rw [rs, ha.1]; exact ⟨hs, Nat.one_pos, Or.inr (one_dvd _)⟩) fun i => ?_) fun r2 hr2 => ?_
  · rw [hm1, hr.2, bilinearQ_elementwise, gv', av, mul_add]
    apply fits_abs
    have := abs_add_le ((x.scale : ℚ) * (((if lo' < x.value i then 1 else 0) + (if x.value i < hi' then 1 else 0) - 1) * x.value i)) (x.scale * (if lo' < x.value i then 0 else (truncQ lo.val : ℚ)))
    have := gb i; have := ab i
    linarith [show (2 : ℚ) ^ 60 + 2 ^ 60 < 2 ^ 63 by norm_num]
  refine SatX.bind (sat_bit_mulPy b2.oneMinus hi (small' _ hhi)) fun a2 ha2 => ?_
  have av2 : ∀ i, a2.value i = if x.value i < hi' then 0 else (truncQ hi.val : ℚ) := by
    intro i; rw [ha2.2, v2]; by_cases h : x.value i < hi' <;> simp [h]
  have ab2 : ∀ i, |(x.scale : ℚ) * (if x.value i < hi' then 0 else (truncQ hi.val : ℚ))| ≤ 2 ^ 60 := by
    intro i; split
    · norm_num
    · exact th
  have rs2 : r2.scale = x.scale := by rw [hr2.1, hm1]
  have hm2 : max r2.scale a2.scale = x.scale := by rw [rs2, ha2.1]; exact max_eq_left hs
  refine (C56_add r2 a2 (by rw [rs2, ha2.1]; exact ⟨hs, Nat.one_pos, Or.inr (one_dvd _)⟩) fun i => ?_).mono fun z hz => ⟨by rw [hz.1, hm2], fun i => ?_⟩
  · rw [hm2, hr2.2, hr.2, bilinearQ_elementwise, gv', av, av2, mul_add, mul_add]
    apply fits_abs
    have h1 := abs_add_le ((x.scale : ℚ) * (((if lo' < x.value i then 1 else 0) + (if x.value i < hi' then 1 else 0) - 1) * x.value i)) (x.scale * (if lo' < x.value i then 0 else (truncQ lo.val : ℚ)))
    have h2 := abs_add_le ((x.scale : ℚ) * (((if lo' < x.value i then 1 else 0) + (if x.value i < hi' then 1 else 0) - 1) * x.value i) + x.scale * (if lo' < x.value i then 0 else (truncQ lo.val : ℚ)))
      (x.scale * (if x.value i < hi' then 0 else (truncQ hi.val : ℚ)))
    have := gb i; have := ab i; have := ab2 i
    linarith [show (2 : ℚ) ^ 60 + 2 ^ 60 + 2 ^ 60 < 2 ^ 63 by norm_num]
  · rw [hz.2, hr2.2, hr.2, bilinearQ_elementwise, gv', av, av2]

/-- **C87 for `hardtanh` with integral bounds**: recorded or not, the result is the number clipped to the bounds. Missing: bounds with a fraction (`C87_hardtanh_wrong`). -/
theorem C87_hardtanh_partial [NeZero n] {D : ℕ} (hD : 0 < D) (x : AST n ι) (hx : StdScale D x.scale) (lo hi : PyNum) (a b : ℤ) (ha : lo.val = a) (hb' : hi.val = b) (hab : a < b)
    (hlo : |(x.scale : ℚ) * a| ≤ 2 ^ 60) (hhi : |(x.scale : ℚ) * b| ≤ 2 ^ 60) (hb : ∀ i, |x.scale * x.value i| ≤ 2 ^ 60) :
    SatX (x.hardtanhRec D lo hi) (fun z => z.scale = x.scale ∧ ∀ i, z.value i = max (a : ℚ) (min (x.value i) b)) ∧
    SatX (x.hardtanh D lo.val hi.val) (fun z => z.scale = x.scale ∧ ∀ i, z.value i = max (a : ℚ) (min (x.value i) b)) := by
  have hs := hx.pos hD
  have hs' : (0 : ℚ) < x.scale := by exact_mod_cast hs
  have enc : ∀ z : ℤ, (z : ℚ) = (truncQ ((x.scale : ℚ) * z) : ℚ) / x.scale := by
    intro z
    have := truncQ_intCast ((x.scale : ℤ) * z)
    push_cast at this
    rw [this]; push_cast; field_simp
  have habq : (a : ℚ) < b := by exact_mod_cast hab
  constructor
  · refine (C87_hardtanh_value hD x hx lo hi (by rw [ha, hb']; exact habq.ne) a b (by rw [ha]; exact enc a) (by rw [hb']; exact enc b) (by rw [ha]; exact hlo) (by rw [hb']; exact hhi) hb).mono
      fun z hz => ⟨hz.1, fun i => ?_⟩
    rw [hz.2, ha, hb', truncQ_intCast, truncQ_intCast]
    rcases lt_or_ge (a : ℚ) (x.value i) with h | h
    · rcases lt_or_ge (x.value i) b with h2 | h2
      · rw [if_pos h, if_pos h2, if_pos h, if_pos h2, min_eq_left h2.le, max_eq_right h.le]; ring
      · rw [if_pos h, if_neg (not_lt.2 h2), if_pos h, if_neg (not_lt.2 h2), min_eq_right h2, max_eq_right habq.le]; ring
    · have h2 : x.value i < b := lt_of_le_of_lt h habq
      rw [if_neg (not_lt.2 h), if_pos h2, if_neg (not_lt.2 h), if_pos h2, min_eq_left h2.le, max_eq_left h]; ring
  · rw [ha, hb']
    have big : (2 : ℚ) ^ 60 + 2 ^ 60 < 2 ^ 63 := by norm_num
    refine C23_hardtanh hD x hx a b a b habq.le (enc a) (enc b) (fits_abs (by linarith)) (fits_abs (by linarith)) (fits_abs ?_) (fun i => fits_abs ?_) (fun i => fits_abs ?_)
    · rw [mul_sub]; have := abs_sub ((x.scale : ℚ) * b) (x.scale * a); linarith
    · rw [mul_sub]; have := abs_sub (x.scale * x.value i) (x.scale * a : ℚ); linarith [hb i]
    · rw [mul_sub]; have := abs_sub (x.scale * x.value i) (x.scale * b : ℚ); linarith [hb i]

/-- The bounds -1 and 1, and -3. -/
example : ∃ (x : AST 2 Unit) (lo hi : PyNum), StdScale (2 ^ 16) x.scale ∧ lo.val = ((-1 : ℤ) : ℚ) ∧ hi.val = ((1 : ℤ) : ℚ) ∧ |(x.scale : ℚ) * ((-1 : ℤ) : ℚ)| ≤ 2 ^ 60 ∧ |(x.scale : ℚ) * ((1 : ℤ) : ℚ)| ≤ 2 ^ 60 ∧
    (∀ i, |x.scale * x.value i| ≤ 2 ^ 60) ∧ ∀ i, x.value i = -3 := by
  have hv : ∀ i, (holder 2 Unit (-196608) (2 ^ 16)).value i = -3 := fun i => by
    rw [holder_value (z := -196608) (hz := by decide)]; norm_num
  have hs : (holder 2 Unit (-196608) (2 ^ 16)).scale = 2 ^ 16 := rfl
  refine ⟨_, .int (-1), .int 1, Or.inr rfl, rfl, rfl, ?_, ?_, fun i => ?_, hv⟩ <;> rw [hs]
  · norm_num [abs_of_neg]
  · norm_num [abs_of_pos]
  · rw [hv]; norm_num [abs_of_neg]

/-- **C87 is false for bounds with a fraction**: 3 clipped to [-1/2, 1/2] is 0 while gradients are recorded, and 1/2 otherwise. -/
theorem C87_hardtanh_wrong (n : ℕ) [NeZero n] : ∃ x : AST n Unit, x.scale = 2 ^ 16 ∧ x.value () = 3 ∧
    SatX (x.hardtanhRec (2 ^ 16) (.float (-1 / 2)) (.float (1 / 2))) (fun z => z.value () = 0) ∧ SatX (x.hardtanh (2 ^ 16) (-1 / 2) (1 / 2)) (fun z => z.value () = 1 / 2) := by
  have hv : ∀ i, (holder n Unit 196608 (2 ^ 16)).value i = 3 := fun i => by
    rw [holder_value (z := 196608) (hz := by decide)]; norm_num
  have hsc : (holder n Unit 196608 (2 ^ 16)).scale = 2 ^ 16 := rfl
  have e1 : truncQ (((2 ^ 16 : ℕ) : ℚ) * (-1 / 2)) = -32768 := by
    rw [show (((2 ^ 16 : ℕ) : ℚ) * (-1 / 2)) = ((-32768 : ℤ) : ℚ) by norm_num, truncQ_intCast]
  have e2 : truncQ (((2 ^ 16 : ℕ) : ℚ) * (1 / 2)) = 32768 := by
    rw [show (((2 ^ 16 : ℕ) : ℚ) * (1 / 2)) = ((32768 : ℤ) : ℚ) by norm_num, truncQ_intCast]
  refine ⟨holder n Unit 196608 (2 ^ 16), rfl, hv (), ?_, ?_⟩
  · refine (C87_hardtanh_value (D := 2 ^ 16) (by norm_num) (holder n Unit 196608 (2 ^ 16)) (Or.inr rfl) (.float (-1 / 2)) (.float (1 / 2)) (by simp only [PyNum.val]; norm_num) (-1 / 2) (1 / 2)
      (by rw [hsc]; simp only [PyNum.val]; rw [e1]; norm_num) (by rw [hsc]; simp only [PyNum.val]; rw [e2]; norm_num)
      (by rw [hsc]; simp only [PyNum.val]; norm_num [abs_of_neg]) (by rw [hsc]; simp only [PyNum.val]; norm_num [abs_of_pos]) (fun i => by rw [hsc, hv]; norm_num [abs_of_pos])).mono fun z hz => ?_
    have h0 : truncQ (1 / 2) = 0 := by unfold truncQ; norm_num
    rw [hz.2, hv]
    simp only [PyNum.val]
    rw [h0]; norm_num
  · refine (C23_hardtanh (D := 2 ^ 16) (by norm_num) (holder n Unit 196608 (2 ^ 16)) (Or.inr rfl) (-1 / 2) (1 / 2) (-1 / 2) (1 / 2) (by norm_num) (by rw [hsc, e1]; norm_num) (by rw [hsc, e2]; norm_num)
      (by rw [hsc]; unfold Fits; norm_num) (by rw [hsc]; unfold Fits; norm_num) (by rw [hsc]; unfold Fits; norm_num) (fun i => by rw [hsc, hv]; unfold Fits; norm_num)
      (fun i => by rw [hsc, hv]; unfold Fits; norm_num)).mono fun z hz => ?_
    rw [hz.2, hv]; norm_num

/-- **C87 for `relu6`**: the same function runs whether or not gradients are recorded; it clips to the interval from 0 to 6. -/
theorem C87_relu6 [NeZero n] {D : ℕ} (hD : 0 < D) (x : AST n ι) (hx : StdScale D x.scale) (h6 : (x.scale : ℚ) * 6 ≤ 2 ^ 60) (hb : ∀ i, |x.scale * x.value i| ≤ 2 ^ 60) :
    SatX (x.relu6Rec D) fun z => z.scale = x.scale ∧ ∀ i, z.value i = max 0 (min (x.value i) 6) := by
  have hs := hx.pos hD
  have hs' : (0 : ℚ) < x.scale := by exact_mod_cast hs
  have vneg : ∀ i, x.neg.value i = -x.value i := by
    intro i
    refine value_of_word (x := x.neg) hs (neg_word x i) ?_ ?_
    · push_cast; rw [word_eq_value hs]; show _ = (x.scale : ℚ) * _; ring
    · show Fits ((x.scale : ℚ) * _)
      apply fits_abs; rw [mul_neg, abs_neg]
      linarith [hb i, show (2 : ℚ) ^ 60 < 2 ^ 63 by norm_num]
  have a6 : |(x.scale : ℚ) * 6| ≤ 2 ^ 60 := by rw [abs_of_pos (by positivity)]; exact h6
  have b6 : ∀ i, |(x.scale : ℚ) * (6 - x.value i)| < 2 ^ 63 := by
    intro i
    rw [mul_sub]
    have := abs_sub ((x.scale : ℚ) * 6) (x.scale * x.value i)
    have := hb i
    linarith [show (2 : ℚ) ^ 60 + 2 ^ 60 < 2 ^ 63 by norm_num]
  have v2 : ∀ i, (AST.rsubPub (fun _ => 6) x).value i = 6 - x.value i := by
    intro i
    unfold AST.rsubPub
    have e : (truncQ ((x.neg.scale : ℚ) * 6) : ℚ) / x.neg.scale = 6 := by
      show (truncQ ((x.scale : ℚ) * 6) : ℚ) / x.scale = 6
      have := truncQ_intCast ((x.scale : ℤ) * 6)
      push_cast at this
      rw [this]; push_cast; field_simp
    rw [addPub_value x.neg _ hs i, e, vneg]
    · ring
    · rw [e, vneg]
      show Fits ((x.scale : ℚ) * _)
      apply fits_abs
      rw [show -x.value i + 6 = 6 - x.value i by ring]; exact b6 i
  unfold AST.relu6Rec
  refine SatX.bind (sat_clampParts hD x x (AST.rsubPub (fun _ => 6) x) rfl rfl hx (fun i => ?_) (fun i => ?_)) fun g hg => ?_
  · linarith [hb i, show (2 : ℚ) ^ 60 < 2 ^ 63 by norm_num]
  · rw [v2]; exact b6 i
  obtain ⟨b1, b2, gs, gv⟩ := hg
  have gv' : ∀ i, (g.sumFirst.subPub fun _ => 1).value i * x.value i = if 0 < x.value i then (if x.value i < 6 then x.value i else 0) else 0 := by
    intro i; rw [gv, v2]; simp only [sub_pos]
    by_cases h : 0 < x.value i
    · by_cases h2 : x.value i < 6 <;> simp [h, h2]
    · have h2 : x.value i < 6 := by linarith [not_lt.1 h]
      simp [h, h2]
  have gb : ∀ i, |(x.scale : ℚ) * (if 0 < x.value i then (if x.value i < 6 then x.value i else 0) else 0)| ≤ 2 ^ 60 := by
    intro i
    have := hb i
    split
    · split
      · exact this
      · norm_num
    · norm_num
  refine SatX.bind (C56_mul_unscaled (elementwise ι) (g.sumFirst.subPub fun _ => 1) x (by rw [gs]; norm_num) hs (Or.inl gs) fun i => ?_) fun r hr => ?_
  · rw [bilinearQ_elementwise, gv', gs, Nat.cast_one, one_mul]
    exact fits_abs (by linarith [gb i, show (2 : ℚ) ^ 60 < 2 ^ 63 by norm_num])
  have rs : r.scale = x.scale := by rw [hr.1, gs, one_mul]
  have hsix := b2.oneMinus
  set six := AST.oneMinus (g.reindex fun i : ι => (true, i)) with hsixdef
  have as : (six.mulInt 6).scale = 1 := hsix.1
  have av : ∀ i, (six.mulInt 6).value i = if x.value i < 6 then 0 else 6 := by
    intro i
    have hv := hsix.value i
    rw [mulInt_value six 6 (by rw [hsix.1]; norm_num) i, hv, v2]
    · by_cases h : x.value i < 6 <;> simp [h]
    · rw [hsix.1, hv]; unfold Fits; split <;> norm_num
  have hm1 : max r.scale (six.mulInt 6).scale = x.scale := by rw [rs, as]; exact max_eq_left hs
  have ab : ∀ i, |(x.scale : ℚ) * (if x.value i < 6 then 0 else 6)| ≤ 2 ^ 60 := by
    intro i; split
    · norm_num
    · exact a6
  refine (C56_add r (six.mulInt 6) (by rw [rs, as]; exact ⟨hs, Nat.one_pos, Or.inr (one_dvd _)⟩) fun i => ?_).mono fun z hz => ⟨by rw [hz.1, hm1], fun i => ?_⟩
  · rw [hm1, hr.2, bilinearQ_elementwise, gv', av, mul_add]
    apply fits_abs
    have := abs_add_le ((x.scale : ℚ) * (if 0 < x.value i then (if x.value i < 6 then x.value i else 0) else 0)) (x.scale * (if x.value i < 6 then 0 else 6))
    have := gb i; have := ab i
    linarith [show (2 : ℚ) ^ 60 + 2 ^ 60 < 2 ^ 63 by norm_num]
  · rw [hz.2, hr.2, bilinearQ_elementwise, gv', av]
    rcases lt_or_ge 0 (x.value i) with h | h
    · rcases lt_or_ge (x.value i) 6 with h2 | h2
      · simp [h, h2, h.le, h2.le]
      · simp [h, h2, not_lt.2 h2]
    · have h2 : x.value i < 6 := by linarith
      simp [h, h2, not_lt.2 h, h2.le]

end CrypTen

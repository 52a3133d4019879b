import Verif.Spec.Logic
import Verif.Props.ArithFunc

/-!
# C21, C22, C23: comparisons and selection functions
-/

namespace CrypTen
variable {n : ℕ} {ι : Type}

/-- A tensor whose entries are all `v`, held by party 0 (used in examples). -/
def holder (n : ℕ) [NeZero n] (ι : Type) (v : I64) (s : ℕ) : AST n ι := ⟨fun p _ => if p = 0 then v else 0, s⟩

theorem holder_word [NeZero n] (v : I64) (s : ℕ) (i : ι) : reveal (holder n ι v s).share i = v := by
  rw [holder, reveal_apply, Finset.sum_ite_eq' Finset.univ (0 : Fin n) fun _ => v]; simp

theorem holder_value [NeZero n] (v : I64) (s : ℕ) (z : ℤ) (hz : v.toInt = z) (i : ι) : (holder n ι v s).value i = z / s := by
  rw [AST.value, holder_word, hz]; rfl

/-- The tensor holds the given bits, unscaled. -/
def IsBit (z : AST n ι) (b : ι → Bool) : Prop := z.scale = 1 ∧ ∀ i, reveal z.share i = boolI64 (b i)

theorem boolI64_toInt (b : Bool) : (boolI64 b).toInt = if b then 1 else 0 := by cases b <;> rfl

theorem IsBit.value {z : AST n ι} {b : ι → Bool} (h : IsBit z b) (i : ι) : z.value i = if b i then 1 else 0 := by
  rw [AST.value, h.1, h.2, boolI64_toInt]; cases b i <;> simp

theorem truncQ_one : truncQ 1 = 1 := by have := truncQ_intCast 1; simpa using this

theorem truncQ_zero : truncQ 0 = 0 := by have := truncQ_intCast 0; simpa using this

theorem IsBit.oneMinus [NeZero n] {z : AST n ι} {b : ι → Bool} (h : IsBit z b) : IsBit z.oneMinus fun i => !b i := by
  refine ⟨h.1, fun i => ?_⟩
  rw [AST.oneMinus, AST.rsubPub, addPub_word, neg_word, h.2]
  have : truncQ ((z.neg.scale : ℕ) * 1) = 1 := by
    show truncQ (((z.scale : ℕ) : ℚ) * 1) = 1
    rw [h.1]; rw [Nat.cast_one, one_mul, truncQ_one]
  rw [this]
  show _ = boolI64 (!b i)
  cases b i <;> rfl

theorem getLsbD_63 (a : I64) : a.getLsbD 63 = decide (a.toInt < 0) := by
  have h : a.msb = a.getLsbD 63 := BitVec.msb_eq_getLsbD_last a
  rw [← h, BitVec.msb_eq_toInt]

/-- `_ltz` for every scale: the sign bit times the quotient of the scales, labelled with scale 1. -/
theorem sat_ltz_word [NeZero n] (D : ℕ) (x : AST n ι) : SatX (x.ltz D) fun z => z.scale = 1 ∧ ∀ i,
    reveal z.share i = boolI64 (decide ((reveal x.share i).toInt < 0)) * BitVec.ofNat 64 ((if x.scale = 1 then 1 else D) / x.scale) := by
  refine SatX.bind (C20_a2b x.share) fun b hb => SatX.bind (C20_b2a 1 _ x.scale (by omega) (rshiftShares b 63)) fun a ha => SatX.pure ⟨rfl, fun i => ?_⟩
  rw [ha, revealX_rshift, hb]
  congr 1
  have h := sum_bits ((reveal x.share i).sshiftRight 63) 1 (by omega)
  rw [← h, Fin.sum_univ_one, ← getLsbD_63]
  have : ((reveal x.share i).sshiftRight 63).getLsbD ((0 : Fin 1) : ℕ) = (reveal x.share i).getLsbD 63 := by
    rw [BitVec.getLsbD_sshiftRight]; simp
  rw [this]; exact BitVec.mul_one _

theorem sat_ltz [NeZero n] (D : ℕ) (hD : 0 < D) (x : AST n ι) (hx : StdScale D x.scale) :
    SatX (x.ltz D) fun z => IsBit z fun i => decide ((reveal x.share i).toInt < 0) := by
  refine (sat_ltz_word D x).mono fun z hz => ⟨hz.1, fun i => ?_⟩
  rw [hz.2]
  have : (if x.scale = 1 then 1 else D) / x.scale = 1 := by
    split
    · rename_i h; rw [h]
    · rcases hx with h | h
      · contradiction
      · rw [h, Nat.div_self hD]
  rw [this]; exact BitVec.mul_one _

theorem value_neg_iff {x : AST n ι} (hs : 0 < x.scale) (i : ι) : (reveal x.share i).toInt < 0 ↔ x.value i < 0 := by
  have hs' : (0 : ℚ) < x.scale := by exact_mod_cast hs
  rw [AST.value, div_neg_iff]
  constructor
  · intro h; exact Or.inr ⟨by exact_mod_cast h, hs'⟩
  · rintro (⟨_, h⟩ | ⟨h, _⟩)
    · linarith
    · exact_mod_cast h

theorem StdScale.pos {D s : ℕ} (hD : 0 < D) (h : StdScale D s) : 0 < s := by rcases h with h | h <;> omega

theorem StdScale.aligned {D s t : ℕ} (hD : 0 < D) (h : StdScale D s) (h' : StdScale D t) : Aligned s t := by
  refine ⟨h.pos hD, h'.pos hD, ?_⟩
  rcases h with h | h <;> rcases h' with h' | h' <;> subst h <;> subst h' <;> simp

theorem StdScale.max {D s t : ℕ} (h : StdScale D s) (h' : StdScale D t) : StdScale D (max s t) := by
  rcases max_choice s t with e | e <;> rw [e] <;> assumption

theorem jointScale_std {D s : ℕ} (h : StdScale D s) {y : Operand n ι} (h' : y.Std D) : StdScale D (y.jointScale s) := by
  cases y with
  | enc y => exact h.max h'
  | pub y => exact h

theorem sat_subOp [NeZero n] {D : ℕ} (hD : 0 < D) (x : AST n ι) (hx : StdScale D x.scale) (y : Operand n ι) (hy : y.Std D)
    (hfit : ∀ i, Fits (y.jointScale x.scale * (x.value i - y.valueAt x.scale i))) :
    SatX (x.subOp y) fun d => d.scale = y.jointScale x.scale ∧ ∀ i, d.value i = x.value i - y.valueAt x.scale i := by
  cases y with
  | enc y => exact C56_sub x y (hx.aligned hD hy) hfit
  | pub y =>
    refine SatX.pure ⟨rfl, fun i => ?_⟩
    have h0 := hx.pos hD
    have hs' : (x.scale : ℚ) ≠ 0 := by exact_mod_cast h0.ne'
    refine value_of_word (x := x.subPub y) h0 (subPub_word x y i) ?_ (hfit i)
    rw [Int.cast_sub, word_eq_value h0]
    show _ = (x.scale : ℚ) * (x.value i - _ / (x.scale : ℚ))
    field_simp

theorem neg_value_word (x : AST n ι) (i : ι) : reveal x.neg.share i = -reveal x.share i := by
  rw [AST.neg, reveal_negShares, Pi.neg_apply]

/-- `-x + y` at the level of words (no range condition on `-x` itself). -/
theorem sat_negAddOp [NeZero n] {D : ℕ} (hD : 0 < D) (x : AST n ι) (hx : StdScale D x.scale) (y : Operand n ι) (hy : y.Std D)
    (hfit : ∀ i, Fits (y.jointScale x.scale * (y.valueAt x.scale i - x.value i))) :
    SatX (x.neg.addOp y) fun d => d.scale = y.jointScale x.scale ∧ ∀ i, d.value i = y.valueAt x.scale i - x.value i := by
  have h0 := hx.pos hD
  have hneg : ∀ (i : ι) (m z : ℤ), BitVec.ofInt 64 ((reveal x.neg.share i).toInt * m + z) = BitVec.ofInt 64 (-(reveal x.share i).toInt * m + z) := by
    intro i m z
    rw [ofInt_add64, ofInt_mul64, ofInt_toInt, neg_word, ofInt_add64, ofInt_mul64]
  cases y with
  | enc y =>
    have hal := hx.aligned hD hy
    refine (sat_add_word x.neg y h0 hal.2.1).mono fun z hz => ⟨hz.1, fun i => ?_⟩
    have h1 : 0 < max x.scale y.scale := lt_of_lt_of_le h0 (le_max_left _ _)
    have hw := hz.2 i
    rw [hneg] at hw
    have hzs : z.scale = max x.scale y.scale := hz.1
    refine value_of_word (by rw [hzs]; exact h1) hw ?_ (by rw [hzs]; exact hfit i)
    rw [Int.cast_add, neg_mul, Int.cast_neg]
    have e1 := scaled_value (x := x) h0 hal.dvd_max.1 i
    have e2 := scaled_value (x := y) hal.2.1 hal.dvd_max.2 i
    have hns : x.neg.scale = x.scale := rfl
    rw [hns, e1, e2, hzs]
    show _ = _ * (y.value i - x.value i)
    ring
  | pub y =>
    refine SatX.pure ⟨rfl, fun i => ?_⟩
    have hs' : (x.scale : ℚ) ≠ 0 := by exact_mod_cast h0.ne'
    have hw := addPub_word x.neg y i
    have := hneg i 1 (truncQ ((x.neg.scale : ℕ) * y i))
    rw [mul_one, mul_one] at this
    rw [this] at hw
    refine value_of_word (x := x.neg.addPub y) h0 hw ?_ (hfit i)
    rw [Int.cast_add, Int.cast_neg, word_eq_value h0]
    show _ + (truncQ ((x.scale : ℕ) * y i) : ℚ) = (x.scale : ℚ) * (_ / (x.scale : ℚ) - x.value i)
    field_simp; ring

/-! ## C21 -/

/-- **C21 (`<`).** Operands of standard scale (the default precision, or a comparison result), difference in range. -/
theorem C21_lt_partial [NeZero n] {D : ℕ} (hD : 0 < D) (x : AST n ι) (hx : StdScale D x.scale) (y : Operand n ι) (hy : y.Std D)
    (hfit : ∀ i, Fits (y.jointScale x.scale * (x.value i - y.valueAt x.scale i))) :
    SatX (x.lt D y) fun z => z.scale = 1 ∧ ∀ i, z.value i = if x.value i < y.valueAt x.scale i then 1 else 0 := by
  refine SatX.bind (sat_subOp hD x hx y hy hfit) fun d hd => ?_
  have hstd : StdScale D d.scale := by rw [hd.1]; exact jointScale_std hx hy
  refine (sat_ltz D hD d hstd).mono fun z hz => ⟨hz.1, fun i => ?_⟩
  rw [hz.value]
  have : (reveal d.share i).toInt < 0 ↔ x.value i < y.valueAt x.scale i := by
    rw [value_neg_iff (hstd.pos hD), hd.2, sub_neg]
  simp only [decide_eq_true_eq, this]

theorem sat_lt_bit [NeZero n] {D : ℕ} (hD : 0 < D) (x : AST n ι) (hx : StdScale D x.scale) (y : Operand n ι) (hy : y.Std D)
    (hfit : ∀ i, Fits (y.jointScale x.scale * (x.value i - y.valueAt x.scale i))) :
    SatX (x.lt D y) fun z => IsBit z fun i => decide (x.value i < y.valueAt x.scale i) := by
  refine SatX.bind (sat_subOp hD x hx y hy hfit) fun d hd => ?_
  have hstd : StdScale D d.scale := by rw [hd.1]; exact jointScale_std hx hy
  refine (sat_ltz D hD d hstd).mono fun z hz => ⟨hz.1, fun i => ?_⟩
  rw [hz.2]
  congr 1
  rw [decide_eq_decide, value_neg_iff (hstd.pos hD), hd.2, sub_neg]

theorem sat_gt_bit [NeZero n] {D : ℕ} (hD : 0 < D) (x : AST n ι) (hx : StdScale D x.scale) (y : Operand n ι) (hy : y.Std D)
    (hfit : ∀ i, Fits (y.jointScale x.scale * (y.valueAt x.scale i - x.value i))) :
    SatX (x.gt D y) fun z => IsBit z fun i => decide (y.valueAt x.scale i < x.value i) := by
  refine SatX.bind (sat_negAddOp hD x hx y hy hfit) fun d hd => ?_
  have hstd : StdScale D d.scale := by rw [hd.1]; exact jointScale_std hx hy
  refine (sat_ltz D hD d hstd).mono fun z hz => ⟨hz.1, fun i => ?_⟩
  rw [hz.2]
  congr 1
  rw [decide_eq_decide, value_neg_iff (hstd.pos hD), hd.2, sub_neg]

theorem sat_ge_bit [NeZero n] {D : ℕ} (hD : 0 < D) (x : AST n ι) (hx : StdScale D x.scale) (y : Operand n ι) (hy : y.Std D)
    (hfit : ∀ i, Fits (y.jointScale x.scale * (x.value i - y.valueAt x.scale i))) :
    SatX (x.ge D y) fun z => IsBit z fun i => decide (y.valueAt x.scale i ≤ x.value i) := by
  refine SatX.bind (sat_lt_bit hD x hx y hy hfit) fun r hr => SatX.pure ?_
  have := hr.oneMinus
  refine ⟨this.1, fun i => ?_⟩
  rw [this.2]; congr 1; beta_reduce
  rw [← decide_not, decide_eq_decide, not_lt]

/-- **C21 (`>`).** -/
theorem C21_gt_partial [NeZero n] {D : ℕ} (hD : 0 < D) (x : AST n ι) (hx : StdScale D x.scale) (y : Operand n ι) (hy : y.Std D)
    (hfit : ∀ i, Fits (y.jointScale x.scale * (y.valueAt x.scale i - x.value i))) :
    SatX (x.gt D y) fun z => z.scale = 1 ∧ ∀ i, z.value i = if y.valueAt x.scale i < x.value i then 1 else 0 :=
  (sat_gt_bit hD x hx y hy hfit).mono fun z hz => ⟨hz.1, fun i => by rw [hz.value]; simp only [decide_eq_true_eq]⟩

/-- **C21 (`≥`).** -/
theorem C21_ge_partial [NeZero n] {D : ℕ} (hD : 0 < D) (x : AST n ι) (hx : StdScale D x.scale) (y : Operand n ι) (hy : y.Std D)
    (hfit : ∀ i, Fits (y.jointScale x.scale * (x.value i - y.valueAt x.scale i))) :
    SatX (x.ge D y) fun z => z.scale = 1 ∧ ∀ i, z.value i = if y.valueAt x.scale i ≤ x.value i then 1 else 0 :=
  (sat_ge_bit hD x hx y hy hfit).mono fun z hz => ⟨hz.1, fun i => by rw [hz.value]; simp only [decide_eq_true_eq]⟩

/-- **C21 (`≤`).** -/
theorem C21_le_partial [NeZero n] {D : ℕ} (hD : 0 < D) (x : AST n ι) (hx : StdScale D x.scale) (y : Operand n ι) (hy : y.Std D)
    (hfit : ∀ i, Fits (y.jointScale x.scale * (y.valueAt x.scale i - x.value i))) :
    SatX (x.le D y) fun z => z.scale = 1 ∧ ∀ i, z.value i = if x.value i ≤ y.valueAt x.scale i then 1 else 0 := by
  refine SatX.bind (sat_gt_bit hD x hx y hy hfit) fun r hr => SatX.pure ⟨hr.oneMinus.1, fun i => ?_⟩
  rw [hr.oneMinus.value]
  by_cases h : x.value i ≤ y.valueAt x.scale i
  · simp [h, not_lt.2 h]
  · simp [h, not_le.1 h]

theorem reveal_pair (x y : AST n ι) (b : Bool) (i : ι) : reveal (x.pair y).share (b, i) = if b then reveal y.share i else reveal x.share i := by
  simp only [AST.pair, reveal_apply]; cases b <;> simp

theorem reveal_sumFirst {κ : Type} [Fintype κ] (x : AST n (κ × ι)) (i : ι) : reveal x.sumFirst.share i = ∑ k, reveal x.share (k, i) := by
  simp only [AST.sumFirst, reveal_apply]
  rw [Finset.sum_comm]

/-- **C21 (`≠`, any number of parties but two).** The difference must not be the most negative word. -/
theorem sat_neGen_bit [NeZero n] {D : ℕ} (hD : 0 < D) (x : AST n ι) (hx : StdScale D x.scale) (y : Operand n ι) (hy : y.Std D)
    (hfit : ∀ i, Fits (y.jointScale x.scale * (x.value i - y.valueAt x.scale i)))
    (hmin : ∀ i, y.jointScale x.scale * (x.value i - y.valueAt x.scale i) ≠ -2 ^ 63) :
    SatX (x.neGen D y) fun z => IsBit z fun i => decide (x.value i ≠ y.valueAt x.scale i) := by
  refine SatX.bind (sat_subOp hD x hx y hy hfit) fun d hd => ?_
  have hstd : StdScale D d.scale := by rw [hd.1]; exact jointScale_std hx hy
  refine SatX.bind (sat_ltz D hD (d.pair d.neg) hstd) fun z hz => SatX.pure ⟨hz.1, fun i => ?_⟩
  rw [reveal_sumFirst, Fintype.sum_bool, hz.2, hz.2]
  beta_reduce
  rw [reveal_pair, reveal_pair, if_pos rfl, if_neg (by simp)]
  have hw := word_eq_value (x := d) (hstd.pos hD) i
  have hne : (reveal d.share i).toInt ≠ -2 ^ 63 := by
    intro h
    have := hmin i
    rw [← hd.2, ← hd.1, ← hw, h] at this
    exact this (by norm_num)
  have hneg : (reveal d.neg.share i).toInt = -(reveal d.share i).toInt := by
    have h1 := toInt_ge (reveal d.share i); have h2 := toInt_lt (reveal d.share i)
    rw [neg_word, toInt_ofInt64] <;> omega
  have hiff : x.value i ≠ y.valueAt x.scale i ↔ (reveal d.share i).toInt ≠ 0 := by
    have hs : (d.scale : ℚ) ≠ 0 := by exact_mod_cast (hstd.pos hD).ne'
    rw [not_iff_not, ← sub_eq_zero, ← hd.2]
    rw [AST.value, div_eq_zero_iff]
    constructor
    · rintro (h | h)
      · exact_mod_cast h
      · contradiction
    · intro h; left; exact_mod_cast h
  rw [hneg]
  generalize (reveal d.share i).toInt = v at *
  have : decide (x.value i ≠ y.valueAt x.scale i) = decide (v ≠ 0) := decide_eq_decide.2 hiff
  rw [this]
  rcases lt_trichotomy v 0 with h | h | h
  · have h' : ¬ -v < 0 := by omega
    rw [decide_eq_false h', decide_eq_true h, decide_eq_true h.ne]; rfl
  · subst h; rfl
  · have h' : ¬ v < 0 := by omega
    rw [decide_eq_false h', decide_eq_true (by omega : -v < 0), decide_eq_true h.ne']; rfl

theorem C21_ne_partial [NeZero n] {D : ℕ} (hD : 0 < D) (x : AST n ι) (hx : StdScale D x.scale) (y : Operand n ι) (hy : y.Std D)
    (hfit : ∀ i, Fits (y.jointScale x.scale * (x.value i - y.valueAt x.scale i)))
    (hmin : ∀ i, y.jointScale x.scale * (x.value i - y.valueAt x.scale i) ≠ -2 ^ 63) (hn : n ≠ 2) :
    SatX (x.ne D y) fun z => z.scale = 1 ∧ ∀ i, z.value i = if x.value i ≠ y.valueAt x.scale i then 1 else 0 := by
  unfold AST.ne
  rw [dif_neg hn]
  exact (sat_neGen_bit hD x hx y hy hfit hmin).mono fun z hz => ⟨hz.1, fun i => by rw [hz.value]; simp only [decide_eq_true_eq]⟩

/-- **C21 (`==`, any number of parties but two).** -/
theorem C21_eq_partial [NeZero n] {D : ℕ} (hD : 0 < D) (x : AST n ι) (hx : StdScale D x.scale) (y : Operand n ι) (hy : y.Std D)
    (hfit : ∀ i, Fits (y.jointScale x.scale * (x.value i - y.valueAt x.scale i)))
    (hmin : ∀ i, y.jointScale x.scale * (x.value i - y.valueAt x.scale i) ≠ -2 ^ 63) (hn : n ≠ 2) :
    SatX (x.eq D y) fun z => z.scale = 1 ∧ ∀ i, z.value i = if x.value i = y.valueAt x.scale i then 1 else 0 := by
  unfold AST.eq
  rw [dif_neg hn]
  refine SatX.bind (sat_neGen_bit hD x hx y hy hfit hmin) fun r hr => SatX.pure ⟨hr.oneMinus.1, fun i => ?_⟩
  rw [hr.oneMinus.value]
  by_cases h : x.value i = y.valueAt x.scale i <;> simp [h]

/-! ## C22 -/

/-- `_eqz_2PC` for every scale. -/
theorem sat_eqz2PC_word (D : ℕ) (x : AST 2 ι) : SatX (x.eqz2PC D) fun z => z.scale = 1 ∧ ∀ i,
    reveal z.share i = boolI64 (decide (reveal x.share i = 0)) * BitVec.ofNat 64 (D / x.scale) := by
  refine SatX.bind (sat_encryptX 0 (x.share 0)) fun x0 h0 => SatX.bind (sat_encryptX 1 (-x.share 1)) fun x1 h1 => ?_
  refine SatX.bind (C19_equality x0 x1).1 fun e he => SatX.bind (C20_b2a 1 D x.scale (by omega) e) fun a ha => SatX.pure ⟨rfl, fun i => ?_⟩
  rw [ha]
  congr 1
  have h := sum_bits (revealX e i) 1 (by omega)
  rw [← h, Fin.sum_univ_one, he, h0, h1]
  have hr : reveal x.share i = x.share 0 i + x.share 1 i := by rw [reveal_apply, Fin.sum_univ_two]
  have : (decide (x.share 0 i = (-x.share 1) i)) = decide (reveal x.share i = 0) := by
    rw [decide_eq_decide, hr, Pi.neg_apply]
    exact eq_neg_iff_add_eq_zero
  rw [this]
  cases decide (reveal x.share i = 0) <;> decide

theorem sub_word_same [NeZero n] (x y : AST n ι) (h : y.scale = x.scale) (hx : 0 < x.scale) :
    SatX (x.sub y) fun d => d.scale = x.scale ∧ ∀ i, reveal d.share i = reveal x.share i - reveal y.share i := by
  refine (sat_sub_word x y hx (h ▸ hx)).mono fun d hd => ?_
  rw [h, max_self] at hd
  refine ⟨hd.1, fun i => ?_⟩
  rw [hd.2, Nat.div_self hx, Nat.cast_one, mul_one, mul_one, ofInt_sub64, ofInt_toInt, ofInt_toInt]

theorem value_eq_iff {x y : AST n ι} (h : y.scale = x.scale) (hx : 0 < x.scale) (i : ι) : x.value i = y.value i ↔ reveal x.share i = reveal y.share i := by
  have hs : (x.scale : ℚ) ≠ 0 := by exact_mod_cast hx.ne'
  rw [AST.value, AST.value, h, div_left_inj' hs]
  constructor
  · intro h; exact BitVec.eq_of_toInt_eq (by exact_mod_cast h)
  · intro h; rw [h]

theorem sat_eq2_bit {D : ℕ} (hD : 0 < D) (x y : AST 2 ι) (hx : x.scale = D) (hy : y.scale = D) :
    SatX (x.eq2 D (.enc y)) fun z => IsBit z fun i => decide (x.value i = y.value i) := by
  refine SatX.bind (sub_word_same x y (hy.trans hx.symm) (hx ▸ hD)) fun d hd => (sat_eqz2PC_word D d).mono fun z hz => ⟨hz.1, fun i => ?_⟩
  rw [hz.2, hd.1, hx, Nat.div_self hD, hd.2]
  refine (BitVec.mul_one _).trans ?_
  congr 1
  rw [decide_eq_decide, value_eq_iff (hy.trans hx.symm) (hx ▸ hD)]
  exact sub_eq_zero

/-- **C22 (default precision).** Two parties, two encrypted tensors of the default precision: equality for all 2^128 pairs of words, without any
range condition; `ne` is the complement. -/
theorem C22_equality_two_parties_partial {D : ℕ} (hD : 0 < D) (x y : AST 2 ι) (hx : x.scale = D) (hy : y.scale = D) :
    SatX (x.eq D (.enc y)) (fun z => z.scale = 1 ∧ ∀ i, z.value i = if x.value i = y.value i then 1 else 0) ∧
    SatX (x.ne D (.enc y)) (fun z => z.scale = 1 ∧ ∀ i, z.value i = if x.value i = y.value i then 0 else 1) := by
  refine ⟨(sat_eq2_bit hD x y hx hy).mono fun z hz => ⟨hz.1, fun i => by rw [hz.value]; simp only [decide_eq_true_eq]⟩, ?_⟩
  refine SatX.bind (m := x.eq2 D (.enc y)) (sat_eq2_bit hD x y hx hy) fun r hr => SatX.pure ⟨hr.oneMinus.1, fun i => ?_⟩
  rw [hr.oneMinus.value]
  by_cases h : x.value i = y.value i <;> simp [h]

/-- **C22 (public operand).** -/
theorem C22_equality_public_partial {D : ℕ} (hD : 0 < D) (x : AST 2 ι) (y : ι → ℚ) (hx : x.scale = D) :
    SatX (x.eq D (.pub y)) (fun z => z.scale = 1 ∧ ∀ i, z.value i = if reveal x.share i = encodePublic D y i then 1 else 0) := by
  refine SatX.bind (m := pure (x.subPub y)) (P := fun d => d = x.subPub y) (SatX.pure rfl) fun d hd => (sat_eqz2PC_word D d).mono fun z hz => ?_
  subst hd
  have hb : IsBit z fun i => decide (reveal x.share i = encodePublic D y i) := by
    refine ⟨hz.1, fun i => ?_⟩
    have hs : (x.subPub y).scale = D := hx
    rw [hz.2, hs, Nat.div_self hD]
    refine (BitVec.mul_one _).trans ?_
    congr 1
    rw [decide_eq_decide, AST.subPub, reveal_subPublic, hx, Pi.sub_apply]
    exact sub_eq_zero
  exact ⟨hb.1, fun i => by rw [hb.value]; simp only [decide_eq_true_eq]⟩

/-- **C22, C21 (any precision: characterisation).** With two parties, the equality test of tensors of scale `s` gives `D / s` (rounded down) instead of 1. -/
theorem C22_equality_any_scale (D : ℕ) (x y : AST 2 ι) (h : y.scale = x.scale) (hx : 0 < x.scale) :
    SatX (x.eq D (.enc y)) fun z => z.scale = 1 ∧ ∀ i,
      reveal z.share i = if x.value i = y.value i then BitVec.ofNat 64 (D / x.scale) else 0 := by
  refine SatX.bind (m := x.sub y) (sub_word_same x y h hx) fun d hd => (sat_eqz2PC_word D d).mono fun z hz => ⟨hz.1, fun i => ?_⟩
  have : (reveal x.share i - reveal y.share i = 0) ↔ x.value i = y.value i := by rw [value_eq_iff h hx]; exact sub_eq_zero
  rw [hz.2, hd.1, hd.2]
  simp only [this]
  by_cases hv : x.value i = y.value i
  · simp only [hv, decide_true, if_true]; exact BitVec.one_mul _
  · simp only [hv, decide_false]; exact BitVec.zero_mul

/-- **C22 is false for unscaled tensors**: with the default precision, two parties, and two equal comparison results (scale 1), `eq` gives 65536. -/
theorem C22_equality_unscaled_wrong : ∃ (T : Tuples 2) (x : AST 2 Unit), T.Valid ∧ x.scale = 1 ∧ x.value () = 1 ∧
    (x.eq (2 ^ 16) (.enc x) T 0).val.value () = 65536 := by
  obtain ⟨T, hT, -⟩ := tuples_exist 2
  refine ⟨T, ⟨fun p _ => if p = 0 then 5 else -4, 1⟩, hT, rfl, ?_, ?_⟩
  · have e1 : reveal (fun p _ => if p = 0 then 5 else -4 : Shares 2 Unit) () = 1 := by rw [reveal_apply]; decide
    have e2 : (1 : I64).toInt = 1 := by decide
    simp only [AST.value, e1, e2]; norm_num
  · have h := (C22_equality_any_scale (2 ^ 16) (⟨fun p _ => if p = 0 then 5 else -4, 1⟩ : AST 2 Unit) ⟨fun p _ => if p = 0 then 5 else -4, 1⟩ rfl (by norm_num) T hT 0).2
    have h2 := h.2 ()
    rw [if_pos rfl] at h2
    rw [AST.value, h2, h.1]
    have : (BitVec.ofNat 64 (2 ^ 16 / 1)).toInt = 65536 := by decide
    show (((BitVec.ofNat 64 (2 ^ 16 / 1)).toInt : ℤ) : ℚ) / ((1 : ℕ) : ℚ) = 65536
    rw [this]; norm_num

/-- **C21 (any precision: characterisation).** For tensors of a common scale `s`, `lt` gives `D / s` (rounded down) instead of 1. -/
theorem C21_lt_any_scale [NeZero n] (D : ℕ) (x y : AST n ι) (h : y.scale = x.scale) (hx : 0 < x.scale) (hx1 : x.scale ≠ 1)
    (hfit : ∀ i, Fits (x.scale * (x.value i - y.value i))) :
    SatX (x.lt D (.enc y)) fun z => z.scale = 1 ∧ ∀ i, reveal z.share i = if x.value i < y.value i then BitVec.ofNat 64 (D / x.scale) else 0 := by
  have hal : Aligned x.scale y.scale := ⟨hx, h ▸ hx, Or.inl (h ▸ dvd_rfl)⟩
  have hmax : max x.scale y.scale = x.scale := by rw [h, max_self]
  refine SatX.bind (m := x.sub y) (C56_sub x y hal (by rw [hmax]; exact hfit)) fun d hd => (sat_ltz_word D d).mono fun z hz => ⟨hz.1, fun i => ?_⟩
  rw [hmax] at hd
  have : (reveal d.share i).toInt < 0 ↔ x.value i < y.value i := by rw [value_neg_iff (by rw [hd.1]; exact hx), hd.2, sub_neg]
  rw [hz.2, hd.1, if_neg hx1]
  simp only [this]
  by_cases hv : x.value i < y.value i
  · simp only [hv, decide_true, if_true]; exact BitVec.one_mul _
  · simp only [hv, decide_false]; exact BitVec.zero_mul

/-- **C21 is false for other precisions**: at 8 bits of precision `0 < 1` is 256, and at 20 bits it is 0 (default 16 bits; any number of parties). -/
theorem C21_other_precisions_wrong (n : ℕ) [NeZero n] : ∃ (T : Tuples n) (x8 y8 x20 y20 : AST n Unit), T.Valid ∧
    x8.scale = 2 ^ 8 ∧ y8.scale = 2 ^ 8 ∧ x8.value () = 0 ∧ y8.value () = 1 ∧ (x8.lt (2 ^ 16) (.enc y8) T 0).val.value () = 256 ∧
    x20.scale = 2 ^ 20 ∧ y20.scale = 2 ^ 20 ∧ x20.value () = 0 ∧ y20.value () = 1 ∧ (x20.lt (2 ^ 16) (.enc y20) T 0).val.value () = 0 := by
  obtain ⟨T, hT, -⟩ := tuples_exist n
  have v1 : ∀ i, (holder n Unit 0 (2 ^ 8)).value i = 0 := fun i => by rw [holder_value _ _ 0 (by decide)]; norm_num
  have v2 : ∀ i, (holder n Unit 256 (2 ^ 8)).value i = 1 := fun i => by rw [holder_value _ _ 256 (by decide)]; norm_num
  have v3 : ∀ i, (holder n Unit 0 (2 ^ 20)).value i = 0 := fun i => by rw [holder_value _ _ 0 (by decide)]; norm_num
  have v4 : ∀ i, (holder n Unit 1048576 (2 ^ 20)).value i = 1 := fun i => by rw [holder_value _ _ 1048576 (by decide)]; norm_num
  have run : ∀ (x y : AST n Unit) (s : ℕ) (z : ℤ), x.scale = s → y.scale = s → 1 < s → s < 2 ^ 60 → (∀ i, x.value i = 0) → (∀ i, y.value i = 1) →
      (BitVec.ofNat 64 (2 ^ 16 / s)).toInt = z → (x.lt (2 ^ 16) (.enc y) T 0).val.value () = z := by
    intro x y s z hx hy h1 h60 vx vy hz
    have h := (C21_lt_any_scale (2 ^ 16) x y (hy.trans hx.symm) (by omega) (by omega) (fun i => by
      rw [vx, vy, hx]
      have : (s : ℚ) < 2 ^ 60 := by exact_mod_cast h60
      have : (0 : ℚ) ≤ s := by positivity
      unfold Fits; constructor <;> linarith) T hT 0).2
    have h2 := h.2 ()
    rw [if_pos (by rw [vx, vy]; norm_num), hx] at h2
    rw [AST.value, h2, h.1, hz]; simp
  refine ⟨T, holder n Unit 0 (2 ^ 8), holder n Unit 256 (2 ^ 8), holder n Unit 0 (2 ^ 20), holder n Unit 1048576 (2 ^ 20), hT, rfl, rfl, v1 (), v2 (), ?_, rfl, rfl, v3 (), v4 (), ?_⟩
  · exact_mod_cast run _ _ (2 ^ 8) 256 rfl rfl (by norm_num) (by norm_num) v1 v2 (by decide)
  · exact_mod_cast run _ _ (2 ^ 20) 0 rfl rfl (by norm_num) (by norm_num) v3 v4 (by decide)

/-- **C21 (`≠` at the edge).** With a number of parties other than two, if the difference of the words is the most negative word, `ne` gives 2 and `eq` gives -1. -/
theorem C21_ne_most_negative [NeZero n] {D : ℕ} (hD : 0 < D) (hn : n ≠ 2) (x y : AST n ι) (hx : StdScale D x.scale) (h : y.scale = x.scale)
    (hmin : ∀ i, reveal x.share i - reveal y.share i = BitVec.intMin 64) :
    SatX (x.ne D (.enc y)) (fun z => ∀ i, z.value i = 2) ∧ SatX (x.eq D (.enc y)) (fun z => ∀ i, z.value i = -1) := by
  have key : SatX (x.neGen D (.enc y)) fun z => z.scale = 1 ∧ ∀ i, reveal z.share i = 2 := by
    refine SatX.bind (m := x.sub y) (sub_word_same x y h (hx.pos hD)) fun d hd => ?_
    have hstd : StdScale D d.scale := by rw [hd.1]; exact hx
    refine SatX.bind (sat_ltz D hD (d.pair d.neg) hstd) fun z hz => SatX.pure ⟨hz.1, fun i => ?_⟩
    rw [reveal_sumFirst, Fintype.sum_bool, hz.2, hz.2]
    beta_reduce
    rw [reveal_pair, reveal_pair, if_pos rfl, if_neg (by simp), neg_value_word, hd.2, hmin]
    decide
  have t2 : (2 : I64).toInt = 2 := by decide
  constructor
  · unfold AST.ne; rw [dif_neg hn]
    refine key.mono fun z hz i => ?_
    rw [AST.value, hz.1, hz.2, t2]; norm_num
  · unfold AST.eq; rw [dif_neg hn]
    refine SatX.bind key fun z hz => SatX.pure fun i => ?_
    have hw : reveal z.oneMinus.share i = -1#64 := by
      rw [AST.oneMinus, AST.rsubPub, addPub_word, neg_word, hz.2]
      have : truncQ ((z.neg.scale : ℕ) * 1) = 1 := by
        show truncQ (((z.scale : ℕ) : ℚ) * 1) = 1
        rw [hz.1]; rw [Nat.cast_one, one_mul, truncQ_one]
      rw [this]; rfl
    have hs : z.oneMinus.scale = 1 := hz.1
    have : (-1#64 : I64).toInt = -1 := by decide
    rw [AST.value, hw, hs, this]; norm_num

/-! ## C23 -/

theorem value_int_range (x : AST n ι) (hs : 0 < x.scale) (i : ι) : Fits (x.scale * x.value i) := by
  rw [← word_eq_value hs]
  have h1 := toInt_ge (reveal x.share i); have h2 := toInt_lt (reveal x.share i)
  constructor
  · exact_mod_cast h1
  · exact_mod_cast h2

theorem bilinearQ_elementwise (u v : ι → ℚ) (i : ι) : bilinearQ (elementwise ι) u v i = u i * v i := by
  simp [bilinearQ, elementwise, Torch.mulOp]

/-- **C23 (`sign`).** Zero counts as positive. -/
theorem C23_sign [NeZero n] {D : ℕ} (hD : 0 < D) (x : AST n ι) (hx : StdScale D x.scale) :
    SatX (x.sign D) fun z => z.scale = 1 ∧ ∀ i, z.value i = if x.value i < 0 then -1 else 1 := by
  refine SatX.bind (sat_ltz D hD x hx) fun r hr => SatX.pure ⟨hr.1, fun i => ?_⟩
  have hw : reveal (r.mulInt 2).oneMinus.share i = BitVec.ofInt 64 (if x.value i < 0 then -1 else 1) := by
    rw [AST.oneMinus, AST.rsubPub, addPub_word, neg_word, AST.mulInt, reveal_mulInt, Pi.mul_apply, hr.2]
    have : truncQ ((AST.neg ⟨CrypTen.mulInt r.share fun _ => BitVec.ofInt 64 2, r.scale⟩).scale * 1) = 1 := by
      show truncQ (((r.scale : ℕ) : ℚ) * 1) = 1
      rw [hr.1]; rw [Nat.cast_one, one_mul, truncQ_one]
    rw [this]
    simp only [value_neg_iff (hx.pos hD)]
    by_cases h : x.value i < 0
    · simp only [h, decide_true, if_true]; rfl
    · simp only [h, decide_false, if_false]; rfl
  have hs : (r.mulInt 2).oneMinus.scale = 1 := hr.1
  rw [AST.value, hw, hs]
  split
  · have : (BitVec.ofInt 64 (-1)).toInt = -1 := by decide
    rw [this]; norm_num
  · have : (BitVec.ofInt 64 1).toInt = 1 := by decide
    rw [this]; norm_num

/-- **C23 (`abs`).** -/
theorem C23_abs [NeZero n] {D : ℕ} (hD : 0 < D) (x : AST n ι) (hx : StdScale D x.scale) (hfit : ∀ i, Fits (x.scale * |x.value i|)) :
    SatX (x.abs D) fun z => z.scale = x.scale ∧ ∀ i, z.value i = |x.value i| := by
  have e : ∀ i, x.value i * (if x.value i < 0 then -1 else 1) = |x.value i| := by
    intro i
    split
    · rename_i h; rw [abs_of_neg h]; ring
    · rename_i h; rw [abs_of_nonneg (not_lt.1 h)]; ring
  refine SatX.bind (C23_sign hD x hx) fun s hs => ?_
  refine (C56_mul_unscaled (elementwise ι) x s (hx.pos hD) (by rw [hs.1]; norm_num) (Or.inr hs.1) fun i => ?_).mono fun z hz => ⟨?_, fun i => ?_⟩
  · rw [bilinearQ_elementwise, hs.2, e, hs.1, Nat.cast_one, mul_one]; exact hfit i
  · rw [hz.1, hs.1, mul_one]
  · rw [hz.2, bilinearQ_elementwise, hs.2, e]

/-- **C23 (`relu`).** No range condition. -/
theorem C23_relu [NeZero n] {D : ℕ} (hD : 0 < D) (x : AST n ι) (hx : StdScale D x.scale) :
    SatX (x.relu D) fun z => z.scale = x.scale ∧ ∀ i, z.value i = max (x.value i) 0 := by
  have h0 : ∀ i, (Operand.pub (n := n) fun _ : ι => (0 : ℚ)).valueAt x.scale i = 0 := by
    intro i
    show (truncQ (x.scale * 0) : ℚ) / x.scale = 0
    rw [mul_zero, truncQ_zero]; simp
  have e : ∀ i, x.value i * (if 0 ≤ x.value i then 1 else 0) = max (x.value i) 0 := by
    intro i
    split
    · rename_i h; rw [max_eq_left h]; ring
    · rename_i h; rw [max_eq_right (not_le.1 h).le]; ring
  refine SatX.bind (sat_ge_bit hD x hx (.pub fun _ => 0) trivial fun i => ?_) fun g hg => ?_
  · rw [h0, sub_zero]; exact value_int_range x (hx.pos hD) i
  have hgv : ∀ i, g.value i = if 0 ≤ x.value i then 1 else 0 := by
    intro i; rw [hg.value, h0]; simp only [decide_eq_true_eq]
  refine (C56_mul_unscaled (elementwise ι) x g (hx.pos hD) (by rw [hg.1]; norm_num) (Or.inr hg.1) fun i => ?_).mono fun z hz => ⟨?_, fun i => ?_⟩
  · rw [bilinearQ_elementwise, hgv, e, hg.1, Nat.cast_one, mul_one]
    have := value_int_range x (hx.pos hD) i
    have hs : (0 : ℚ) < x.scale := by exact_mod_cast hx.pos hD
    rcases le_total 0 (x.value i) with h | h
    · rwa [max_eq_left h]
    · rw [max_eq_right h]; unfold Fits; norm_num
  · rw [hz.1, hg.1, mul_one]
  · rw [hz.2, bilinearQ_elementwise, hgv, e]

theorem value_pair (x y : AST n ι) (h : y.scale = x.scale) (b : Bool) (i : ι) : (x.pair y).value (b, i) = if b then y.value i else x.value i := by
  rw [AST.value, reveal_pair]
  show _ / (x.scale : ℚ) = _
  cases b
  · simp [AST.value]
  · simp [AST.value, h]

theorem value_reindex {κ : Type} (g : κ → ι) (x : AST n ι) (k : κ) : (x.reindex g).value k = x.value (g k) := by
  simp only [AST.value, AST.reindex, reveal_apply]

theorem subPub_value [NeZero n] (x : AST n ι) (c : ι → ℚ) (hs : 0 < x.scale) (i : ι) (hfit : Fits (x.scale * (x.value i - (truncQ (x.scale * c i) : ℚ) / x.scale))) :
    (x.subPub c).value i = x.value i - (truncQ (x.scale * c i) : ℚ) / x.scale := by
  have hs' : (x.scale : ℚ) ≠ 0 := by exact_mod_cast hs.ne'
  refine value_of_word (x := x.subPub c) hs (subPub_word x c i) ?_ hfit
  rw [Int.cast_sub, word_eq_value hs]
  show _ = (x.scale : ℚ) * (x.value i - _ / (x.scale : ℚ))
  field_simp

theorem addPub_value [NeZero n] (x : AST n ι) (c : ι → ℚ) (hs : 0 < x.scale) (i : ι) (hfit : Fits (x.scale * (x.value i + (truncQ (x.scale * c i) : ℚ) / x.scale))) :
    (x.addPub c).value i = x.value i + (truncQ (x.scale * c i) : ℚ) / x.scale := by
  have hs' : (x.scale : ℚ) ≠ 0 := by exact_mod_cast hs.ne'
  refine value_of_word (x := x.addPub c) hs (addPub_word x c i) ?_ hfit
  rw [Int.cast_add, word_eq_value hs]
  show _ = (x.scale : ℚ) * (x.value i + _ / (x.scale : ℚ))
  field_simp

/-- **C23 (`hardtanh`).** `lo'` and `hi'` are the bounds as encoded; with bounds that are multiples of `1 / scale` they are the bounds themselves. -/
theorem C23_hardtanh [NeZero n] {D : ℕ} (hD : 0 < D) (x : AST n ι) (hx : StdScale D x.scale) (lo hi lo' hi' : ℚ) (hle : lo ≤ hi)
    (hlo : lo' = (truncQ (x.scale * lo) : ℚ) / x.scale) (hhi : hi' = (truncQ (x.scale * hi) : ℚ) / x.scale)
    (hfitlo : Fits (x.scale * lo')) (hfithi : Fits (x.scale * hi')) (hfitd : Fits (x.scale * (hi' - lo')))
    (hf1 : ∀ i, Fits (x.scale * (x.value i - lo'))) (hf2 : ∀ i, Fits (x.scale * (x.value i - hi'))) :
    SatX (x.hardtanh D lo hi) fun z => z.scale = x.scale ∧ ∀ i, z.value i = max lo' (min (x.value i) hi') := by
  have hs := hx.pos hD
  have hs' : (0 : ℚ) < x.scale := by exact_mod_cast hs
  have hle' : lo' ≤ hi' := by
    rw [hlo, hhi]
    apply div_le_div_of_nonneg_right _ hs'.le
    exact_mod_cast truncQ_mono (mul_le_mul_of_nonneg_left hle hs'.le)
  have v1 : ∀ i, (x.subPub fun _ => lo).value i = x.value i - lo' := by
    intro i; rw [subPub_value x _ hs i (by rw [← hlo]; exact hf1 i), ← hlo]
  have v2 : ∀ i, (x.subPub fun _ => hi).value i = x.value i - hi' := by
    intro i; rw [subPub_value x _ hs i (by rw [← hhi]; exact hf2 i), ← hhi]
  refine SatX.bind (C23_relu hD ((x.subPub fun _ => lo).pair (x.subPub fun _ => hi)) hx) fun r hr => ?_
  have hrs : r.scale = x.scale := hr.1
  have r1 : ∀ i, (r.reindex fun i => (false, i)).value i = max (x.value i - lo') 0 := by
    intro i; rw [value_reindex, hr.2, value_pair _ _ (by rfl), if_neg (by simp), v1]
  have r2 : ∀ i, (r.reindex fun i => (true, i)).value i = max (x.value i - hi') 0 := by
    intro i; rw [value_reindex, hr.2, value_pair _ _ (by rfl), if_pos rfl, v2]
  have hclamp : ∀ i, max (x.value i - lo') 0 - max (x.value i - hi') 0 + lo' = max lo' (min (x.value i) hi') := by
    intro i
    rcases le_total (x.value i) lo' with h | h
    · rw [max_eq_right (by linarith), max_eq_right (by linarith), min_eq_left (by linarith), max_eq_left h]; ring
    · rcases le_total (x.value i) hi' with h2 | h2
      · rw [max_eq_left (by linarith), max_eq_right (by linarith), min_eq_left h2, max_eq_right h]; ring
      · rw [max_eq_left (by linarith), max_eq_left (by linarith), min_eq_right h2, max_eq_right hle']; ring
  have hd0 : ∀ i, 0 ≤ max (x.value i - lo') 0 - max (x.value i - hi') 0 ∧ max (x.value i - lo') 0 - max (x.value i - hi') 0 ≤ hi' - lo' := by
    intro i
    have := hclamp i
    have h1 : lo' ≤ max lo' (min (x.value i) hi') := le_max_left _ _
    have h2 : max lo' (min (x.value i) hi') ≤ hi' := max_le hle' (min_le_right _ _)
    constructor <;> linarith
  have hmaxs : max (r.reindex fun i : ι => (false, i)).scale (r.reindex fun i : ι => (true, i)).scale = x.scale := by
    show max r.scale r.scale = x.scale
    rw [max_self, hrs]
  refine SatX.bind (C56_sub (r.reindex fun i => (false, i)) (r.reindex fun i => (true, i)) ⟨?_, ?_, Or.inl dvd_rfl⟩ fun i => ?_) fun d hd => SatX.pure ⟨?_, fun i => ?_⟩
  · show 0 < r.scale; rw [hrs]; exact hs
  · show 0 < r.scale; rw [hrs]; exact hs
  · rw [hmaxs, r1, r2]
    unfold Fits at *
    have h3 := hd0 i
    constructor
    · have := mul_nonneg hs'.le h3.1; linarith
    · have := mul_le_mul_of_nonneg_left h3.2 hs'.le; linarith [hfitd.2]
  · show d.scale = _; rw [hd.1, hmaxs]
  · have hds : d.scale = x.scale := by rw [hd.1, hmaxs]
    have hval := hd.2 i
    rw [r1, r2] at hval
    rw [addPub_value d _ (by rw [hds]; exact hs) i ?_]
    · rw [hval, hds, ← hlo, hclamp]
    · rw [hval, hds, ← hlo, hclamp]
      unfold Fits at *
      have h1 := mul_le_mul_of_nonneg_left (le_max_left lo' (min (x.value i) hi')) hs'.le
      have h2 := mul_le_mul_of_nonneg_left (max_le hle' (min_le_right (x.value i) hi')) hs'.le
      constructor
      · linarith [hfitlo.1]
      · linarith [hfithi.2]

/-- **C23 (`where`, encrypted condition and alternative).** Exact, for bits `b` held by the condition. -/
theorem C23_where [NeZero n] (x y c : AST n ι) (b : ι → Bool) (hc : c.scale = 1) (hb : ∀ i, c.value i = if b i then 1 else 0)
    (hal : Aligned x.scale y.scale) (hfit : ∀ i, Fits ((max x.scale y.scale : ℕ) * if b i then x.value i else y.value i)) :
    SatX (x.whereEnc c y) fun z => z.scale = max x.scale y.scale ∧ ∀ i, z.value i = if b i then x.value i else y.value i := by
  have hcb : IsBit c b := by
    refine ⟨hc, fun i => ?_⟩
    have := hb i
    rw [AST.value, hc, Nat.cast_one, div_one] at this
    apply BitVec.eq_of_toInt_eq
    rw [boolI64_toInt]
    exact_mod_cast this
  have hb' := hcb.oneMinus
  have e1 : ∀ i, c.oneMinus.value i * y.value i = if b i then 0 else y.value i := by
    intro i; rw [hb'.value]; cases b i <;> simp
  have e2 : ∀ i, x.value i * c.value i = if b i then x.value i else 0 := by
    intro i; rw [hcb.value]; cases b i <;> simp
  have f0 : Fits 0 := by unfold Fits; norm_num
  refine SatX.bind (C56_mul_unscaled (elementwise ι) c.oneMinus y (by rw [hb'.1]; norm_num) hal.2.1 (Or.inl hb'.1) fun i => ?_) fun ym hym => ?_
  · rw [bilinearQ_elementwise, e1, hb'.1, Nat.cast_one, one_mul]
    split
    · rw [mul_zero]; exact f0
    · exact value_int_range y hal.2.1 i
  refine SatX.bind (C56_mul_unscaled (elementwise ι) x c hal.1 (by rw [hc]; norm_num) (Or.inr hc) fun i => ?_) fun xm hxm => ?_
  · rw [bilinearQ_elementwise, e2, hc, Nat.cast_one, mul_one]
    split
    · exact value_int_range x hal.1 i
    · rw [mul_zero]; exact f0
  have s1 : ym.scale = y.scale := by rw [hym.1, hb'.1, one_mul]
  have s2 : xm.scale = x.scale := by rw [hxm.1, hc, mul_one]
  have hsum : ∀ i, xm.value i + ym.value i = if b i then x.value i else y.value i := by
    intro i
    rw [hxm.2, hym.2, bilinearQ_elementwise, bilinearQ_elementwise, e1, e2]
    cases b i <;> simp
  refine (C56_add xm ym (by rw [s1, s2]; exact hal) fun i => ?_).mono fun z hz => ⟨by rw [hz.1, s1, s2], fun i => by rw [hz.2, hsum]⟩
  rw [s1, s2, hsum]; exact hfit i

/-- **C23 (`where`, encrypted condition, public alternative: characterisation).** The public alternative is rounded to an integer. -/
theorem C23_where_public_alternative_partial [NeZero n] (x c : AST n ι) (y : ι → ℚ) (b : ι → Bool) (hc : c.scale = 1) (hb : ∀ i, c.value i = if b i then 1 else 0)
    (hx : 0 < x.scale) (hy : ∀ i, |y i| < 2 ^ 63) (hfit : ∀ i, Fits (x.scale * if b i then x.value i else (truncQ (y i) : ℚ))) :
    SatX (x.whereEncPub c y) fun z => z.scale = x.scale ∧ ∀ i, z.value i = if b i then x.value i else (truncQ (y i) : ℚ) := by
  have hcb : IsBit c b := by
    refine ⟨hc, fun i => ?_⟩
    have := hb i
    rw [AST.value, hc, Nat.cast_one, div_one] at this
    apply BitVec.eq_of_toInt_eq
    rw [boolI64_toInt]
    exact_mod_cast this
  have hb' := hcb.oneMinus
  have e2 : ∀ i, x.value i * c.value i = if b i then x.value i else 0 := by
    intro i; rw [hcb.value]; cases b i <;> simp
  have f0 : Fits 0 := by unfold Fits; norm_num
  have hpub : SatX (AST.mulPub (elementwise ι) c.oneMinus y) fun ym => ym.scale = 1 ∧ ∀ i, ym.value i = if b i then 0 else (truncQ (y i) : ℚ) := by
    unfold AST.mulPub
    simp only
    rw [if_neg (by rw [hb'.1]; norm_num)]
    refine SatX.pure ⟨hb'.1, fun i => ?_⟩
    rw [AST.value]
    have hw : reveal (bilinearPublic (elementwise ι) c.oneMinus.share (encodePublic c.oneMinus.scale y)) i = BitVec.ofInt 64 (if b i then 0 else truncQ (y i)) := by
      rw [reveal_bilinearPublic]
      simp only [BilinearOp.apply, elementwise, Torch.mulOp, List.map_cons, List.map_nil, List.sum_cons, List.sum_nil, id, add_zero]
      rw [hb'.2, encodePublic_ofInt, hb'.1, Nat.cast_one, one_mul]
      beta_reduce
      cases b i
      · exact BitVec.one_mul _
      · exact BitVec.zero_mul
    have hr := truncQ_range (hy i)
    rw [hw, hb'.1]
    cases b i
    · simp only [Bool.false_eq_true, if_false]; rw [toInt_ofInt64 hr.1 hr.2]; simp
    · simp
  refine SatX.bind hpub fun ym hym => ?_
  refine SatX.bind (C56_mul_unscaled (elementwise ι) x c hx (by rw [hc]; norm_num) (Or.inr hc) fun i => ?_) fun xm hxm => ?_
  · rw [bilinearQ_elementwise, e2, hc, Nat.cast_one, mul_one]
    split
    · exact value_int_range x hx i
    · rw [mul_zero]; exact f0
  have s2 : xm.scale = x.scale := by rw [hxm.1, hc, mul_one]
  have hmax : max xm.scale ym.scale = x.scale := by rw [s2, hym.1]; exact max_eq_left hx
  have hsum : ∀ i, xm.value i + ym.value i = if b i then x.value i else (truncQ (y i) : ℚ) := by
    intro i
    rw [hxm.2, hym.2, bilinearQ_elementwise, e2]
    cases b i <;> simp
  refine (C56_add xm ym (by rw [s2, hym.1]; exact ⟨hx, Nat.one_pos, Or.inr (one_dvd _)⟩) fun i => ?_).mono fun z hz => ⟨by rw [hz.1, hmax], fun i => by rw [hz.2, hsum]⟩
  rw [hmax, hsum]; exact hfit i

/-- **C23 is false for a public alternative with an encrypted condition**: `where(cond, x, 0.5)` gives 0 where the condition is false. -/
theorem C23_where_public_alternative_wrong (n : ℕ) [NeZero n] : ∃ (T : Tuples n) (x c : AST n Unit), T.Valid ∧ x.scale = 2 ^ 16 ∧ x.value () = 3 ∧
    c.scale = 1 ∧ c.value () = 0 ∧ (x.whereEncPub c (fun _ => 1 / 2) T 0).val.value () = 0 := by
  obtain ⟨T, hT, -⟩ := tuples_exist n
  have e1 : ∀ (v : I64), reveal (n := n) (fun p (_ : Unit) => if p = 0 then v else 0) () = v := by
    intro v; rw [reveal_apply, Finset.sum_ite_eq' Finset.univ (0 : Fin n) fun _ => v]; simp
  have hx : (⟨fun p _ => if p = 0 then 196608 else 0, 2 ^ 16⟩ : AST n Unit).value () = 3 := by
    have t : (196608 : I64).toInt = 196608 := by decide
    rw [AST.value, e1, t]; norm_num
  have hc : (⟨fun p _ => if p = 0 then 0 else 0, 1⟩ : AST n Unit).value () = 0 := by
    have t : (0 : I64).toInt = 0 := by decide
    rw [AST.value, e1, t]; norm_num
  have ht : truncQ (1 / 2) = 0 := by unfold truncQ; norm_num
  refine ⟨T, ⟨fun p _ => if p = 0 then 196608 else 0, 2 ^ 16⟩, ⟨fun p _ => if p = 0 then 0 else 0, 1⟩, hT, rfl, hx, rfl, hc, ?_⟩
  have h := (C23_where_public_alternative_partial (⟨fun p _ => if p = 0 then 196608 else 0, 2 ^ 16⟩ : AST n Unit) ⟨fun p _ => if p = 0 then 0 else 0, 1⟩
    (fun _ => 1 / 2) (fun _ => false) rfl (fun i => by rw [hc]; simp) (by norm_num) (fun _ => by norm_num [abs_lt])
    (fun i => by rw [ht]; unfold Fits; norm_num) T hT 0).2
  have h2 := h.2 ()
  rw [ht] at h2
  simpa using h2

/-- **C23 (`where`, public condition).** Both products are rescaled, so the selected value is exact up to `2n` units in the last place. -/
theorem C23_where_public_condition [NeZero n] (hn : n < 2 ^ 60) (x y : AST n ι) (b : ι → Bool) (k : ℕ) (hk : 0 < k) (hk' : k ≤ 62) (hx : x.scale = 2 ^ k) (hy : y.scale = 2 ^ k)
    (hfx : ∀ i, Fits (2 ^ k * 2 ^ k * x.value i)) (hfy : ∀ i, Fits (2 ^ k * 2 ^ k * y.value i))
    (hroom : ∀ i, |2 ^ k * if b i then x.value i else y.value i| ≤ 2 ^ 62) :
    Sat (x.wherePub b y) fun z => z.scale = 2 ^ k ∧ ∀ i, |z.value i - if b i then x.value i else y.value i| < 2 * n / 2 ^ k := by
  have hP : (0 : ℚ) < 2 ^ k := by positivity
  have hPne : (2 : ℚ) ^ k ≠ 0 := hP.ne'
  have hlt : (2 : ℚ) ^ k < 2 ^ 63 := pow_lt_pow_right₀ (by norm_num) (by omega)
  have f0 : Fits 0 := by unfold Fits; norm_num
  have key : ∀ (x : AST n ι) (b : ι → Bool), x.scale = 2 ^ k → (∀ i, Fits (2 ^ k * 2 ^ k * x.value i)) →
      Sat (AST.mulPub (elementwise ι) x fun i => if b i then 1 else 0) fun z => z.scale = 2 ^ k ∧ ∀ i, |z.value i - if b i then x.value i else 0| < n / 2 ^ k := by
    intro x b hx hfx
    have hxq : (x.scale : ℚ) = 2 ^ k := by rw [hx]; push_cast; rfl
    have et : ∀ i, (truncQ ((2 : ℚ) ^ k * if b i then 1 else 0) : ℚ) / 2 ^ k = if b i then 1 else 0 := by
      intro i
      cases b i
      · simp [truncQ_zero]
      · have : truncQ ((2 : ℚ) ^ k * 1) = 2 ^ k := by
          have := truncQ_intCast (2 ^ k); push_cast at this; rw [mul_one]; exact this
        simp only [if_true]; rw [this]; push_cast; field_simp
    have eb : ∀ i, bilinearQ (elementwise ι) x.value (fun i => if b i then 1 else 0) i = if b i then x.value i else 0 := by
      intro i; rw [bilinearQ_elementwise]; cases b i <;> simp
    have h := C56_mul_public hn (elementwise ι) x (fun i => if b i then 1 else 0) k hk hk' hx (by
      intro i; rw [hxq]; cases b i
      · simp
      · simp only [if_true, mul_one]; rw [abs_of_pos hP]; exact hlt)
    simp only [hxq, et, eb] at h
    refine (h ?_).mono fun z hz => ⟨hz.1.trans hx, hz.2⟩
    intro i
    split
    · exact hfx i
    · rw [mul_zero]; exact f0
  have e : ∀ i, (if b i then (0 : ℚ) else 1) = if (!b i) then 1 else 0 := by intro i; cases b i <;> rfl
  unfold AST.wherePub
  simp only [e]
  refine Sat.bind (key y (fun i => !b i) hy hfy) fun ym hym => Sat.bind (key x b hx hfx) fun xm hxm => ?_
  have hsum : ∀ i, |xm.value i + ym.value i - if b i then x.value i else y.value i| < 2 * n / 2 ^ k := by
    intro i
    have h1 := hxm.2 i; have h2 := hym.2 i
    have e3 : xm.value i + ym.value i - (if b i then x.value i else y.value i)
      = (xm.value i - if b i then x.value i else 0) + (ym.value i - if (!b i) then y.value i else 0) := by cases b i <;> simp <;> ring
    rw [e3]
    refine lt_of_le_of_lt (abs_add_le _ _) ?_
    have e4 : (2 * n / 2 ^ k : ℚ) = n / 2 ^ k + n / 2 ^ k := by ring
    rw [e4]; exact add_lt_add h1 h2
  have hmax : max xm.scale ym.scale = 2 ^ k := by rw [hxm.1, hym.1, max_self]
  refine ((C56_add xm ym (by rw [hxm.1, hym.1]; exact ⟨Nat.two_pow_pos k, Nat.two_pow_pos k, Or.inl dvd_rfl⟩) fun i => ?_).mono fun z hz => ⟨by rw [hz.1, hmax], fun i => by rw [hz.2]; exact hsum i⟩).sat
  rw [hmax]
  have h1 := hsum i
  have h2 := hroom i
  have hn' : (n : ℚ) < 2 ^ 60 := by exact_mod_cast hn
  push_cast
  rw [abs_lt] at h1
  rw [abs_le] at h2
  generalize (if b i then x.value i else y.value i) = v at *
  have h3 : 2 ^ k * (xm.value i + ym.value i - v) < 2 * n := by
    have := mul_lt_mul_of_pos_left h1.2 hP
    rwa [mul_div_cancel₀ _ hPne] at this
  have h4 : -(2 * n) < 2 ^ k * (xm.value i + ym.value i - v) := by
    have := mul_lt_mul_of_pos_left h1.1 hP
    rwa [mul_neg, mul_div_cancel₀ _ hPne] at this
  unfold Fits
  constructor <;> nlinarith

/-- The hypotheses of C21 and C23 hold for example for -2.5 (default precision) against 3 (a scale-1 tensor) and against the public number 0.25, for every
number of parties; `lt` then gives 1 both times. -/
example (n : ℕ) [NeZero n] : ∃ (T : Tuples n) (x y : AST n Unit), T.Valid ∧ x.value () = -5 / 2 ∧ x.scale = 2 ^ 16 ∧ y.value () = 3 ∧ y.scale = 1 ∧
    (x.lt (2 ^ 16) (.enc y) T 0).val.value () = 1 ∧ (x.lt (2 ^ 16) (.pub fun _ => 1 / 4) T 0).val.value () = 1 := by
  obtain ⟨T, hT, -⟩ := tuples_exist n
  have vx : ∀ i, (holder n Unit (-163840) (2 ^ 16)).value i = -5 / 2 := fun i => by rw [holder_value _ _ (-163840) (by decide)]; norm_num
  have vy : ∀ i, (holder n Unit 3 1).value i = 3 := fun i => by rw [holder_value _ _ 3 (by decide)]; norm_num
  have vp : ∀ i, (Operand.pub (n := n) fun _ : Unit => (1 / 4 : ℚ)).valueAt (2 ^ 16) i = 1 / 4 := by
    intro i
    show (truncQ (((2 ^ 16 : ℕ) : ℚ) * (1 / 4)) : ℚ) / ((2 ^ 16 : ℕ) : ℚ) = 1 / 4
    have : truncQ (((2 ^ 16 : ℕ) : ℚ) * (1 / 4)) = 16384 := by
      have h := truncQ_intCast 16384
      rw [← h]; congr 1; norm_num
    rw [this]; norm_num
  refine ⟨T, holder n Unit (-163840) (2 ^ 16), holder n Unit 3 1, hT, vx (), rfl, vy (), rfl, ?_, ?_⟩
  · have h := (C21_lt_partial (D := 2 ^ 16) (by norm_num) (holder n Unit (-163840) (2 ^ 16)) (Or.inr rfl) (.enc (holder n Unit 3 1)) (Or.inl rfl) (fun i => by
      show Fits ((max (2 ^ 16) 1 : ℕ) * (_ - (holder n Unit 3 1).value i)); rw [vx, vy]; unfold Fits; norm_num) T hT 0).2
    rw [h.2 ()]
    show (if (holder n Unit (-163840) (2 ^ 16)).value () < (holder n Unit 3 1).value () then (1 : ℚ) else 0) = 1
    rw [vx, vy]; norm_num
  · have h := (C21_lt_partial (D := 2 ^ 16) (by norm_num) (holder n Unit (-163840) (2 ^ 16)) (Or.inr rfl) (.pub fun _ => 1 / 4) trivial (fun i => by
      show Fits ((2 ^ 16 : ℕ) * (_ - (Operand.pub (n := n) fun _ : Unit => (1 / 4 : ℚ)).valueAt (2 ^ 16) i)); rw [vx, vp]; unfold Fits; norm_num) T hT 0).2
    rw [h.2 ()]
    show (if (holder n Unit (-163840) (2 ^ 16)).value () < (Operand.pub (n := n) fun _ : Unit => (1 / 4 : ℚ)).valueAt (2 ^ 16) () then (1 : ℚ) else 0) = 1
    rw [vx, vp]; norm_num

end CrypTen

import Verif.Model.ArithFunc
import Verif.Spec.Value
import Verif.Props.Convert
import Verif.Props.Encoder
import Mathlib.Data.Nat.Cast.Field

/-!
# C56: operands with different scales
-/

namespace CrypTen
variable {n : ℕ} {ι ι' κ : Type}

theorem toInt_of_fits {a : I64} {z : ℤ} (ha : a = BitVec.ofInt 64 z) (hz : Fits z) : a.toInt = z := by
  obtain ⟨h1, h2⟩ := hz
  rw [ha]
  exact toInt_ofInt64 (by exact_mod_cast h1) (by exact_mod_cast h2)

/-- A tensor whose word is congruent to `scale * v` has value `v`, if that fits. -/
theorem value_of_word {x : AST n ι} {i : ι} {z : ℤ} {v : ℚ} (hs : 0 < x.scale) (hz : reveal x.share i = BitVec.ofInt 64 z)
    (hv : (z : ℚ) = x.scale * v) (hfit : Fits (x.scale * v)) : x.value i = v := by
  have : (reveal x.share i).toInt = z := toInt_of_fits hz (hv ▸ hfit)
  have hs' : (x.scale : ℚ) ≠ 0 := by exact_mod_cast hs.ne'
  rw [AST.value, this, hv]; field_simp

theorem word_eq_value {x : AST n ι} (hs : 0 < x.scale) (i : ι) : ((reveal x.share i).toInt : ℚ) = x.scale * x.value i := by
  have hs' : (x.scale : ℚ) ≠ 0 := by exact_mod_cast hs.ne'
  rw [AST.value]; field_simp

theorem sat_encodeTo_up [NeZero n] (s : ℕ) (x : AST n ι) (hs : x.scale ≤ s) (hx : 0 < x.scale) :
    SatX (x.encodeTo s) fun z => z.scale = s ∧ ∀ i, reveal z.share i = BitVec.ofInt 64 ((reveal x.share i).toInt * (s / x.scale : ℕ)) := by
  unfold AST.encodeTo
  split
  · rename_i h
    refine SatX.pure ⟨h, fun i => ?_⟩
    rw [← h, Nat.div_self hx, Nat.cast_one, mul_one, ofInt_toInt]
  · rw [if_pos (by omega)]
    refine SatX.pure ⟨rfl, fun i => ?_⟩
    rw [reveal_mulInt, Pi.mul_apply, ofInt_mul64, ofInt_toInt]
    congr 1

/-- Sum at the level of words, for all scales. -/
theorem sat_add_word [NeZero n] (x y : AST n ι) (hx : 0 < x.scale) (hy : 0 < y.scale) :
    SatX (x.add y) fun z => z.scale = max x.scale y.scale ∧ ∀ i, reveal z.share i = BitVec.ofInt 64
      ((reveal x.share i).toInt * (max x.scale y.scale / x.scale : ℕ) + (reveal y.share i).toInt * (max x.scale y.scale / y.scale : ℕ)) := by
  unfold AST.add
  split
  · rename_i h
    refine SatX.bind (sat_encodeTo_up x.scale y h.le hy) fun y' h' => SatX.pure ⟨(max_eq_left h.le).symm, fun i => ?_⟩
    rw [max_eq_left h.le, Nat.div_self hx, Nat.cast_one, mul_one, reveal_addShares, Pi.add_apply, h'.2, ofInt_add64, ofInt_toInt]
  · split
    · rename_i h
      refine SatX.bind (sat_encodeTo_up y.scale x h.le hx) fun x' h' => SatX.pure ⟨(max_eq_right h.le).symm, fun i => ?_⟩
      rw [max_eq_right h.le, Nat.div_self hy, Nat.cast_one, mul_one, reveal_addShares, Pi.add_apply, h'.2, ofInt_add64, ofInt_toInt]
    · have h : x.scale = y.scale := by omega
      refine SatX.pure ⟨by rw [← h, max_self], fun i => ?_⟩
      rw [h, max_self, Nat.div_self hy, Nat.cast_one, mul_one, mul_one, reveal_addShares, Pi.add_apply, ofInt_add64, ofInt_toInt, ofInt_toInt]

/-- Difference at the level of words, for all scales. -/
theorem sat_sub_word [NeZero n] (x y : AST n ι) (hx : 0 < x.scale) (hy : 0 < y.scale) :
    SatX (x.sub y) fun z => z.scale = max x.scale y.scale ∧ ∀ i, reveal z.share i = BitVec.ofInt 64
      ((reveal x.share i).toInt * (max x.scale y.scale / x.scale : ℕ) - (reveal y.share i).toInt * (max x.scale y.scale / y.scale : ℕ)) := by
  unfold AST.sub
  split
  · rename_i h
    refine SatX.bind (sat_encodeTo_up x.scale y h.le hy) fun y' h' => SatX.pure ⟨(max_eq_left h.le).symm, fun i => ?_⟩
    rw [max_eq_left h.le, Nat.div_self hx, Nat.cast_one, mul_one, reveal_subShares, Pi.sub_apply, h'.2, ofInt_sub64, ofInt_toInt]
  · split
    · rename_i h
      refine SatX.bind (sat_encodeTo_up y.scale x h.le hx) fun x' h' => SatX.pure ⟨(max_eq_right h.le).symm, fun i => ?_⟩
      rw [max_eq_right h.le, Nat.div_self hy, Nat.cast_one, mul_one, reveal_subShares, Pi.sub_apply, h'.2, ofInt_sub64, ofInt_toInt]
    · have h : x.scale = y.scale := by omega
      refine SatX.pure ⟨by rw [← h, max_self], fun i => ?_⟩
      rw [h, max_self, Nat.div_self hy, Nat.cast_one, mul_one, mul_one, reveal_subShares, Pi.sub_apply, ofInt_sub64, ofInt_toInt, ofInt_toInt]

/-- One of the two scales divides the other (all scales the library creates are powers of two). -/
def Aligned (a b : ℕ) : Prop := 0 < a ∧ 0 < b ∧ (a ∣ b ∨ b ∣ a)

theorem Aligned.dvd_max {a b : ℕ} (h : Aligned a b) : a ∣ max a b ∧ b ∣ max a b := by
  obtain ⟨ha, hb, h | h⟩ := h
  · rw [max_eq_right (Nat.le_of_dvd hb h)]; exact ⟨h, dvd_rfl⟩
  · rw [max_eq_left (Nat.le_of_dvd ha h)]; exact ⟨dvd_rfl, h⟩

theorem scaled_value {x : AST n ι} (hx : 0 < x.scale) {S : ℕ} (h : x.scale ∣ S) (i : ι) :
    (((reveal x.share i).toInt * (S / x.scale : ℕ) : ℤ) : ℚ) = S * x.value i := by
  have hs' : (x.scale : ℚ) ≠ 0 := by exact_mod_cast hx.ne'
  rw [Int.cast_mul, Int.cast_natCast, Nat.cast_div h hs', word_eq_value hx]
  field_simp

/-- **C56 (sum).** Two encrypted tensors of different scale: the sum has the larger scale and the exact value, if it fits. -/
theorem C56_add [NeZero n] (x y : AST n ι) (h : Aligned x.scale y.scale) (hfit : ∀ i, Fits ((max x.scale y.scale : ℕ) * (x.value i + y.value i))) :
    SatX (x.add y) fun z => z.scale = max x.scale y.scale ∧ ∀ i, z.value i = x.value i + y.value i := by
  refine (sat_add_word x y h.1 h.2.1).mono fun z hz => ⟨hz.1, fun i => ?_⟩
  have h1 : 0 < max x.scale y.scale := lt_of_lt_of_le h.1 (le_max_left _ _)
  refine value_of_word (by rw [hz.1]; exact h1) (hz.2 i) ?_ (by rw [hz.1]; exact hfit i)
  rw [Int.cast_add, scaled_value h.1 h.dvd_max.1, scaled_value h.2.1 h.dvd_max.2, hz.1]; ring

/-- **C56 (difference).** -/
theorem C56_sub [NeZero n] (x y : AST n ι) (h : Aligned x.scale y.scale) (hfit : ∀ i, Fits ((max x.scale y.scale : ℕ) * (x.value i - y.value i))) :
    SatX (x.sub y) fun z => z.scale = max x.scale y.scale ∧ ∀ i, z.value i = x.value i - y.value i := by
  refine (sat_sub_word x y h.1 h.2.1).mono fun z hz => ⟨hz.1, fun i => ?_⟩
  have h1 : 0 < max x.scale y.scale := lt_of_lt_of_le h.1 (le_max_left _ _)
  refine value_of_word (by rw [hz.1]; exact h1) (hz.2 i) ?_ (by rw [hz.1]; exact hfit i)
  rw [Int.cast_sub, scaled_value h.1 h.dvd_max.1, scaled_value h.2.1 h.dvd_max.2, hz.1]; ring

/-- The word a public number is encoded as. -/
theorem encodePublic_ofInt (s : ℕ) (y : ι → ℚ) (i : ι) : encodePublic s y i = BitVec.ofInt 64 (truncQ (s * y i)) := rfl

theorem addPub_word [NeZero n] (x : AST n ι) (y : ι → ℚ) (i : ι) :
    reveal (x.addPub y).share i = BitVec.ofInt 64 ((reveal x.share i).toInt + truncQ (x.scale * y i)) := by
  rw [AST.addPub, reveal_addPublic, Pi.add_apply, encodePublic_ofInt, ofInt_add64, ofInt_toInt]

theorem subPub_word [NeZero n] (x : AST n ι) (y : ι → ℚ) (i : ι) :
    reveal (x.subPub y).share i = BitVec.ofInt 64 ((reveal x.share i).toInt - truncQ (x.scale * y i)) := by
  rw [AST.subPub, reveal_subPublic, Pi.sub_apply, encodePublic_ofInt, ofInt_sub64, ofInt_toInt]

theorem neg_word (x : AST n ι) (i : ι) : reveal x.neg.share i = BitVec.ofInt 64 (-(reveal x.share i).toInt) := by
  rw [AST.neg, reveal_negShares, Pi.neg_apply]
  have := ofInt_sub64 0 (reveal x.share i).toInt
  rw [zero_sub, ofInt_toInt] at this
  rw [this]; exact (zero_sub (reveal x.share i)).symm

/-- **C56 (sum with public numbers).** The error is that of encoding the public number: less than one unit in the last place. -/
theorem C56_add_public [NeZero n] (x : AST n ι) (y : ι → ℚ) (hx : 0 < x.scale) (i : ι)
    (hfit : Fits (x.scale * x.value i + truncQ (x.scale * y i))) :
    (x.addPub y).scale = x.scale ∧ |(x.addPub y).value i - (x.value i + y i)| < 1 / x.scale := by
  refine ⟨rfl, ?_⟩
  have hs : (0 : ℚ) < x.scale := by exact_mod_cast hx
  have hz : (reveal (x.addPub y).share i).toInt = (reveal x.share i).toInt + truncQ (x.scale * y i) := by
    refine toInt_of_fits (addPub_word x y i) ?_
    rw [Int.cast_add, word_eq_value hx]; exact hfit
  have hb := (truncQ_bounds (x.scale * y i)).1
  have e : (x.addPub y).value i - (x.value i + y i) = ((truncQ (x.scale * y i) : ℚ) - x.scale * y i) / x.scale := by
    rw [AST.value, hz, Int.cast_add, word_eq_value hx]
    show _ / (x.scale : ℚ) - _ = _
    field_simp; ring
  rw [e, abs_div, abs_of_pos hs]
  exact div_lt_div_of_pos_right hb hs

/-! ## Division -/

/-- Division of a shared tensor by a power of two, for every number of parties. -/
theorem sat_divInt_pow2 [NeZero n] (hn : n < 2 ^ 60) (x : Shares n ι) (k : ℕ) (hk : k ≤ 62) :
    Sat (Proto.divInt x fun _ => ((2 ^ k : ℕ) : ℤ)) fun z => ∀ i, |2 ^ k * (reveal z i).toInt - (reveal x i).toInt| ≤ n * (2 ^ k - 1) := by
  intro T hT c hg i
  have hpos : (0 : ℤ) < 2 ^ k := by positivity
  have hlt : (2 : ℤ) ^ k < 2 ^ 63 := pow_lt_pow_right₀ (by norm_num) (by omega)
  have hcast : (((2 : ℕ) ^ k : ℕ) : ℤ) = 2 ^ k := by push_cast; rfl
  have hgood : DivGood (T.wrap c ι) x i := hg i
  have key : ∃ v : ℤ, reveal (divInt (T.wrap c ι) x fun _ => ((2 ^ k : ℕ) : ℤ)) i = BitVec.ofInt 64 v ∧ |2 ^ k * v - (reveal x i).toInt| ≤ n * (2 ^ k - 1) := by
    simp only [hcast]
    unfold DivGood at hgood
    split at hgood
    · rename_i h2
      exact C15_truncation_power_of_two_partial h2 _ (hT.wrap c ι) x k hk i hgood.1 hgood.2
    · rename_i h2
      refine ⟨∑ p, (x p i).toInt.tdiv (2 ^ k), ?_, ?_⟩
      · rw [divInt, if_neg h2, reveal_apply, ofInt_sum]
        exact Finset.sum_congr rfl fun p _ => tdivI64_ofInt _ hpos hlt
      · rw [← hgood, Finset.mul_sum, ← Finset.sum_sub_distrib]
        refine (Finset.abs_sum_le_sum_abs _ _).trans ?_
        have : ∀ p ∈ Finset.univ, |2 ^ k * (x p i).toInt.tdiv (2 ^ k) - (x p i).toInt| ≤ (2 : ℤ) ^ k - 1 := by
          intro p _
          have h1 := Int.mul_tdiv_add_tmod (x p i).toInt (2 ^ k)
          have h2 := Int.tmod_lt_of_pos (x p i).toInt hpos
          have h3 := Int.lt_tmod_of_pos (x p i).toInt hpos
          rw [abs_le]; constructor <;> linarith
        refine (Finset.sum_le_card_nsmul _ _ _ this).trans ?_
        simp
  obtain ⟨v, hv, hb⟩ := key
  have hX1 := toInt_ge (reveal x i)
  have hX2 := toInt_lt (reveal x i)
  have hv' : (reveal (divInt (T.wrap c ι) x fun _ => ((2 ^ k : ℕ) : ℤ)) i).toInt = v := by
    rw [hv]
    rw [abs_le] at hb
    rcases Nat.eq_zero_or_pos k with h0 | h0
    · subst h0
      apply toInt_ofInt64 <;> simp at hb <;> omega
    · have h2k : (2 : ℤ) ≤ 2 ^ k := by
        calc (2 : ℤ) = 2 ^ 1 := by norm_num
          _ ≤ 2 ^ k := pow_le_pow_right₀ (by norm_num) h0
      have hn' : (n : ℤ) < 2 ^ 60 := by exact_mod_cast hn
      generalize (2 : ℤ) ^ k = P at *
      apply toInt_ofInt64
      · by_contra hcon
        push Not at hcon
        nlinarith
      · by_contra hcon
        push Not at hcon
        nlinarith
  show |2 ^ k * (reveal (divInt (T.wrap c ι) x fun _ => ((2 ^ k : ℕ) : ℤ)) i).toInt - _| ≤ _
  rw [hv']; exact hb

/-- **C56 (`encode_as`, to a larger scale).** Exact, if the result fits. -/
theorem C56_encode_up [NeZero n] (s : ℕ) (x : AST n ι) (hx : 0 < x.scale) (hd : x.scale ∣ s) (hs : 0 < s) (hfit : ∀ i, Fits (s * x.value i)) :
    SatX (x.encodeTo s) fun z => z.scale = s ∧ ∀ i, z.value i = x.value i := by
  refine (sat_encodeTo_up s x (Nat.le_of_dvd hs hd) hx).mono fun z hz => ⟨hz.1, fun i => ?_⟩
  refine value_of_word (by rw [hz.1]; exact hs) (hz.2 i) ?_ (by rw [hz.1]; exact hfit i)
  rw [scaled_value hx hd, hz.1]

/-- **C56 (`encode_as`, to a smaller scale).** The error is less than `n` units in the last place of the new scale. -/
theorem C56_encode_down [NeZero n] (hn : n < 2 ^ 60) (k l : ℕ) (hlk : l < k) (hk : k ≤ 62) (x : AST n ι) (hx : x.scale = 2 ^ k) :
    Sat (x.encodeTo (2 ^ l)) fun z => z.scale = 2 ^ l ∧ ∀ i, |z.value i - x.value i| < n / 2 ^ l := by
  have hlt : (2 : ℕ) ^ l < 2 ^ k := Nat.pow_lt_pow_right (by norm_num) hlk
  unfold AST.encodeTo
  rw [if_neg (by omega), if_neg (by omega), hx, Nat.pow_div hlk.le (by norm_num)]
  refine Sat.bind (sat_divInt_pow2 hn x.share (k - l) (by omega)) fun s hs => Sat.pure ⟨rfl, fun i => ?_⟩
  have h := hs i
  have e : (2 : ℚ) ^ k = 2 ^ (k - l) * 2 ^ l := by rw [← pow_add]; congr 1; omega
  have hl : (0 : ℚ) < 2 ^ l := by positivity
  have hkl : (0 : ℚ) < 2 ^ (k - l) := by positivity
  have hn0 : (0 : ℚ) < n := by exact_mod_cast Nat.pos_of_neZero n
  have h' : |2 ^ (k - l) * ((reveal s i).toInt : ℚ) - ((reveal x.share i).toInt : ℚ)| ≤ n * (2 ^ (k - l) - 1) := by exact_mod_cast h
  show |((reveal s i).toInt : ℚ) / ((2 ^ l : ℕ) : ℚ) - _| < _
  rw [AST.value, hx]
  push_cast
  rw [e]
  have e2 : ((reveal s i).toInt : ℚ) / 2 ^ l - ((reveal x.share i).toInt : ℚ) / (2 ^ (k - l) * 2 ^ l)
      = (2 ^ (k - l) * ((reveal s i).toInt : ℚ) - ((reveal x.share i).toInt : ℚ)) / (2 ^ (k - l) * 2 ^ l) := by
    field_simp
  rw [e2, abs_div, abs_of_pos (mul_pos hkl hl), div_lt_div_iff₀ (mul_pos hkl hl) hl]
  nlinarith [mul_pos hn0 hl]

/-- Three parties hold 16-bit encodings; re-encoding with 8 bits is covered. -/
example (x : AST 3 Unit) (hx : x.scale = 2 ^ 16) :
    Sat (x.encodeTo (2 ^ 8)) fun z => z.scale = 2 ^ 8 ∧ ∀ i, |z.value i - x.value i| < 3 / 2 ^ 8 :=
  C56_encode_down (by norm_num) 16 8 (by norm_num) (by norm_num) x hx

/-! ## Products -/

/-- The integer a bilinear function computes from the revealed words. -/
def bilinearZ (B : BilinearOp ι ι' κ) (x : ι → ℤ) (y : ι' → ℤ) (k : κ) : ℤ := ((B k).map fun ij => x ij.1 * y ij.2).sum

theorem apply_ofInt (B : BilinearOp ι ι' κ) (x : Tensor ι) (y : Tensor ι') (k : κ) :
    B.apply x y k = BitVec.ofInt 64 (bilinearZ B (fun i => (x i).toInt) (fun i => (y i).toInt) k) := by
  unfold BilinearOp.apply bilinearZ
  induction B k with
  | nil => rfl
  | cons a l ih =>
    rw [List.map_cons, List.sum_cons, List.map_cons, List.sum_cons, ofInt_add64, ofInt_mul64, ofInt_toInt, ofInt_toInt, ih]

theorem bilinearZ_value (B : BilinearOp ι ι' κ) (x : ι → ℤ) (y : ι' → ℤ) (u : ι → ℚ) (v : ι' → ℚ) (a b : ℚ)
    (hx : ∀ i, (x i : ℚ) = a * u i) (hy : ∀ i, (y i : ℚ) = b * v i) (k : κ) : (bilinearZ B x y k : ℚ) = a * b * bilinearQ B u v k := by
  unfold bilinearZ bilinearQ
  induction B k with
  | nil => simp
  | cons c l ih =>
    rw [List.map_cons, List.sum_cons, List.map_cons, List.sum_cons, Int.cast_add, ih, Int.cast_mul, hx, hy]; ring

/-- **C56 (product, one operand unscaled).** Exact: no truncation takes place. -/
theorem C56_mul_unscaled [NeZero n] (B : BilinearOp ι ι' κ) (x : AST n ι) (y : AST n ι') (hx : 0 < x.scale) (hy : 0 < y.scale)
    (h1 : x.scale = 1 ∨ y.scale = 1) (hfit : ∀ k, Fits (x.scale * y.scale * bilinearQ B x.value y.value k)) :
    SatX (AST.mul B x y) fun z => z.scale = x.scale * y.scale ∧ ∀ k, z.value k = bilinearQ B x.value y.value k := by
  refine SatX.bind (sat_mul B x.share y.share) fun s hs => ?_
  have hword : ∀ k, reveal s k = BitVec.ofInt 64 (bilinearZ B (fun i => (reveal x.share i).toInt) (fun i => (reveal y.share i).toInt) k) :=
    fun k => by rw [hs, apply_ofInt]
  have hval : ∀ k, (bilinearZ B (fun i => (reveal x.share i).toInt) (fun i => (reveal y.share i).toInt) k : ℚ) = x.scale * y.scale * bilinearQ B x.value y.value k :=
    fun k => bilinearZ_value B _ _ x.value y.value _ _ (fun i => word_eq_value hx i) (fun i => word_eq_value hy i) k
  rw [if_neg (by omega)]
  split
  · have hy1 : y.scale = 1 := by omega
    simp only [hy1, Nat.cast_one, mul_one] at hval hfit ⊢
    exact SatX.pure ⟨rfl, fun k => value_of_word (x := ⟨s, x.scale⟩) hx (hword k) (hval k) (hfit k)⟩
  · have hx1 : x.scale = 1 := by omega
    simp only [hx1, Nat.cast_one, one_mul] at hval hfit ⊢
    exact SatX.pure ⟨rfl, fun k => value_of_word (x := ⟨s, y.scale⟩) hy (hword k) (hval k) (hfit k)⟩

/-- Product of two scaled operands: the double-scale product is divided by the scale of the first. -/
theorem sat_mul_scaled [NeZero n] (hn : n < 2 ^ 60) (B : BilinearOp ι ι' κ) (x : AST n ι) (y : AST n ι') (k : ℕ) (hk : 0 < k) (hk' : k ≤ 62)
    (hx : x.scale = 2 ^ k) (hy : 1 < y.scale) (hfit : ∀ j, Fits (x.scale * y.scale * bilinearQ B x.value y.value j)) :
    Sat (AST.mul B x y) fun z => z.scale = x.scale ∧ ∀ j, |z.value j - y.scale / x.scale * bilinearQ B x.value y.value j| < n / x.scale := by
  have hx1 : 1 < x.scale := by rw [hx]; exact Nat.one_lt_two_pow hk.ne'
  refine Sat.bind (sat_mul B x.share y.share).sat fun s hs => ?_
  rw [if_pos ⟨hx1, hy⟩]
  have hdiv := sat_divInt_pow2 hn s k hk'
  rw [← hx] at hdiv
  refine Sat.bind hdiv fun s' hs' => Sat.pure ⟨rfl, fun j => ?_⟩
  have hn0 : (0 : ℚ) < n := by exact_mod_cast Nat.pos_of_neZero n
  have hP : (0 : ℚ) < x.scale := by exact_mod_cast (by omega : 0 < x.scale)
  have hval := bilinearZ_value B _ _ x.value y.value _ _ (fun i => word_eq_value (by omega : 0 < x.scale) i) (fun i => word_eq_value (by omega : 0 < y.scale) i) j
  have hword : (reveal s j).toInt = bilinearZ B (fun i => (reveal x.share i).toInt) (fun i => (reveal y.share i).toInt) j := by
    refine toInt_of_fits (by rw [hs, apply_ofInt]) ?_
    rw [hval]; exact hfit j
  have hb := hs' j
  rw [hword] at hb
  have hb' : |(x.scale : ℚ) * ((reveal s' j).toInt : ℚ) - x.scale * y.scale * bilinearQ B x.value y.value j| ≤ n * (x.scale - 1) := by
    rw [← hval]
    have hx' : (x.scale : ℚ) = 2 ^ k := by rw [hx]; push_cast; rfl
    rw [hx']
    exact_mod_cast hb
  show |((reveal s' j).toInt : ℚ) / x.scale - _| < _
  have e : ((reveal s' j).toInt : ℚ) / x.scale - y.scale / x.scale * bilinearQ B x.value y.value j
      = (x.scale * ((reveal s' j).toInt : ℚ) - x.scale * y.scale * bilinearQ B x.value y.value j) / (x.scale * x.scale) := by field_simp
  rw [e, abs_div, abs_of_pos (mul_pos hP hP), div_lt_div_iff₀ (mul_pos hP hP) hP]
  nlinarith

/-- **C56 (product, equal scales).** The product is exact up to `n` units in the last place. -/
theorem C56_mul_equal_scales [NeZero n] (hn : n < 2 ^ 60) (B : BilinearOp ι ι' κ) (x : AST n ι) (y : AST n ι') (k : ℕ) (hk : 0 < k) (hk' : k ≤ 62)
    (hx : x.scale = 2 ^ k) (hy : y.scale = 2 ^ k) (hfit : ∀ j, Fits (x.scale * y.scale * bilinearQ B x.value y.value j)) :
    Sat (AST.mul B x y) fun z => z.scale = x.scale ∧ ∀ j, |z.value j - bilinearQ B x.value y.value j| < n / x.scale := by
  refine (sat_mul_scaled hn B x y k hk hk' hx (by rw [hy]; exact Nat.one_lt_two_pow hk.ne') hfit).mono fun z hz => ⟨hz.1, fun j => ?_⟩
  have h := hz.2 j
  have hP : (x.scale : ℚ) ≠ 0 := by
    have : 0 < x.scale := by rw [hx]; exact Nat.two_pow_pos k
    exact_mod_cast this.ne'
  rwa [hy, ← hx, div_self hP, one_mul] at h

/-- **C56 (product, different scales: characterisation).** The result is the product times the quotient of the scales. -/
theorem C56_mul_mixed_scales_partial [NeZero n] (hn : n < 2 ^ 60) (B : BilinearOp ι ι' κ) (x : AST n ι) (y : AST n ι') (k l : ℕ) (hk : 0 < k) (hk' : k ≤ 62)
    (hl : 0 < l) (hx : x.scale = 2 ^ k) (hy : y.scale = 2 ^ l) (hfit : ∀ j, Fits (x.scale * y.scale * bilinearQ B x.value y.value j)) :
    Sat (AST.mul B x y) fun z => z.scale = x.scale ∧ ∀ j, |z.value j - 2 ^ l / 2 ^ k * bilinearQ B x.value y.value j| < n / x.scale := by
  refine (sat_mul_scaled hn B x y k hk hk' hx (by rw [hy]; exact Nat.one_lt_two_pow hl.ne') hfit).mono fun z hz => ⟨hz.1, fun j => ?_⟩
  have h := hz.2 j
  rw [hx, hy] at h
  rw [hx]; push_cast at h ⊢; exact h

/-- **C56 (product with public numbers).** Relative to the product with the encoded public number `trunc(scale * y) / scale`. -/
theorem C56_mul_public [NeZero n] (hn : n < 2 ^ 60) (B : BilinearOp ι ι' κ) (x : AST n ι) (y : ι' → ℚ) (k : ℕ) (hk : 0 < k) (hk' : k ≤ 62)
    (hx : x.scale = 2 ^ k) (hy : ∀ i, |x.scale * y i| < 2 ^ 63)
    (hfit : ∀ j, Fits (x.scale * x.scale * bilinearQ B x.value (fun i => (truncQ (x.scale * y i) : ℚ) / x.scale) j)) :
    Sat (AST.mulPub B x y) fun z => z.scale = x.scale ∧
      ∀ j, |z.value j - bilinearQ B x.value (fun i => (truncQ (x.scale * y i) : ℚ) / x.scale) j| < n / x.scale := by
  have hx1 : 1 < x.scale := by rw [hx]; exact Nat.one_lt_two_pow hk.ne'
  have hdiv := sat_divInt_pow2 hn (bilinearPublic B x.share (encodePublic x.scale y)) k hk'
  rw [← hx] at hdiv
  unfold AST.mulPub
  simp only
  rw [if_pos hx1]
  refine Sat.bind hdiv fun s' hs' => Sat.pure ⟨rfl, fun j => ?_⟩
  have hn0 : (0 : ℚ) < n := by exact_mod_cast Nat.pos_of_neZero n
  have hP : (0 : ℚ) < x.scale := by exact_mod_cast (by omega : 0 < x.scale)
  have hval := bilinearZ_value B (fun i => (reveal x.share i).toInt) (fun i => (encodePublic x.scale y i).toInt) x.value
    (fun i => (truncQ (x.scale * y i) : ℚ) / x.scale) x.scale x.scale (fun i => word_eq_value (by omega : 0 < x.scale) i) (fun i => by
      have := truncQ_range (hy i)
      rw [encodePublic_ofInt, toInt_ofInt64 this.1 this.2]; field_simp) j
  have hword : (reveal (bilinearPublic B x.share (encodePublic x.scale y)) j).toInt
      = bilinearZ B (fun i => (reveal x.share i).toInt) (fun i => (encodePublic x.scale y i).toInt) j := by
    refine toInt_of_fits (by rw [reveal_bilinearPublic, apply_ofInt]) ?_
    rw [hval]; exact hfit j
  have hb := hs' j
  rw [hword] at hb
  have hb' : |(x.scale : ℚ) * ((reveal s' j).toInt : ℚ) - x.scale * x.scale * bilinearQ B x.value (fun i => (truncQ (x.scale * y i) : ℚ) / x.scale) j| ≤ n * (x.scale - 1) := by
    rw [← hval]
    have hx' : (x.scale : ℚ) = 2 ^ k := by rw [hx]; push_cast; rfl
    rw [hx']
    exact_mod_cast hb
  show |((reveal s' j).toInt : ℚ) / x.scale - _| < _
  have e : ((reveal s' j).toInt : ℚ) / x.scale - bilinearQ B x.value (fun i => (truncQ (x.scale * y i) : ℚ) / x.scale) j
      = (x.scale * ((reveal s' j).toInt : ℚ) - x.scale * x.scale * bilinearQ B x.value (fun i => (truncQ (x.scale * y i) : ℚ) / x.scale) j) / (x.scale * x.scale) := by field_simp
  rw [e, abs_div, abs_of_pos (mul_pos hP hP), div_lt_div_iff₀ (mul_pos hP hP) hP]
  nlinarith

/-- **C56 (square).** -/
theorem C56_square [NeZero n] (hn : n < 2 ^ 60) (x : AST n ι) (k : ℕ) (hk' : k ≤ 62)
    (hx : x.scale = 2 ^ k) (hfit : ∀ i, Fits (x.scale * x.scale * (x.value i * x.value i))) :
    Sat x.square fun z => z.scale = x.scale ∧ ∀ i, |z.value i - x.value i * x.value i| < n / x.scale := by
  have hx1 : 0 < x.scale := by rw [hx]; exact Nat.two_pow_pos k
  refine Sat.bind (sat_square x.share).sat fun s hs => ?_
  have hdiv := sat_divInt_pow2 hn s k hk'
  rw [← hx] at hdiv
  refine Sat.bind hdiv fun s' hs' => Sat.pure ⟨rfl, fun j => ?_⟩
  have hn0 : (0 : ℚ) < n := by exact_mod_cast Nat.pos_of_neZero n
  have hP : (0 : ℚ) < x.scale := by exact_mod_cast hx1
  have hword : (reveal s j).toInt = (reveal x.share j).toInt * (reveal x.share j).toInt := by
    refine toInt_of_fits (by rw [hs, ofInt_mul64, ofInt_toInt]) ?_
    rw [Int.cast_mul, word_eq_value hx1]
    have := hfit j
    rwa [mul_mul_mul_comm] at this
  have hb := hs' j
  rw [hword] at hb
  have hb' : |(x.scale : ℚ) * ((reveal s' j).toInt : ℚ) - x.scale * x.scale * (x.value j * x.value j)| ≤ n * (x.scale - 1) := by
    rw [mul_mul_mul_comm, ← word_eq_value hx1]
    have hx' : (x.scale : ℚ) = 2 ^ k := by rw [hx]; push_cast; rfl
    rw [hx']
    exact_mod_cast hb
  show |((reveal s' j).toInt : ℚ) / x.scale - _| < _
  have e : ((reveal s' j).toInt : ℚ) / x.scale - x.value j * x.value j
      = (x.scale * ((reveal s' j).toInt : ℚ) - x.scale * x.scale * (x.value j * x.value j)) / (x.scale * x.scale) := by field_simp
  rw [e, abs_div, abs_of_pos (mul_pos hP hP), div_lt_div_iff₀ (mul_pos hP hP) hP]
  nlinarith

/-- **C56 is false for products of two different scales larger than 1**: one times one, with 16 and 8 bits of precision, is not one. -/
theorem C56_mul_mixed_scales_wrong : ∃ (T : Tuples 1) (x y : AST 1 Unit), T.Valid ∧ x.scale = 2 ^ 16 ∧ y.scale = 2 ^ 8 ∧
    x.value () = 1 ∧ y.value () = 1 ∧ (AST.mul (elementwise Unit) x y T 0).good ∧ (AST.mul (elementwise Unit) x y T 0).val.value () < 1 / 128 := by
  obtain ⟨T, hT, -⟩ := tuples_exist 1
  let x : AST 1 Unit := ⟨fun _ _ => 65536, 2 ^ 16⟩
  let y : AST 1 Unit := ⟨fun _ _ => 256, 2 ^ 8⟩
  have hx : x.value () = 1 := by
    have : reveal x.share () = 65536 := by rw [reveal_apply]; decide
    rw [AST.value, this]; show (((65536 : I64).toInt : ℤ) : ℚ) / ((2 ^ 16 : ℕ) : ℚ) = 1
    have : (65536 : I64).toInt = 65536 := by decide
    rw [this]; norm_num
  have hy : y.value () = 1 := by
    have : reveal y.share () = 256 := by rw [reveal_apply]; decide
    rw [AST.value, this]; show (((256 : I64).toInt : ℤ) : ℚ) / ((2 ^ 8 : ℕ) : ℚ) = 1
    have : (256 : I64).toInt = 256 := by decide
    rw [this]; norm_num
  have hq : ∀ j, bilinearQ (elementwise Unit) x.value y.value j = 1 := by
    intro j; simp [bilinearQ, elementwise, Torch.mulOp, hx, hy]
  have hg : (AST.mul (elementwise Unit) x y T 0).good := by
    refine ⟨trivial, fun i => ?_, trivial⟩
    show DivGood _ _ _
    unfold DivGood
    rw [if_neg (by decide), Fin.sum_univ_one, reveal_apply, Fin.sum_univ_one]
  have h := C56_mul_mixed_scales_partial (by norm_num) (elementwise Unit) x y 16 8 (by norm_num) (by norm_num) (by norm_num) rfl rfl
    (by intro j; rw [hq]; show Fits ((2 ^ 16 : ℕ) * (2 ^ 8 : ℕ) * 1); unfold Fits; norm_num) T hT 0 hg
  refine ⟨T, x, y, hT, rfl, rfl, hx, hy, hg, ?_⟩
  have h2 := h.2 ()
  rw [hq, abs_lt] at h2
  have : ((x.scale : ℕ) : ℚ) = 65536 := by show ((2 ^ 16 : ℕ) : ℚ) = _; norm_num
  rw [this] at h2
  norm_num at h2
  linarith [h2.2]

/-- Non-trivial operands satisfying the hypotheses of the sum and product theorems: 1.5 at 16 bits and 3 without fraction, two parties. -/
example : ∃ x y : AST 2 Unit, x.scale = 2 ^ 16 ∧ y.scale = 1 ∧ Aligned x.scale y.scale ∧ x.value () = 3 / 2 ∧ y.value () = 3 ∧
    Fits ((max x.scale y.scale : ℕ) * (x.value () + y.value ())) := by
  refine ⟨⟨fun p _ => if p = 0 then 100000 else -1696, 2 ^ 16⟩, ⟨fun p _ => if p = 0 then -4 else 7, 1⟩, rfl, rfl, ⟨by decide, by decide, Or.inr (one_dvd _)⟩, ?_, ?_, ?_⟩
  all_goals
    have e1 : reveal (fun p _ => if p = 0 then 100000 else -1696 : Shares 2 Unit) () = 98304 := by rw [reveal_apply]; decide
    have e2 : reveal (fun p _ => if p = 0 then -4 else 7 : Shares 2 Unit) () = 3 := by rw [reveal_apply]; decide
    have e3 : (98304 : I64).toInt = 98304 := by decide
    have e4 : (3 : I64).toInt = 3 := by decide
    simp only [AST.value, e1, e2, e3, e4, Fits]
    norm_num

end CrypTen

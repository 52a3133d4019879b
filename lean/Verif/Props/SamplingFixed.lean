import Verif.Props.Sampling
import Verif.Props.ArithFunc
import Verif.Props.Quiet
import Mathlib.Algebra.BigOperators.Field

/-!
# C52: weighted sampling with fixed-point weights

The weights are `W j / 2^p`, as in an ordinary encrypted tensor. The product of the random number with the total is then truncated, so the index is the one that belongs to a number within `n` units in the last place of the exact one.
-/

namespace CrypTen
variable {n : ℕ} {ι κ : Type}

theorem fallsInto_unique {m : ℕ} {W : Fin m → ℕ} {r : ℤ} {i j : Fin m} (hi : FallsInto W r i) (hj : FallsInto W r j) : i = j := by
  have key : ∀ {i j : Fin m}, FallsInto W r i → FallsInto W r j → ¬ i < j := by
    intro i j hi hj h
    have hm : below W (i + 1) ≤ below W j := below_mono W (by have : i.val < j.val := h; omega)
    rcases hj.2 with h0 | h1
    · have : i.val < j.val := h; omega
    · have h2 := hi.1
      have : ((below W (i + 1) : ℕ) : ℤ) ≤ (below W j : ℕ) := by exact_mod_cast hm
      omega
  exact le_antisymm (not_lt.1 (key hj hi)) (not_lt.1 (key hi hj))

theorem fallsInto_exists {m : ℕ} {W : Fin m → ℕ} {r : ℤ} (h : r < (∑ i, W i : ℕ)) (hm : 0 < m) : ∃ j, FallsInto W r j := by
  have hex : ∃ t : ℕ, t < m ∧ r < below W (t + 1) := ⟨m - 1, by omega, by
    have e : m - 1 + 1 = m := by omega
    rw [e, below_top]; exact h⟩
  classical
  obtain ⟨h1, h2⟩ := Nat.find_spec hex
  refine ⟨⟨Nat.find hex, h1⟩, h2, ?_⟩
  rcases Nat.eq_zero_or_pos (Nat.find hex) with h0 | h0
  · exact Or.inl h0
  · right
    have h3 := Nat.find_min hex (m := Nat.find hex - 1) (by omega)
    have e : Nat.find hex - 1 + 1 = Nat.find hex := by omega
    rw [e] at h3
    show ((below W (Nat.find hex) : ℕ) : ℤ) ≤ r
    by_contra hlt
    exact h3 ⟨by omega, by omega⟩

/-- An index other than the first has a positive weight if it is chosen. -/
theorem fallsInto_pos {m : ℕ} {W : Fin m → ℕ} {r : ℤ} {j : Fin m} (h : FallsInto W r j) (h0 : j.val ≠ 0 ∨ 0 ≤ r) : 0 < W j := by
  by_contra hw
  have e : below W (j + 1) = below W j := by rw [below_succ]; omega
  have h1 := h.1
  rw [e] at h1
  rcases h.2 with h2 | h2
  · rcases h0 with h0 | h0
    · exact h0 h2
    · rw [h2, below_zero] at h1; push_cast at h1; omega
  · omega

theorem value_of_nat_scaled {x : AST n ι} {i : ι} {v p : ℕ} (hs : x.scale = 2 ^ p) (hw : reveal x.share i = BitVec.ofNat 64 v) (hv : v < 2 ^ 63) : x.value i = v / 2 ^ p := by
  rw [AST.value, hw, hs]
  have : (BitVec.ofNat 64 v).toInt = v := by
    rw [BitVec.toInt_eq_toNat_of_lt] <;> rw [BitVec.toNat_ofNat, Nat.mod_eq_of_lt] <;> omega
  rw [this]; push_cast; ring

theorem sat_weightedIndexWith_fixed [NeZero n] (hn : n < 2 ^ 60) (p : ℕ) (hp0 : 0 < p) (hp : p ≤ 62) {m : ℕ} (w : AST n (Fin m × κ)) (hs : w.scale = 2 ^ p) (W : Fin m → κ → ℕ)
    (hw : ∀ j k, reveal w.share (j, k) = BitVec.ofNat 64 (W j k)) (hfit : ∀ k, 2 ^ p * (∑ j, W j k) < 2 ^ 63)
    (u : AST n κ) (hus : u.scale = 2 ^ p) (R : κ → ℕ) (hR : ∀ k, R k < 2 ^ p) (hu : ∀ k, reveal u.share k = BitVec.ofNat 64 (R k)) :
    Sat (w.weightedIndexWith p u) fun z => ∃ r : κ → ℤ, (∀ k, |(r k : ℚ) - R k * (∑ j, W j k : ℕ) / 2 ^ p| < n) ∧
      IsBit z fun jk => decide (FallsInto (fun j => W j jk.2) (r jk.2) jk.1) := by
  have hpow2 : 2 ≤ 2 ^ p := by
    calc 2 = 2 ^ 1 := rfl
      _ ≤ 2 ^ p := Nat.pow_le_pow_right (by norm_num) hp0
  have hpw : ∀ k, ∑ j, W j k < 2 ^ 62 := fun k => by
    have := Nat.mul_le_mul_right (∑ j, W j k) hpow2
    have := hfit k
    omega
  have hbelow : ∀ k (t : ℕ), below (fun j => W j k) t ≤ ∑ j, W j k := by
    intro k t
    rcases le_total t m with h | h
    · exact (below_mono _ h).trans_eq (below_top _)
    · unfold below; refine Finset.sum_le_sum fun i _ => ?_; split <;> simp
  have hcum : ∀ j k, w.cumsum.value (j, k) = (below (fun i => W i k) (j + 1) : ℕ) / 2 ^ p := fun j k =>
    value_of_nat_scaled (x := w.cumsum) hs (reveal_cumsum w W hw j k) (by have := hbelow k (j + 1); have := hpw k; omega)
  have hlast : ∀ k, w.cumsum.lastRow.value k = (∑ j, W j k : ℕ) / 2 ^ p := by
    intro k
    refine value_of_nat_scaled (x := w.cumsum.lastRow) hs ?_ (by have := hpw k; omega)
    rw [← below_top]
    by_cases h0 : 0 < m
    · have e : reveal w.cumsum.lastRow.share k = reveal w.cumsum.share (⟨m - 1, by omega⟩, k) := by
        simp only [AST.lastRow, reveal_apply, dif_pos h0]
      rw [e, reveal_cumsum w W hw]
      congr 2
      show m - 1 + 1 = m
      omega
    · have : m = 0 := by omega
      subst this
      simp only [AST.lastRow, reveal_apply]
      rw [below_zero]; simp
  have hQ : (0 : ℚ) < 2 ^ p := by positivity
  have huv : ∀ k, u.value k = (R k : ℚ) / 2 ^ p := fun k => value_of_nat_scaled hus (hu k) (by
    have := hR k
    have : (2 : ℕ) ^ p ≤ 2 ^ 62 := Nat.pow_le_pow_right (by norm_num) hp
    omega)
  have hlt : ∀ k, R k * (∑ j, W j k) ≤ 2 ^ p * ∑ j, W j k := fun k => Nat.mul_le_mul_right _ (hR k).le
  have hls : w.cumsum.lastRow.scale = 2 ^ p := hs
  have hcs : w.cumsum.scale = 2 ^ p := hs
  refine Sat.bind (C56_mul_equal_scales hn (elementwise κ) u w.cumsum.lastRow p hp0 hp hus hls fun k => ?_) fun r hr => ?_
  · rw [bilinearQ_elementwise, hus, hls, huv, hlast]
    have e : (((2 ^ p : ℕ) : ℚ) * ((2 ^ p : ℕ) : ℚ) * ((R k : ℚ) / 2 ^ p * (((∑ j, W j k : ℕ) : ℚ) / 2 ^ p))) = ((R k * ∑ j, W j k : ℕ) : ℚ) := by
      push_cast; field_simp
    rw [e]
    have h1 := hlt k; have h2 := hfit k
    have h3 : R k * ∑ j, W j k < 2 ^ 63 := by omega
    constructor
    · have : (0 : ℚ) ≤ ((R k * ∑ j, W j k : ℕ) : ℚ) := Nat.cast_nonneg _
      linarith
    · exact_mod_cast h3
  have hrs : r.scale = 2 ^ p := by rw [hr.1, hus]
  have hrv : ∀ k, r.value k = ((reveal r.share k).toInt : ℚ) / 2 ^ p := fun k => by rw [AST.value, hrs]; push_cast; rfl
  have hrb : ∀ k, |((reveal r.share k).toInt : ℚ) - R k * (∑ j, W j k : ℕ) / 2 ^ p| < n := by
    intro k
    have h := hr.2 k
    rw [bilinearQ_elementwise, huv, hlast, hus, hrv] at h
    have e : ((reveal r.share k).toInt : ℚ) / 2 ^ p - (R k : ℚ) / 2 ^ p * (((∑ j, W j k : ℕ) : ℚ) / 2 ^ p) = (((reveal r.share k).toInt : ℚ) - R k * (∑ j, W j k : ℕ) / 2 ^ p) / 2 ^ p := by
      field_simp
    rw [e, abs_div, abs_of_pos hQ] at h
    push_cast at h ⊢
    exact (div_lt_div_iff_of_pos_right hQ).1 h
  have hstd : StdScale (2 ^ p) (r.reindex (Prod.snd : Fin m × κ → κ)).scale := Or.inr hrs
  refine Sat.bind (sat_gt_bit (Nat.two_pow_pos p) w.cumsum (Or.inr hcs) (.enc (r.reindex Prod.snd)) hstd fun jk => ?_).sat fun g hg => ?_
  · have e : (Operand.enc (r.reindex (Prod.snd : Fin m × κ → κ))).jointScale w.cumsum.scale = 2 ^ p := by
      show max w.cumsum.scale r.scale = 2 ^ p
      rw [hcs, hrs, max_self]
    rw [e]
    obtain ⟨j, k⟩ := jk
    show Fits (_ * ((r.reindex Prod.snd).value (j, k) - _))
    rw [value_reindex, hrv, hcum]
    have e2 : (((2 ^ p : ℕ) : ℚ) * (((reveal r.share k).toInt : ℚ) / 2 ^ p - ((below (fun i => W i k) (j + 1) : ℕ) : ℚ) / 2 ^ p))
        = ((reveal r.share k).toInt : ℚ) - (below (fun i => W i k) (j + 1) : ℕ) := by push_cast; field_simp
    rw [e2]
    have h1 := abs_lt.1 (hrb k)
    have h2 : (R k : ℚ) * (∑ j, W j k : ℕ) / 2 ^ p ≤ (∑ j, W j k : ℕ) := by
      rw [div_le_iff₀ hQ]
      have := hlt k
      have : ((R k * (∑ j, W j k) : ℕ) : ℚ) ≤ ((2 ^ p * ∑ j, W j k : ℕ) : ℚ) := by exact_mod_cast this
      push_cast at this ⊢
      linarith
    have h2' : (0 : ℚ) ≤ (R k : ℚ) * (∑ j, W j k : ℕ) / 2 ^ p := by positivity
    have h3 : ((∑ j, W j k : ℕ) : ℚ) < 2 ^ 62 := by exact_mod_cast hpw k
    have h4 : ((below (fun i => W i k) (j + 1) : ℕ) : ℚ) ≤ (∑ j, W j k : ℕ) := by exact_mod_cast hbelow k _
    have h5 : (0 : ℚ) ≤ ((below (fun i => W i k) (j + 1) : ℕ) : ℚ) := Nat.cast_nonneg _
    have h6 : (n : ℚ) < 2 ^ 60 := by exact_mod_cast hn
    have h7 : (2 : ℚ) ^ 62 + 2 ^ 60 < 2 ^ 63 := by norm_num
    obtain ⟨h1, h1'⟩ := h1
    generalize ((∑ j, W j k : ℕ) : ℚ) = S at h1 h1' h2 h2' h3 h4
    constructor <;> linarith
  have hgb : ∀ j k, reveal g.share (j, k) = boolI64 (decide ((reveal r.share k).toInt < (below (fun i => W i k) (j + 1) : ℕ))) := by
    intro j k
    rw [hg.2]
    congr 1
    rw [decide_eq_decide]
    show (r.reindex Prod.snd).value (j, k) < _ ↔ _
    rw [value_reindex, hrv, hcum, div_lt_div_iff_of_pos_right hQ]
    exact_mod_cast Iff.rfl
  refine ((sub_word_same g g.shiftDown rfl (by rw [hg.1]; norm_num)).mono fun z hz => ?_).sat
  refine ⟨fun k => (reveal r.share k).toInt, hrb, hz.1.trans hg.1, fun jk => ?_⟩
  obtain ⟨j, k⟩ := jk
  rw [hz.2, hgb]
  have hsh : reveal g.shiftDown.share (j, k) = boolI64 (decide (j.val ≠ 0 ∧ (reveal r.share k).toInt < (below (fun i => W i k) j : ℕ))) := by
    by_cases h0 : j.val = 0
    · have e : reveal g.shiftDown.share (j, k) = 0 := by
        simp only [AST.shiftDown, reveal_apply, dif_pos h0]; simp
      rw [e, decide_eq_false (fun h => h.1 h0)]; rfl
    · have e : reveal g.shiftDown.share (j, k) = reveal g.share (⟨j.val - 1, by omega⟩, k) := by
        simp only [AST.shiftDown, reveal_apply, dif_neg h0]
      rw [e, hgb]
      have : j.val - 1 + 1 = j.val := by omega
      simp only [this, ne_eq, h0, not_false_eq_true, true_and]
  rw [hsh]
  have hmono : ((below (fun i => W i k) j : ℕ) : ℤ) ≤ (below (fun i => W i k) (j + 1) : ℕ) := by exact_mod_cast below_mono (fun i => W i k) (a := j) (b := j + 1) (by omega)
  beta_reduce
  generalize (reveal r.share k).toInt = t
  by_cases h1 : j.val ≠ 0 ∧ t < (below (fun i => W i k) j : ℕ)
  · have h2 : t < (below (fun i => W i k) (j + 1) : ℕ) := by omega
    have h3 : ¬ FallsInto (fun i => W i k) t j := by rintro ⟨-, h | h⟩ <;> omega
    rw [decide_eq_true h1, decide_eq_true h2, decide_eq_false h3]; rfl
  · by_cases h2 : t < (below (fun i => W i k) (j + 1) : ℕ)
    · have h3 : FallsInto (fun i => W i k) t j := ⟨h2, by omega⟩
      rw [decide_eq_false h1, decide_eq_true h2, decide_eq_true h3]; rfl
    · have h3 : ¬ FallsInto (fun i => W i k) t j := fun h => h2 h.1
      rw [decide_eq_false h1, decide_eq_false h2, decide_eq_false h3]; rfl

theorem word_of_value {m p : ℕ} {w : AST n (Fin m × κ)} (hs : w.scale = 2 ^ p) {W : Fin m → κ → ℕ} (hw : ∀ j k, w.value (j, k) = W j k / 2 ^ p) (j : Fin m) (k : κ) :
    reveal w.share (j, k) = BitVec.ofNat 64 (W j k) := by
  have h := word_eq_value (x := w) (by rw [hs]; exact Nat.two_pow_pos p) (j, k)
  rw [hs, hw] at h
  have hQ : (2 : ℚ) ^ p ≠ 0 := by positivity
  have h' : (reveal w.share (j, k)).toInt = W j k := by
    have : ((2 ^ p : ℕ) : ℚ) * (((W j k : ℕ) : ℚ) / 2 ^ p) = ((W j k : ℤ) : ℚ) := by push_cast; field_simp
    rw [this] at h; exact_mod_cast h
  have e := ofInt_toInt (reveal w.share (j, k))
  rw [h'] at e
  rw [← e]; rfl

/-- **C52 (`weighted_index`, fixed-point weights).** For weights `W j / 2^p` the result has a one exactly at the index to which a number `r` belongs that is within `n` units of the exact one, the random number times the total.
Where the weights add up to at least `n`, there is exactly one such index; unless it is the first, its weight is positive. -/
theorem C52_weighted_fixed [NeZero n] (hn : n < 2 ^ 60) (p : ℕ) (hp0 : 0 < p) (hp : p ≤ 62) {m : ℕ} (w : AST n (Fin m × κ)) (hs : w.scale = 2 ^ p) (W : Fin m → κ → ℕ)
    (hw : ∀ j k, w.value (j, k) = W j k / 2 ^ p) (hfit : ∀ k, 2 ^ p * (∑ j, W j k) < 2 ^ 63) (T : Tuples n) (hT : T.Valid) (c : ℕ) (hg : (w.weightedIndex p T c).good) :
    (w.weightedIndex p T c).val.scale = 1 ∧ ∃ r : κ → ℤ, (∀ k, |(r k : ℚ) - drawn T c p κ k * (∑ j, W j k : ℕ) / 2 ^ p| < n) ∧
      (∀ j k, (w.weightedIndex p T c).val.value (j, k) = if FallsInto (fun j => W j k) (r k) j then 1 else 0) ∧
      ∀ k, (n : ℚ) ≤ ∑ j, w.value (j, k) → ∃! j, (w.weightedIndex p T c).val.value (j, k) = 1 := by
  obtain ⟨-, h1, h2⟩ := rand_word p (by omega) T hT c (κ := κ)
  obtain ⟨r, hr, hz⟩ := sat_weightedIndexWith_fixed hn p hp0 hp w hs W (word_of_value hs hw) hfit (mpcRand p κ T c).val h1 _ (fun k => drawn_lt T hT c p k) h2 T hT (mpcRand p κ T c).ctr hg.2
  have hval : ∀ j k, (w.weightedIndex p T c).val.value (j, k) = if FallsInto (fun j => W j k) (r k) j then 1 else 0 := fun j k => by
    refine (hz.value (j, k)).trans ?_
    simp only [decide_eq_true_eq]
  refine ⟨hz.1, r, hr, hval, fun k hk => ?_⟩
  have hQ : (0 : ℚ) < 2 ^ p := by positivity
  have hn0 : (0 : ℚ) < n := by exact_mod_cast Nat.pos_of_neZero n
  have hsum : ∑ j, w.value (j, k) = ((∑ j, W j k : ℕ) : ℚ) / 2 ^ p := by
    push_cast
    rw [Finset.sum_div]
    exact Finset.sum_congr rfl fun j _ => hw j k
  rw [hsum] at hk
  have hlt : r k < (∑ j, W j k : ℕ) := by
    have ha := (abs_lt.1 (hr k)).2
    have hd : (drawn T c p κ k : ℚ) + 1 ≤ 2 ^ p := by exact_mod_cast drawn_lt T hT c p k
    have hk' : (n : ℚ) * 2 ^ p ≤ (∑ j, W j k : ℕ) := (le_div_iff₀ hQ).1 hk
    generalize hS : ((∑ j, W j k : ℕ) : ℚ) = S at *
    have hS0 : 0 ≤ S := by rw [← hS]; exact Nat.cast_nonneg _
    have hb : (drawn T c p κ k : ℚ) * S / 2 ^ p ≤ S - n := by
      rw [div_le_iff₀ hQ]
      nlinarith
    have : (r k : ℚ) < S := by linarith
    rw [← hS] at this
    exact_mod_cast this
  have hm : 0 < m := by
    by_contra h0
    have : m = 0 := by omega
    subst this
    exact absurd hk (by simp [NeZero.ne n])
  obtain ⟨j, hj⟩ := fallsInto_exists (W := fun j => W j k) hlt hm
  refine ⟨j, by beta_reduce; rw [hval, if_pos hj], fun i hi => ?_⟩
  beta_reduce at hi
  rw [hval] at hi
  by_cases h : FallsInto (fun j => W j k) (r k) i
  · exact fallsInto_unique h hj
  · rw [if_neg h] at hi; norm_num at hi

/-- **C52 (`weighted_sample`).** The sample is exactly the weight at the index returned with it. -/
theorem C52_weighted_sample [NeZero n] (hn : n < 2 ^ 60) (p : ℕ) (hp0 : 0 < p) (hp : p ≤ 62) {m : ℕ} (w : AST n (Fin m × κ)) (hs : w.scale = 2 ^ p) (W : Fin m → κ → ℕ)
    (hw : ∀ j k, w.value (j, k) = W j k / 2 ^ p) (hfit : ∀ k, 2 ^ p * (∑ j, W j k) < 2 ^ 63) (T : Tuples n) (hT : T.Valid) (c : ℕ) (hg : (w.weightedSample p T c).good) :
    (w.weightedSample p T c).val.1.scale = 2 ^ p ∧ (w.weightedSample p T c).val.2 = (w.weightedIndex p T c).val ∧
      ∀ j k, (w.weightedSample p T c).val.2.value (j, k) = 1 → (w.weightedSample p T c).val.1.value k = w.value (j, k) := by
  obtain ⟨h1, r, -, hval, -⟩ := C52_weighted_fixed hn p hp0 hp w hs W hw hfit T hT c hg.1
  have hpos : 0 < w.scale := by rw [hs]; exact Nat.two_pow_pos p
  have hQ : (0 : ℚ) < 2 ^ p := by positivity
  have hWlt : ∀ j k, W j k < 2 ^ 63 := fun j k => by
    have h1 : W j k ≤ ∑ j, W j k := Finset.single_le_sum (f := fun j => W j k) (fun _ _ => Nat.zero_le _) (Finset.mem_univ j)
    have h2 := Nat.le_mul_of_pos_left (∑ j, W j k) (Nat.two_pow_pos p)
    have := hfit k
    omega
  have hmul := C56_mul_unscaled (elementwise (Fin m × κ)) w (w.weightedIndex p T c).val hpos (by rw [h1]; norm_num) (Or.inr h1) (fun jk => by
    obtain ⟨j, k⟩ := jk
    rw [bilinearQ_elementwise, h1, hs, hval, hw]
    have h63 : ((W j k : ℕ) : ℚ) < 2 ^ 63 := by exact_mod_cast hWlt j k
    have h0 : (0 : ℚ) ≤ ((W j k : ℕ) : ℚ) := Nat.cast_nonneg _
    have e : ((2 ^ p : ℕ) : ℚ) * ((1 : ℕ) : ℚ) * (((W j k : ℕ) : ℚ) / 2 ^ p * (if FallsInto (fun j => W j k) (r k) j then 1 else 0)) = if FallsInto (fun j => W j k) (r k) j then ((W j k : ℕ) : ℚ) else 0 := by
      split
      · push_cast; field_simp
      · simp
    rw [e]
    split <;> constructor <;> linarith) T hT (w.weightedIndex p T c).ctr
  obtain ⟨-, hzs, hzv⟩ := hmul
  refine ⟨?_, rfl, fun j k hj => ?_⟩
  · refine Eq.trans (b := (AST.mul (elementwise (Fin m × κ)) w (w.weightedIndex p T c).val T (w.weightedIndex p T c).ctr).val.scale) rfl ?_
    rw [hzs, h1, hs, mul_one]
  · set z := (AST.mul (elementwise (Fin m × κ)) w (w.weightedIndex p T c).val T (w.weightedIndex p T c).ctr).val with hzdef
    have hj' : FallsInto (fun j => W j k) (r k) j := by
      by_contra h
      have e : (w.weightedSample p T c).val.2.value (j, k) = (w.weightedIndex p T c).val.value (j, k) := rfl
      rw [e, hval, if_neg h] at hj; norm_num at hj
    have hscale : z.scale = 2 ^ p := by rw [hzs, h1, hs, mul_one]
    have hzw : ∀ i, reveal z.share (i, k) = if i = j then BitVec.ofNat 64 (W i k) else 0 := by
      intro i
      have h := word_eq_value (x := z) (by rw [hscale]; exact Nat.two_pow_pos p) (i, k)
      rw [hzv, bilinearQ_elementwise, hscale, hval, hw] at h
      have e := ofInt_toInt (reveal z.share (i, k))
      by_cases hi : i = j
      · subst hi
        rw [if_pos hj', mul_one] at h
        have : ((2 ^ p : ℕ) : ℚ) * (((W i k : ℕ) : ℚ) / 2 ^ p) = ((W i k : ℤ) : ℚ) := by push_cast; field_simp
        rw [this] at h
        have h' : (reveal z.share (i, k)).toInt = W i k := by exact_mod_cast h
        rw [h'] at e
        rw [if_pos rfl, ← e]; rfl
      · rw [if_neg (fun h => hi (fallsInto_unique h hj')), mul_zero, mul_zero] at h
        have h' : (reveal z.share (i, k)).toInt = 0 := by exact_mod_cast h
        rw [h'] at e
        rw [if_neg hi, ← e]; rfl
    have hsumw : reveal z.sumFirst.share k = BitVec.ofNat 64 (W j k) := by
      rw [reveal_sumFirst]
      simp only [hzw, Finset.sum_ite_eq', Finset.mem_univ, if_true]
    have : (w.weightedSample p T c).val.1 = z.sumFirst := rfl
    rw [this, value_of_nat_scaled (x := z.sumFirst) (p := p) hscale hsumw (hWlt j k), hw]

/-- Three parties, two weights of 3: a run meets the conditions; it returns one index, and the sample is 3. -/
example : ∃ (T : Tuples 3) (w : AST 3 (Fin 2 × Unit)), T.Valid ∧ (w.weightedSample 16 T 0).good ∧ (∃! j, (w.weightedIndex 16 T 0).val.value (j, ()) = 1) ∧ (w.weightedSample 16 T 0).val.1.value () = 3 := by
  let w : AST 3 (Fin 2 × Unit) := holder 3 (Fin 2 × Unit) 196608 (2 ^ 16)
  have hv : ∀ j k, w.value (j, k) = 3 := fun j k => by rw [holder_value _ _ 196608 (by decide)]; norm_num
  have hw : ∀ j k, w.value (j, k) = ((fun _ _ => 196608 : Fin 2 → Unit → ℕ) j k : ℕ) / 2 ^ 16 := fun j k => by rw [hv]; norm_num
  have ha : w.Alone := fun p hp i => if_neg hp
  have hcalm : Calm (w.weightedSample 16) fun _ => True := Calm.bind (calm_weightedIndex 16 ha) fun _ _ => Calm.bind (calm_mul _ _ _) fun _ _ => Calm.pure trivial
  obtain ⟨v, c, -, -, h⟩ := hcalm 0
  obtain ⟨-, -, hg⟩ := h (fun _ _ => 0) fun _ _ _ => rfl
  have hT : (hush (n := 3) fun _ _ => 0).Valid := Program.hush_valid fun _ _ i => reveal_zero i
  have hfit : ∀ k : Unit, 2 ^ 16 * (∑ j, (fun _ _ => 196608 : Fin 2 → Unit → ℕ) j k) < 2 ^ 63 := fun k => by simp
  have hu := (C52_weighted_fixed (by norm_num) 16 (by norm_num) (by norm_num) w rfl _ hw hfit _ hT 0 hg.1).2
  obtain ⟨r, -, -, hu⟩ := hu
  have hone := hu () (by simp only [hv]; norm_num)
  obtain ⟨j, hj, -⟩ := hone
  refine ⟨_, w, hT, hg, hu () (by simp only [hv]; norm_num), ?_⟩
  rw [← hv j ()]
  exact (C52_weighted_sample (by norm_num) 16 (by norm_num) (by norm_num) w rfl _ hw hfit _ hT 0 hg).2.2 j () hj

end CrypTen

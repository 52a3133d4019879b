import Verif.Model.DPSplit
import Verif.Spec.DPSplit
import Verif.Props.Sampling
import Verif.Props.Gradients
import Mathlib.LinearAlgebra.Matrix.DotProduct

/-! # C50, C61: split training with private labels -/

namespace CrypTen.DP
open CrypTen CrypTen.Grad
variable {n : ℕ} {ι : Type}

/-! ## Plaintext labels -/

/-- **C50 (plaintext labels).** At the label source the labels `t` become `t XOR m`. -/
theorem C50_plain (q : ℚ) (m t : ι → Bool) :
    processPlain (some q) true true (fun i => bit (m i)) (fun i => bit (t i)) = some fun i => bit (xor (t i) (m i)) := by
  simp only [processPlain, Option.isSome_some, Bool.and_self, if_true, Option.some.injEq]
  funext i
  cases t i <;> cases m i <;> norm_num [bit]

/-- The other parties' tensors are left alone, as are those of a model without randomised response. -/
theorem C50_plain_others (rr : Option ℚ) (f : Bool) (m t : ι → ℚ) : processPlain rr false f m t = some t ∧ processPlain none true f m t = some t := by
  constructor <;> simp [processPlain]

/-- Labels held in an integer tensor (the usual form of class labels) are refused: randomised response raises at the label source. -/
theorem C50_integer_labels_wrong (q : ℚ) (m t : ι → ℚ) : processPlain (some q) true false m t = none := by simp [processPlain]

theorem flips_append (l : List Bool) (b : Bool) : flips (l ++ [b]) = xor (flips l) b := by
  induction l with
  | nil => simp [flips]
  | cons a l ih => simp only [List.cons_append, flips, ih, Bool.xor_assoc]

/-- Exact labels of every call with the same tensor: the flips of all calls so far have accumulated. -/
theorem C50_epochs_exact (q : ℚ) : ∀ (ms : List (ι → Bool)) (t : ι → Bool),
    ∃ out, epochs (some q) (ms.map fun m i => bit (m i)) (fun i => bit (t i)) = some out ∧ out.length = ms.length ∧
      ∀ k, k < ms.length → out.getD k (fun _ => 0) = fun i => bit (xor (t i) (flips ((ms.take (k + 1)).map fun m => m i)))
  | [], t => ⟨[], rfl, rfl, fun k hk => by simp at hk⟩
  | m :: ms, t => by
    obtain ⟨out, h1, h2, h3⟩ := C50_epochs_exact q ms fun i => xor (t i) (m i)
    refine ⟨(fun i => bit (xor (t i) (m i))) :: out, ?_, by simp [h2], ?_⟩
    · rw [List.map_cons, epochs, C50_plain]
      show ((epochs (some q) (ms.map fun m i => bit (m i)) fun i => bit (xor (t i) (m i))).bind fun rest => some _) = _
      rw [h1]; rfl
    · intro k hk
      cases k with
      | zero => funext i; simp [flips]
      | succ k =>
        have := h3 k (by simpa using hk)
        rw [List.getD_cons_succ, this]
        funext i
        simp [flips]

theorem flippedProb_zero (q : ℚ) : flippedProb q 0 = 0 := by simp [flippedProb, flips]

theorem weights_sum (q : ℚ) (k : ℕ) : ∑ m : Fin k → Bool, ∏ i, (if m i then q else 1 - q) = 1 := by
  have h := Finset.prod_univ_sum (fun _ : Fin k => (Finset.univ : Finset Bool)) (fun (_ : Fin k) (b : Bool) => if b then q else 1 - q)
  rw [Fintype.piFinset_univ] at h
  rw [← h]; simp

theorem flippedProb_succ (q : ℚ) (k : ℕ) : flippedProb q (k + 1) = q * (1 - flippedProb q k) + (1 - q) * flippedProb q k := by
  have e : 1 - flippedProb q k = ∑ m : Fin k → Bool, if flips (List.ofFn m) then 0 else ∏ i, (if m i then q else 1 - q) := by
    rw [flippedProb, ← weights_sum q k, ← Finset.sum_sub_distrib]
    refine Finset.sum_congr rfl fun m _ => ?_
    cases flips (List.ofFn m) <;> simp [weights_sum]
  rw [e]
  unfold flippedProb
  rw [← (Fin.consEquiv fun _ : Fin (k + 1) => Bool).sum_comp, Fintype.sum_prod_type, Fintype.sum_bool, Finset.mul_sum, Finset.mul_sum]
  congr 1
  · refine Finset.sum_congr rfl fun m _ => ?_
    simp only [Fin.consEquiv_apply, Fin.prod_univ_succ, Fin.cons_zero, Fin.cons_succ, List.ofFn_succ, flips, if_true]
    cases flips (List.ofFn m) <;> simp
  · refine Finset.sum_congr rfl fun m _ => ?_
    simp only [Fin.consEquiv_apply, Fin.prod_univ_succ, Fin.cons_zero, Fin.cons_succ, List.ofFn_succ, flips]
    cases flips (List.ofFn m) <;> simp

/-- With independent flips of probability `q`, the label used in the `k`-th call is flipped with probability `(1 - (1 - 2 q)^k) / 2`. -/
theorem C50_epochs_probability (q : ℚ) (k : ℕ) : flippedProb q k = (1 - (1 - 2 * q) ^ k) / 2 := by
  induction k with
  | zero => simp [flippedProb_zero]
  | succ k ih => rw [flippedProb_succ, ih, pow_succ]; ring

/-- The configured probability is met in the first call. -/
theorem C50_first_call (q : ℚ) : flippedProb q 1 = q := by rw [C50_epochs_probability]; ring

/-- **C50 fails** for histories: for every accepted probability, all calls after the first with the same tensor flip with a larger probability. -/
theorem C50_epochs_wrong (q : ℚ) (h : accepted (some q) none) (k : ℕ) (hk : 2 ≤ k) : q < flippedProb q k := by
  simp only [accepted, Bool.and_true, decide_eq_true_eq] at h
  rw [C50_epochs_probability]
  have h1 : 0 < 1 - 2 * q := by linarith
  have h2 : 1 - 2 * q < 1 := by linarith
  have : (1 - 2 * q) ^ k < (1 - 2 * q) ^ 1 := pow_lt_pow_right_of_lt_one₀ h1 h2 (by omega)
  linarith

/-! ## Encrypted labels -/

theorem sat_bernoulliPub [NeZero n] (p : ℕ) (hp0 : 0 < p) (hp : p ≤ 61) (q : ℚ) (hq0 : 0 < q) (hq1 : q < 1) (T : Tuples n) (hT : T.Valid) (c : ℕ) :
    (bernoulliPub p (fun _ : ι => q) T c).good ∧ IsBit (bernoulliPub p (fun _ : ι => q) T c).val fun i => decide ((drawn T c p ι i : ℤ) < truncQ (2 ^ p * q)) := by
  obtain ⟨g1, h1, h2⟩ := rand_word p (by omega) T hT c (κ := ι)
  have hv := fun k => C52_rand_value p hp0 (by omega) T hT c (κ := ι) k
  have hpos : (0 : ℚ) < 2 ^ p := by positivity
  have hpow : (2 : ℚ) ^ p ≤ 2 ^ 61 := pow_le_pow_right₀ (by norm_num) hp
  have hqp : 2 ^ p * q < 2 ^ p := by nlinarith
  have htb := (truncQ_bounds (2 ^ p * q)).1
  rw [abs_lt] at htb
  have hqq := mul_pos hpos hq0
  have h := sat_lt_bit (D := 2 ^ p) (Nat.two_pow_pos p) (mpcRand p ι T c).val (Or.inr h1) (.pub fun _ => q) trivial (fun k => by
    simp only [Operand.jointScale, Operand.valueAt, h1]
    obtain ⟨-, h3, h4⟩ := hv k
    push_cast
    rw [mul_sub, mul_div_cancel₀ _ hpos.ne']
    constructor <;> nlinarith) T hT (mpcRand p ι T c).ctr
  refine ⟨⟨g1, h.1⟩, ?_⟩
  have hb := h.2
  refine ⟨hb.1, fun i => (hb.2 i).trans ?_⟩
  congr 1
  rw [decide_eq_decide, (hv i).1]
  simp only [Operand.valueAt, h1]
  push_cast
  rw [div_lt_div_iff_of_pos_right hpos]
  exact_mod_cast Iff.rfl

/-- What the encrypted labels become, exactly: `t + q' - 2 m t`, where `q'` is the encoded probability and `m` the flip bit. -/
theorem C50_encrypted_exact [NeZero n] (p : ℕ) (hp0 : 0 < p) (hp : p ≤ 60) (q : ℚ) (h : accepted (some q) none) (t : AST n ι) (ht : t.scale = 2 ^ p) (l : ι → Bool) (hl : ∀ i, t.value i = bit (l i)) :
    SatX (processEnc p (some q) t) fun z => ∃ m : ι → Bool, ∀ i, z.value i = bit (l i) + (truncQ (2 ^ p * q) : ℚ) / 2 ^ p - 2 * bit (m i) * bit (l i) := by
  simp only [accepted, Bool.and_true, decide_eq_true_eq] at h
  obtain ⟨hq0, hq1⟩ := h
  have hpos : (0 : ℚ) < 2 ^ p := by positivity
  have hpow : (2 : ℚ) ^ p ≤ 2 ^ 60 := pow_le_pow_right₀ (by norm_num) hp
  have ht0 : 0 < t.scale := by rw [ht]; exact Nat.two_pow_pos p
  have htq : (t.scale : ℚ) = 2 ^ p := by rw [ht]; push_cast; rfl
  have htb := (truncQ_bounds (2 ^ p * q)).1
  rw [abs_lt] at htb
  have hqp : 2 ^ p * q < 2 ^ p := by nlinarith
  have hqq := mul_pos hpos hq0
  have hbit : ∀ b : Bool, 0 ≤ bit b ∧ bit b ≤ 1 := fun b => by cases b <;> norm_num [bit]
  have hB : SatX (bernoulliPub (n := n) p fun _ : ι => q) fun m => ∃ b : ι → Bool, IsBit m b := fun T hT c =>
    ⟨(sat_bernoulliPub p hp0 (by omega) q hq0 (by linarith) T hT c).1, _, (sat_bernoulliPub p hp0 (by omega) q hq0 (by linarith) T hT c).2⟩
  refine SatX.bind hB fun m ⟨b, hb⟩ => ?_
  have hm2s : (m.mulInt 2).scale = 1 := hb.1
  have hm2 : ∀ i, (m.mulInt 2).value i = 2 * bit (b i) := by
    intro i
    refine value_of_word (z := 2 * if b i then 1 else 0) (by rw [hm2s]; norm_num) ?_ ?_ ?_
    · show reveal (CrypTen.mulInt m.share fun _ => BitVec.ofInt 64 2) i = _
      rw [reveal_mulInt, Pi.mul_apply, hb.2]
      cases b i <;> rfl
    · rw [hm2s]; cases b i <;> norm_num [bit]
    · rw [hm2s]; cases b i <;> norm_num [bit, Fits]
  have hmul := C56_mul_unscaled (elementwise ι) (m.mulInt 2) t (by rw [hm2s]; norm_num) ht0 (Or.inl hm2s) (fun k => by
    rw [hm2s, htq]
    simp only [bilinearQ, elementwise, Torch.mulOp, List.map_cons, List.map_nil, List.sum_cons, List.sum_nil, id]
    rw [hm2, hl]
    cases b k <;> cases l k <;> simp only [bit] <;> norm_num [Fits] <;> constructor <;> linarith)
  refine SatX.bind hmul fun mt ⟨hs, hv⟩ => ?_
  have hmts : mt.scale = t.scale := by rw [hs, hm2s, one_mul]
  have hmv : ∀ i, mt.value i = 2 * bit (b i) * bit (l i) := by
    intro i
    rw [hv]
    simp only [bilinearQ, elementwise, Torch.mulOp, List.map_cons, List.map_nil, List.sum_cons, List.sum_nil, id, hm2, hl, add_zero]
  have hav : ∀ i, (t.addPub fun _ => q).value i = bit (l i) + (truncQ (2 ^ p * q) : ℚ) / 2 ^ p := by
    intro i
    refine value_of_word (x := t.addPub fun _ => q) ht0 (addPub_word t (fun _ => q) i) ?_ ?_
    · show _ = (t.scale : ℚ) * _
      rw [Int.cast_add, word_eq_value ht0, hl, htq]
      field_simp
    · show Fits ((t.scale : ℚ) * _)
      rw [htq, mul_add, mul_div_cancel₀ _ hpos.ne']
      have := hbit (l i)
      constructor <;> nlinarith
  have hsub := C56_sub (t.addPub fun _ => q) mt ⟨ht0, by rw [hmts]; exact ht0, Or.inl (by rw [hmts]; exact dvd_rfl)⟩ (fun i => by
    rw [hmts]
    show Fits (((max t.scale t.scale : ℕ) : ℚ) * _)
    rw [max_self, htq, hav, hmv, mul_sub, mul_add, mul_div_cancel₀ _ hpos.ne']
    cases b i <;> cases l i <;> simp only [bit] <;> norm_num [Fits] <;> constructor <;> linarith)
  refine hsub.mono fun z hz => ⟨b, fun i => ?_⟩
  rw [hz.2, hav, hmv]

/-- **C50 (encrypted labels) fails**: whenever the probability does not vanish when encoded, the result is never a label, for any label and any flip; and it gives the label away, because
label 0 always becomes the encoded probability. -/
theorem C50_encrypted_wrong [NeZero n] (p : ℕ) (hp0 : 0 < p) (hp : p ≤ 60) (q : ℚ) (h : accepted (some q) none) (hq : 1 ≤ 2 ^ p * q) (t : AST n ι) (ht : t.scale = 2 ^ p) (l : ι → Bool) (hl : ∀ i, t.value i = bit (l i)) :
    SatX (processEnc p (some q) t) fun z => ∀ i, (∀ b, z.value i ≠ bit b) ∧ (l i = false ↔ z.value i = (truncQ (2 ^ p * q) : ℚ) / 2 ^ p) := by
  refine (C50_encrypted_exact p hp0 hp q h t ht l hl).mono fun z ⟨m, hm⟩ i => ?_
  simp only [accepted, Bool.and_true, decide_eq_true_eq] at h
  have hpos : (0 : ℚ) < 2 ^ p := by positivity
  have ht1 : 1 ≤ truncQ (2 ^ p * q) := by
    have := (truncQ_bounds (2 ^ p * q)).1
    rw [abs_lt] at this
    have : (0 : ℚ) < truncQ (2 ^ p * q) := by linarith
    exact_mod_cast this
  have ht2 : (truncQ (2 ^ p * q) : ℚ) < 2 ^ p := by
    have h1 : 2 ^ p * q ≤ 2 ^ p / 2 := by nlinarith
    have h2 := (truncQ_bounds (2 ^ p * q)).1
    rw [abs_lt] at h2
    have h3 : (2 : ℚ) ≤ 2 ^ p := by
      calc (2 : ℚ) = 2 ^ 1 := by norm_num
        _ ≤ 2 ^ p := pow_le_pow_right₀ (by norm_num) hp0
    linarith
  have e0 : 0 < (truncQ (2 ^ p * q) : ℚ) / 2 ^ p := div_pos (by exact_mod_cast ht1) hpos
  have e1 : (truncQ (2 ^ p * q) : ℚ) / 2 ^ p < 1 := by rw [div_lt_one hpos]; exact ht2
  rw [hm]
  generalize (truncQ (2 ^ p * q) : ℚ) / 2 ^ p = r at e0 e1
  refine ⟨fun b => ?_, ?_⟩
  · cases b <;> cases l i <;> cases m i <;> simp only [bit] <;> norm_num <;> intro hh <;> linarith
  · cases l i <;> cases m i <;> simp only [bit] <;> norm_num <;> intro hh <;> linarith

/-- What does hold for encrypted labels: the mean over the flips is that of flipped labels. -/
theorem C50_encrypted_mean_partial (q : ℚ) (l : Bool) :
    (1 - q) * (bit l + q - 2 * bit false * bit l) + q * (bit l + q - 2 * bit true * bit l) = (1 - q) * bit (xor l false) + q * bit (xor l true) := by
  cases l <;> simp [bit] <;> ring

/-! ## Noise -/

/-- **C50 (noise).** With a non-zero magnitude, noise is added: that of the source, if a source other than rank 0 is configured; the joint one if none is. -/
theorem C50_noise_partial (m : ℚ) (hm : m ≠ 0) (r : ℕ) (hr : r ≠ 0) (joint : ι → ℚ) (drawn : ℕ → ι → ℚ) (g : ι → ℚ) :
    addNoise (some m) (some r) joint drawn g = (fun i => g i + drawn r i * m) ∧ addNoise (some m) none joint drawn g = fun i => g i + joint i * m := by
  obtain ⟨r, rfl⟩ := Nat.exists_eq_succ_of_ne_zero hr
  constructor <;> simp [addNoise, hm]

/-- Without magnitude nothing is added. -/
theorem C50_no_noise (src : Option ℕ) (joint : ι → ℚ) (drawn : ℕ → ι → ℚ) (g : ι → ℚ) : addNoise none src joint drawn g = g ∧ addNoise (some 0) src joint drawn g = g := by
  constructor <;> simp [addNoise]

/-- **C50 (noise) fails for rank 0**: if rank 0 is the configured source, its noise is ignored. -/
theorem C50_noise_rank0_wrong (m : ℚ) (hm : m ≠ 0) (joint : ι → ℚ) (drawn drawn' : ℕ → ι → ℚ) (g : ι → ℚ) :
    addNoise (some m) (some 0) joint drawn g = addNoise (some m) (some 0) joint drawn' g ∧ addNoise (some m) (some 0) joint drawn g = fun i => g i + joint i * m := by
  constructor <;> simp [addNoise, hm]

/-! ## The backward pass -/

section
variable [Fintype ι]

theorem reportProb_some (α : ℝ) (z : ι → ℝ) : reportProb (some α) z = predsRappor α z := by
  funext i; simp [reportProb, predsRappor, sigmoid]

theorem predsRappor_range (α : ℝ) (h0 : 0 ≤ α) (h1 : α ≤ 1) (z : ι → ℝ) (i : ι) : 0 < predsRappor α z i ∧ predsRappor α z i < 1 := by
  have a := sigmoid_pos (z i)
  have b := sigmoid_lt_one (z i)
  unfold predsRappor
  constructor <;> nlinarith [mul_nonneg h0 a.le, mul_nonneg (sub_nonneg.2 h1) a.le, mul_nonneg h0 (sub_pos.2 b).le, mul_nonneg (sub_nonneg.2 h1) (sub_pos.2 b).le]

theorem bceF_eq (t q : ι → ℝ) (u : Unit) : bceF t q u = meanLoss t q := by unfold bceF meanLoss; rw [neg_div]

/-- **C61 (gradient of the loss).** For every logits, labels and accepted `rappor_prob`, the encrypted `dL/dZ` is the gradient of the documented loss: mean cross-entropy of the predicted report probabilities. -/
theorem C61_loss_gradient (alpha : Option ℝ) (ha : ∀ α, alpha = some α → 0 ≤ α ∧ α ≤ 1) (t z : ι → ℝ) :
    HasFDerivAt (fun z => meanLoss t (reportProb alpha z)) (linearFn (dLdZ alpha t z)) z := by
  cases alpha with
  | none =>
    classical
    have h := C43_bce_with_logits t z fun _ => 1
    refine (h.congr_fderiv ?_).congr_of_eventuallyEq (Filter.Eventually.of_forall fun y => ?_)
    · congr 1; funext i; simp [bceLogitsB, dLdZ, sigmoidF]
    · simp only [Finset.univ_unique, Finset.sum_singleton, one_mul, bceLogitsF, bceF_eq]
      congr 1; funext i; simp [reportProb, sigmoidF, sigmoid]
  | some α =>
    classical
    obtain ⟨h0, h1⟩ := ha α rfl
    have hp := predsRappor_range α h0 h1 z
    have hd : IsVJP (predsRappor α) z fun g i => g i * ((2 * α - 1) * (sigmoid (z i) * (1 - sigmoid (z i)))) := by
      refine isVJP_map (φ := fun _ y => α * sigmoid y + (1 - α) * (1 - sigmoid y)) (φ' := fun i => (2 * α - 1) * (sigmoid (z i) * (1 - sigmoid (z i)))) (fun i => ?_) fun g i => rfl
      have a := hasDerivAt_sigmoid (z i)
      refine ((a.const_mul α).add ((a.const_sub 1).const_mul (1 - α))).congr_deriv ?_
      ring
    have h := (hd.comp (C43_bce t (predsRappor α z) (fun i => (hp i).1.ne') fun i => (hp i).2.ne)) fun _ => 1
    refine (h.congr_fderiv ?_).congr_of_eventuallyEq (Filter.Eventually.of_forall fun y => ?_)
    · congr 1; funext i
      have a := (hp i).1.ne'
      have b : 1 - predsRappor α z i ≠ 0 := sub_ne_zero.2 (hp i).2.ne'
      simp only [bceB, dLdZ]
      field_simp
      ring
    · simp only [Finset.univ_unique, Finset.sum_singleton, one_mul, bceF_eq, reportProb_some]

/-- The value of the loss that is reported agrees with the documented loss, unless `rappor_prob` is 0. -/
theorem C61_loss_value_partial (alpha : Option ℝ) (ha : alpha ≠ some 0) (t z : ι → ℝ) (u : Unit) : lossValue alpha t z u = meanLoss t (reportProb alpha z) := by
  cases alpha with
  | none => simp only [lossValue, bceLogitsF, bceF_eq]; congr 1; funext i; simp [reportProb, sigmoidF, sigmoid]
  | some α =>
    have h0 : α ≠ 0 := fun h => ha (by rw [h])
    simp only [lossValue, rapporF, bceF_eq, reportProb_some]
    congr 1; funext i; simp [rapporPred, predsRappor, h0]

/-- With `rappor_prob = 0` the reported loss is that of the opposite prediction: a certain label with a confident prediction. -/
theorem C61_loss_value_wrong : lossValue (some 0) (fun _ : Unit => 1) (fun _ => 1) () < meanLoss (fun _ : Unit => 1) (reportProb (some 0) fun _ => 1) := by
  rw [reportProb_some]
  simp only [lossValue, rapporF, bceF_eq, meanLoss, rapporPred, predsRappor]
  simp only [Finset.univ_unique, Finset.sum_singleton, Fintype.card_unique, if_true, one_mul, sub_self, zero_mul, add_zero, Nat.cast_one, div_one, zero_add, sub_zero]
  rw [neg_lt_neg_iff]
  have h1 := sigmoid_lt_one 1
  refine Real.log_lt_log (by linarith) ?_
  have : (1 : ℝ) / 2 < sigmoid 1 := by
    unfold sigmoid
    rw [one_div]
    have : Real.exp (-1) < 1 := by rw [Real.exp_lt_one_iff]; norm_num
    exact (inv_lt_inv₀ (by norm_num) (by positivity)).2 (by linarith)
  linarith

end

section
variable {b o d : Type} [Fintype b] [Fintype o] [Fintype d]

theorem lstsq_exact (A : Matrix b d ℝ) (dz X : Matrix b o ℝ) (h : IsLstsq A (dLdW dz A) X) : A.transpose * X = (dLdW dz A).transpose := by
  have h0 := h dz
  have e : A.transpose * dz - (dLdW dz A).transpose = 0 := by
    rw [dLdW, Matrix.transpose_mul, Matrix.transpose_transpose, sub_self]
  have h1 : ∑ i, ∑ j, ((A.transpose * X - (dLdW dz A).transpose) i j) ^ 2 = 0 := by
    refine le_antisymm (h0.trans (le_of_eq ?_)) (Finset.sum_nonneg fun i _ => Finset.sum_nonneg fun j _ => sq_nonneg _)
    rw [e]; simp
  ext i j
  have h2 := (Finset.sum_eq_zero_iff_of_nonneg fun i _ => Finset.sum_nonneg fun j _ => sq_nonneg _).1 h1 i (Finset.mem_univ _)
  have h3 := (Finset.sum_eq_zero_iff_of_nonneg fun j _ => sq_nonneg _).1 h2 j (Finset.mem_univ _)
  have h4 := pow_eq_zero_iff (two_ne_zero) |>.1 h3
  exact sub_eq_zero.1 h4

/-- **C61 (last layer).** Without noise, the weight of the last layer receives its exact gradient, for every batch and whichever minimiser is found. -/
theorem C61_last_weight (A : Matrix b d ℝ) (dz X : Matrix b o ℝ) (h : IsLstsq A (dLdW dz A) X) : weightGrad X A = weightGrad dz A := by
  have := lstsq_exact A dz X h
  have := congrArg Matrix.transpose this
  rwa [Matrix.transpose_mul, Matrix.transpose_transpose, Matrix.transpose_transpose] at this

/-- **C61 (all layers), partial.** If the inputs of the last layer are linearly independent samples, the exact `dL/dZ` is recovered, so all parameters receive their exact gradients. -/
theorem C61_recovers_partial (A : Matrix b d ℝ) (hA : ∀ v : b → ℝ, A.transpose.mulVec v = 0 → v = 0) (dz X : Matrix b o ℝ) (h : IsLstsq A (dLdW dz A) X) : X = dz := by
  have := lstsq_exact A dz X h
  rw [dLdW, Matrix.transpose_mul, Matrix.transpose_transpose] at this
  ext i j
  have hv := hA (fun i => X i j - dz i j) (by
    funext k
    have hk := congrFun (congrFun this k) j
    simp only [Matrix.mul_apply] at hk
    simp only [Matrix.mulVec, dotProduct, Pi.zero_apply, mul_sub, Finset.sum_sub_distrib]
    rw [hk, sub_self])
  exact sub_eq_zero.1 (congrFun hv i)

end

/-- **C61 fails** for other parameters if a batch has more samples than the last layer has inputs, even without noise: two samples with inputs 1 and 2, and the solution of least norm: the gradient of the
bias is 3/5 instead of 1. -/
theorem C61_bias_wrong : ∃ (A : Matrix (Fin 2) (Fin 1) ℝ) (dz X : Matrix (Fin 2) (Fin 1) ℝ), IsLstsq A (dLdW dz A) X ∧
    (∀ Y, IsLstsq A (dLdW dz A) Y → ∑ i, ∑ j, X i j ^ 2 ≤ ∑ i, ∑ j, Y i j ^ 2) ∧ biasGrad X 0 = 3 / 5 ∧ biasGrad dz 0 = 1 := by
  refine ⟨!![1; 2], !![1; 0], !![1 / 5; 2 / 5], ?_, ?_, ?_, ?_⟩
  · intro Y
    refine le_trans (le_of_eq ?_) (Finset.sum_nonneg fun i _ => Finset.sum_nonneg fun j _ => sq_nonneg _)
    simp [dLdW, Matrix.mul_apply, Fin.sum_univ_two]
    norm_num
  · intro Y hY
    have := congrFun (congrFun (lstsq_exact _ _ _ hY) 0) 0
    simp [dLdW, Matrix.mul_apply, Fin.sum_univ_two] at this
    simp [Fin.sum_univ_two]
    nlinarith [sq_nonneg (2 * Y 0 0 - Y 1 0)]
  · simp [biasGrad, Fin.sum_univ_two]; norm_num
  · simp [biasGrad, Fin.sum_univ_two]

/-! ## The protocol `full_jacobian` -/

section
variable {b c p : Type} [Fintype b] [Fintype c] [Fintype p]

theorem linearFn_apply' (a v : p → ℝ) : linearFn a v = ∑ i, a i * v i := by simp [linearFn]

/-- Back-propagation is linear in the gradient of the output. -/
theorem vjp_linear {κ : Type} [Fintype κ] [DecidableEq κ] (f : (p → ℝ) → κ → ℝ) (w : p → ℝ) (back : (κ → ℝ) → p → ℝ) (h : IsVJP f w back) (g : κ → ℝ) (i : p) :
    back g i = ∑ k, g k * back (fun k' => if k' = k then 1 else 0) i := by
  classical
  have h1 : ∀ k, HasFDerivAt (fun z => g k * f z k) (g k • linearFn (back fun k' => if k' = k then 1 else 0)) w := fun k => by
    have h2 := h fun k' => if k' = k then 1 else 0
    simp only [ite_mul, one_mul, zero_mul, Finset.sum_ite_eq', Finset.mem_univ, if_true] at h2
    exact h2.const_mul (g k)
  have h2 := HasFDerivAt.fun_sum fun k (_ : k ∈ Finset.univ) => h1 k
  have h3 := (h g).unique h2
  have h4 := congrArg (fun L : (p → ℝ) →L[ℝ] ℝ => L (Pi.single i 1)) h3
  simp only [ContinuousLinearMap.sum_apply, ContinuousLinearMap.smul_apply, linearFn_apply', smul_eq_mul] at h4
  simpa [Pi.single_apply] using h4

variable [DecidableEq c]

/-- **C61 (`full_jacobian`), partial.** For batches of one sample and without noise, the gradients that this protocol writes are those of the loss `L` of the logits, for every
differentiable model, loss and parameters. -/
theorem C61_full_jacobian_partial [DecidableEq ℝ] [Unique b] (model : (p → ℝ) → b × c → ℝ) (w : p → ℝ) (back : (b × c → ℝ) → p → ℝ) (h : IsVJP model w back) (hm : DifferentiableAt ℝ model w)
    (L : (b × c → ℝ) → ℝ) (dz : b × c → ℝ) (hL : HasFDerivAt L (linearFn dz) (model w)) (src : Option ℕ) (joint : b × p → ℝ) (drawn : ℕ → b × p → ℝ) :
    HasFDerivAt (fun w => L (model w)) (linearFn (fullJacobian none src joint drawn back dz)) w := by
  classical
  have e : fullJacobian none src joint drawn back dz = back dz := by
    funext i
    rw [vjp_linear model w back h dz i]
    simp only [fullJacobian, Finset.univ_unique, Finset.sum_singleton, addNoise, modelJacobians]
    rw [Fintype.sum_prod_type, Fintype.sum_unique (ι := b)]
    refine Finset.sum_congr rfl fun j _ => ?_
    rw [mul_comm]
    congr 2
    funext q
    have : q = (default, j) ↔ q.2 = j := ⟨fun h => by rw [h], fun h => Prod.ext (Subsingleton.elim _ _) h⟩
    simp only [this]
  rw [e]
  have h1 : HasFDerivAt (fun z => ∑ k, dz k * model z k) (linearFn (back dz)) w := h dz
  have h2 := hL.comp w hm.hasFDerivAt
  refine h2.congr_fderiv ?_
  have h3 : HasFDerivAt (fun z => linearFn dz (model z)) ((linearFn dz).comp (fderiv ℝ model w)) w := (linearFn dz).hasFDerivAt.comp w hm.hasFDerivAt
  simp only [linearFn_apply'] at h3
  exact h3.unique h1

omit [Fintype p] in
/-- The noise: one number for each sample and parameter, not one for each parameter; the gradients get the sum over the samples. -/
theorem C61_full_jacobian_noise [DecidableEq ℝ] (m : ℝ) (hm : m ≠ 0) (r : ℕ) (joint : b × p → ℝ) (drawn : ℕ → b × p → ℝ) (back : (b × c → ℝ) → p → ℝ) (dz : b × c → ℝ) (i : p) :
    fullJacobian (some m) none joint drawn back dz i = fullJacobian none none joint drawn back dz i + ∑ s, joint (s, i) * m ∧
    fullJacobian (some m) (some (r + 1)) joint drawn back dz i = fullJacobian none none joint drawn back dz i + ∑ s, drawn (r + 1) (s, i) * m := by
  constructor <;> simp [fullJacobian, addNoise, hm, Finset.sum_add_distrib]

end

/-- **C61 fails with `full_jacobian`** for batches of two samples: the Jacobian it uses has been summed over the batch. The model `z = w x` with inputs 1 and 3, labels 1 and 0,
`w = 0`: the gradient of the mean cross-entropy is 1/2, the protocol computes 0. -/
theorem C61_full_jacobian_wrong [DecidableEq ℝ] : ∃ (model : (Unit → ℝ) → Fin 2 × Unit → ℝ) (back : (Fin 2 × Unit → ℝ) → Unit → ℝ) (t : Fin 2 × Unit → ℝ),
    (∀ w, IsVJP model w back) ∧
    HasFDerivAt (fun w => meanLoss t (reportProb none (model w))) (linearFn fun _ => 1 / 2) (fun _ => 0) ∧
    ∀ joint drawn, fullJacobian none none joint drawn back (dLdZ none t (model fun _ => 0)) = fun _ => 0 := by
  have hv : ∀ w, IsVJP (fun (w : Unit → ℝ) (q : Fin 2 × Unit) => w () * (1 + 2 * (q.1 : ℕ))) w (fun g _ => ∑ q : Fin 2 × Unit, g q * (1 + 2 * (q.1 : ℕ))) := by
    intro w g
    have e : (fun z : Unit → ℝ => ∑ k : Fin 2 × Unit, g k * (z () * (1 + 2 * ((k.1 : ℕ) : ℝ)))) = fun z => linearFn (fun _ : Unit => ∑ q : Fin 2 × Unit, g q * (1 + 2 * ((q.1 : ℕ) : ℝ))) z := by
      funext z
      rw [linearFn_apply', Fintype.sum_unique (ι := Unit), Finset.sum_mul]
      exact Finset.sum_congr rfl fun q _ => by rw [mul_assoc, mul_comm (z ())]
    rw [e]
    exact (linearFn _).hasFDerivAt
  have hs : sigmoid 0 = 1 / 2 := by unfold sigmoid; norm_num
  refine ⟨_, _, fun q => if q.1 = 0 then 1 else 0, hv, ?_, fun joint drawn => ?_⟩
  · have h1 := C61_loss_gradient none (fun α h => by cases h) (fun q : Fin 2 × Unit => if q.1 = 0 then 1 else 0) (fun q => (0 : ℝ) * (1 + 2 * (q.1 : ℕ)))
    have hd : HasFDerivAt (fun (w : Unit → ℝ) (q : Fin 2 × Unit) => w () * (1 + 2 * ((q.1 : ℕ) : ℝ)))
        (ContinuousLinearMap.pi fun q : Fin 2 × Unit => linearFn fun _ : Unit => 1 + 2 * ((q.1 : ℕ) : ℝ)) (fun _ => 0) := by
      rw [hasFDerivAt_pi]
      intro q
      have e : (fun w : Unit → ℝ => w () * (1 + 2 * ((q.1 : ℕ) : ℝ))) = fun w => linearFn (fun _ : Unit => 1 + 2 * ((q.1 : ℕ) : ℝ)) w := by
        funext w; rw [linearFn_apply', Finset.univ_unique, Finset.sum_singleton, mul_comm]
      rw [e]
      exact (linearFn _).hasFDerivAt
    refine (HasFDerivAt.comp (fun _ : Unit => (0 : ℝ)) h1 hd).congr_fderiv ?_
    ext v
    simp only [ContinuousLinearMap.comp_apply, ContinuousLinearMap.pi_apply, linearFn_apply', dLdZ, zero_mul, hs]
    simp [Fintype.sum_prod_type, Fin.sum_univ_two]
    ring
  · funext i
    simp [fullJacobian, addNoise, modelJacobians, dLdZ, hs, Fintype.sum_prod_type, Fin.sum_univ_two]
    norm_num

/-- **C61 (protocols).** `backward` returns exactly if the protocol is `layer_estimation`; with `full_jacobian` it raises, and has replaced the gradients all the same; with any other
string it raises and changes nothing. -/
theorem C61_protocols {G : Type} (protocol : String) (full layer old : G) :
    ((backward protocol full layer old).1 = .done ↔ protocol = "layer_estimation") ∧
    (protocol = "layer_estimation" → backward protocol full layer old = (.done, layer)) ∧
    (protocol = "full_jacobian" → backward protocol full layer old = (.notImplementedError, full)) ∧
    (protocol ≠ "layer_estimation" → protocol ≠ "full_jacobian" → backward protocol full layer old = (.valueError, old)) := by
  unfold backward
  refine ⟨?_, fun h => by subst h; simp, fun h => by subst h; simp, fun h h' => by rw [if_neg h', if_neg h]⟩
  by_cases h : protocol = "full_jacobian"
  · subst h; simp
  · by_cases h' : protocol = "layer_estimation"
    · subst h'; simp
    · simp [h, h']

/-! ## Examples -/

/-- One sample, two classes, the model `z = (w₀, 2 w₁)` and the loss `z₀ + z₁`: the hypotheses are met. -/
example : ∃ (model : (Bool → ℝ) → Unit × Bool → ℝ) (back : (Unit × Bool → ℝ) → Bool → ℝ), IsVJP model (fun _ => 1) back ∧ DifferentiableAt ℝ model (fun _ => 1) ∧
    HasFDerivAt (fun z : Unit × Bool → ℝ => linearFn (fun _ => 1) z) (linearFn fun _ => 1) (model fun _ => 1) ∧ back (fun _ => 1) true = 2 := by
  refine ⟨fun w q => w q.2 * (if q.2 then 2 else 1), fun g i => g ((), i) * (if i then 2 else 1), fun g => ?_, ?_, (linearFn _).hasFDerivAt, by simp⟩
  · have e : (fun z : Bool → ℝ => ∑ k : Unit × Bool, g k * (z k.2 * (if k.2 then 2 else 1))) = fun z => linearFn (fun i : Bool => g ((), i) * (if i then 2 else 1)) z := by
      funext z
      rw [linearFn_apply', Fintype.sum_prod_type, Finset.univ_unique, Finset.sum_singleton]
      exact Finset.sum_congr rfl fun i _ => by rw [mul_assoc, mul_comm (z i)]
    rw [e]
    exact (linearFn _).hasFDerivAt
  · rw [differentiableAt_pi]
    intro q
    exact (differentiableAt_apply q.2 _).mul_const _

example : accepted (some (1 / 4)) (some (3 / 4)) = true := by decide +kernel

example : processPlain (some (1 / 4)) true true (fun i : Fin 2 => bit (i == 1)) (fun _ => bit true) = some fun i => bit (xor true (i == 1)) := C50_plain _ _ _

example : (1 / 4 : ℚ) < flippedProb (1 / 4) 2 := C50_epochs_wrong _ (by decide +kernel) 2 le_rfl

/-- Three parties, probability 1/4: an encrypted label 1. -/
example : SatX (processEnc 16 (some (1 / 4)) (⟨fun p _ => if p = 0 then 65536#64 else 0#64, 2 ^ 16⟩ : AST 3 Unit)) fun z => ∀ i, (∀ b, z.value i ≠ bit b) ∧ (true = false ↔ z.value i = (truncQ (2 ^ 16 * (1 / 4)) : ℚ) / 2 ^ 16) :=
  C50_encrypted_wrong 16 (by norm_num) (by norm_num) (1 / 4) (by decide +kernel) (by norm_num) _ rfl (fun _ => true) (fun i => by
    refine value_of_word (z := 65536) (by decide) ?_ (by norm_num [bit]) (by norm_num [Fits, bit])
    cases i; rw [reveal_apply]; decide +kernel)

example : HasFDerivAt (fun z : Fin 2 → ℝ => meanLoss (fun _ => 1) (reportProb (some (3 / 4)) z)) (linearFn (dLdZ (some (3 / 4)) (fun _ => 1) fun _ => 2)) fun _ => 2 :=
  C61_loss_gradient _ (fun α h => by cases h; norm_num) _ _

/-- Two independent samples. -/
example (dz X : Matrix (Fin 2) (Fin 1) ℝ) (h : IsLstsq (1 : Matrix (Fin 2) (Fin 2) ℝ) (dLdW dz 1) X) : X = dz :=
  C61_recovers_partial _ (fun v hv => by simpa using hv) _ _ h

end CrypTen.DP

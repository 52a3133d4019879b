import Verif.Spec.SplitShares
import Verif.Props.TrainPrivacy
import Verif.Props.DPSplit
import Verif.Props.Training

/-!
# Split training on shares

**C101**: the gradient of the last layer that split training reveals to the feature source is, up to a rounding error that is given, the gradient of the mean loss plus the noise; the parties see nothing
of each other's predictions, inputs, labels and noise but this sum.
-/

namespace CrypTen.Split
open CrypTen CrypTen.Privacy CrypTen.Program
variable {n : ℕ} {ι : Type} {b o d k : ℕ}

/-! ## Accuracy -/

theorem near_enter [NeZero n] {src : Fin n} {x : ι → ℚ} {B : ℚ} (hB : ∀ i, |x i| ≤ B) (hfit : 2 ^ k * (B + 1 / 2 ^ k) < 2 ^ 63) : SatX (enter k src x) fun z => Near k z x (1 / 2 ^ k) := by
  refine SatX.bind (sat_encryptA src _) fun s hs => SatX.pure (near_of_word rfl (fun i => truncQ (2 ^ k * x i)) (fun i => ?_) (fun i => trunc_any k (x i)) hB hfit)
  show reveal s i = _
  rw [hs, encodePublic_ofInt]
  push_cast
  rfl

theorem reported_eq (alpha : Option ℚ) (p : ι → ℚ) (i : ι) : reported alpha p i = report alpha (p i) := by cases alpha <;> rfl

theorem correction_eq (α : ℚ) (p : ι → ℚ) (i : ι) : correction α p i = factor (some α) (p i) := rfl

theorem bilinearQ_transMat (x : Fin b × Fin o → ℚ) (y : Fin b × Fin d → ℚ) (q : Fin o × Fin d) : bilinearQ (transMat b o d) x y q = ∑ i, x (i, q.1) * y (i, q.2) := by
  rw [bilinearQ, transMat, List.map_map, Fin.sum_univ_def]; rfl

theorem report_abs {alpha : Option ℚ} (ha : ∀ α, alpha = some α → 0 ≤ α ∧ α ≤ 1) {p : ℚ} (h0 : 0 ≤ p) (h1 : p ≤ 1) : |report alpha p| ≤ 1 := by
  cases alpha with
  | none => exact abs_le.2 ⟨by show -1 ≤ p; linarith, h1⟩
  | some α =>
    obtain ⟨a0, a1⟩ := ha α rfl
    have e1 : 0 ≤ α * p := by positivity
    have e2 : 0 ≤ (1 - α) * (1 - p) := mul_nonneg (by linarith) (by linarith)
    have e3 : α * p + (1 - α) * (1 - p) ≤ 1 := by nlinarith
    exact abs_le.2 ⟨by show -1 ≤ α * p + (1 - α) * (1 - p); linarith, e3⟩

section
variable {e T C X M eN : ℚ}

theorem diffErr_pos (r : Room n k b o e T C X M eN) (he : 0 ≤ e) : 2 / 2 ^ k ≤ diffErr n k b o e := by
  have h : (0 : ℚ) < (b * o : ℕ) := by exact_mod_cast r.size0
  have h1 : (0 : ℚ) ≤ (1 / 2 ^ k + e) / (b * o : ℕ) := by positivity
  have h2 : (2 : ℚ) / 2 ^ k ≤ (3 * n + 2) / 2 ^ k := by
    apply div_le_div_of_nonneg_right _ (by positivity)
    have : (0 : ℚ) ≤ n := Nat.cast_nonneg n
    linarith
  unfold diffErr
  linarith

theorem diffErr_le (r : Room n k b o e T C X M eN) (he : 0 ≤ e) : diffErr n k b o e ≤ dzErr n k b o e T C := by
  have hp := diffErr_pos r he
  have hT := r.T0
  have hC := r.C1
  have h0 : (0 : ℚ) ≤ 2 / 2 ^ k := by positivity
  have h1 : diffErr n k b o e ≤ diffErr n k b o e * C := le_mul_of_one_le_right (h0.trans hp) hC
  have h2 : (0 : ℚ) ≤ (1 + T) / (b * o : ℕ) * (1 / 2 ^ k) := by positivity
  have h3 : (0 : ℚ) ≤ diffErr n k b o e * (1 / 2 ^ k) := mul_nonneg (h0.trans hp) (by positivity)
  have h4 : (0 : ℚ) ≤ n / 2 ^ k := by positivity
  unfold dzErr
  linarith

theorem sat_labels [NeZero n] {label : Fin n} {L : Labels n ι} {t : ι → ℚ} (hL : LabelsAre k L t e) (ht : ∀ i, |t i| ≤ T) (hfit : 2 ^ k * (1 + T + (1 / 2 ^ k + e)) < 2 ^ 63) :
    SatX (L.encrypt k label) fun z => Near k z t e := by
  cases hL with
  | plain =>
    refine near_enter ht (lt_of_le_of_lt ?_ hfit)
    have : (0 : ℚ) < 1 / 2 ^ k := by positivity
    exact mul_le_mul_of_nonneg_left (by linarith) (by positivity)
  | enc x _ _ _ h => exact SatX.pure h

theorem LabelsAre.nonneg {L : Labels n ι} {t : ι → ℚ} (hL : LabelsAre k L t e) : 0 ≤ e := by
  cases hL with
  | plain => positivity
  | enc _ _ _ h _ => exact h

theorem factor_fit (r : Room n k b o e T C X M eN) (he : 0 ≤ e) : 2 ^ k * (C + 1 / 2 ^ k) < (2 : ℚ) ^ 63 := by
  refine lt_of_le_of_lt ?_ r.corr
  have hp := diffErr_pos r he
  have hT := r.T0
  have hC := r.C1
  have h1 : (2 : ℚ) / 2 ^ k ≤ (1 + T) / (b * o : ℕ) + diffErr n k b o e := by
    have : (0 : ℚ) ≤ (1 + T) / (b * o : ℕ) := by positivity
    linarith
  have h2 : (2 : ℚ) ^ k * (C + 1 / 2 ^ k) ≤ 2 ^ k * 2 ^ k * (2 / 2 ^ k * (C + 1 / 2 ^ k)) := by
    have e1 : (2 : ℚ) ^ k * 2 ^ k * (2 / 2 ^ k * (C + 1 / 2 ^ k)) = 2 * (2 ^ k * (C + 1 / 2 ^ k)) := by field_simp
    have : (0 : ℚ) ≤ 2 ^ k * (C + 1 / 2 ^ k) := by positivity
    rw [e1]; linarith
  exact h2.trans (mul_le_mul_of_nonneg_left (mul_le_mul_of_nonneg_right h1 (by positivity)) (by positivity))

theorem input_fit (r : Room n k b o e T C X M eN) (he : 0 ≤ e) : 2 ^ k * (X + 1 / 2 ^ k) < (2 : ℚ) ^ 63 := by
  refine lt_of_le_of_lt ?_ r.prod
  have hp := (diffErr_pos r he).trans (diffErr_le r he)
  have hT := r.T0
  have hC := r.C1
  have hX := r.X0
  have hb : (1 : ℚ) ≤ b := by
    have := Nat.pos_of_mul_pos_right r.size0
    exact_mod_cast this
  have h1 : (2 : ℚ) / 2 ^ k ≤ (1 + T) / (b * o : ℕ) * C + dzErr n k b o e T C := by
    have : (0 : ℚ) ≤ (1 + T) / (b * o : ℕ) * C := by positivity
    linarith
  have h2 : (2 : ℚ) ^ k * (X + 1 / 2 ^ k) ≤ 2 ^ k * 2 ^ k * (2 / 2 ^ k * (X + 1 / 2 ^ k)) := by
    have e1 : (2 : ℚ) ^ k * 2 ^ k * (2 / 2 ^ k * (X + 1 / 2 ^ k)) = 2 * (2 ^ k * (X + 1 / 2 ^ k)) := by field_simp
    have : (0 : ℚ) ≤ 2 ^ k * (X + 1 / 2 ^ k) := by positivity
    rw [e1]; linarith
  have h3 : 2 / 2 ^ k * (X + 1 / 2 ^ k) ≤ ((1 + T) / (b * o : ℕ) * C + dzErr n k b o e T C) * (X + 1 / 2 ^ k) := mul_le_mul_of_nonneg_right h1 (by positivity)
  have h4 : (0 : ℚ) ≤ 2 / 2 ^ k * (X + 1 / 2 ^ k) := by positivity
  refine h2.trans (mul_le_mul_of_nonneg_left (h3.trans ?_) (by positivity))
  exact le_mul_of_one_le_left (h4.trans h3) hb

theorem sat_correct [NeZero n] {feature : Fin n} (r : Room n k b o e T C X M eN) (he : 0 ≤ e) {alpha : Option ℚ} {p v : Fin b × Fin o → ℚ} (hC : ∀ i, |factor alpha (p i)| ≤ C)
    {x : AST n (Fin b × Fin o)} (hx : Near k x v (diffErr n k b o e)) (hv : ∀ i, |v i| ≤ (1 + T) / (b * o : ℕ)) :
    Sat (correct k feature alpha p x) fun z => Near k z (fun i => v i * factor alpha (p i)) (dzErr n k b o e T C) := by
  cases alpha with
  | none => exact Sat.pure ((hx.congr fun i => (mul_one _).symm).mono (diffErr_le r he))
  | some α => exact Sat.bind (near_enter (fun i => hC i) (factor_fit r he)).sat fun c hc => near_mul r.parties r.k0 r.k62 hx hc hv hC r.corr

theorem sat_noise [NeZero n] {N : Noise n ι} {z g : ι → ℚ} {f G : ℚ} (hN : NoiseIs k N z eN) {x : AST n ι} (hk0 : 0 < k) (hk : k ≤ 62) (hn : n < 2 ^ 60) (hx : Near k x g f) (hf : 0 ≤ f) (hG : 0 ≤ G) (hg : ∀ i, |g i| ≤ G)
    (hz : ∀ i, |z i| ≤ M) (hfit : 2 ^ k * (G + M + (f + eN)) < 2 ^ 63) : Sat (addNoise k N x) fun y => Near k y (fun i => g i + z i) (f + eN) := by
  have hs : ∀ i, |g i + z i| ≤ G + M := fun i => (abs_add_le _ _).trans (add_le_add (hg i) (hz i))
  have hj : ∀ m e J : ℚ, ∀ v : ι → ℚ, (∀ i, z i = v i * m) → eN = e * |m| + J * (1 / 2 ^ k) + e * (1 / 2 ^ k) + n / 2 ^ k → Near k N.joint v e → 0 ≤ e → 0 ≤ J → (∀ i, |v i| ≤ J) → 2 ^ k * |m| < (2 : ℚ) ^ 63 →
      2 ^ k * 2 ^ k * ((J + e) * (|m| + 1 / 2 ^ k)) < (2 : ℚ) ^ 63 →
      Sat (do let z ← AST.mulPub (elementwise ι) N.joint fun _ => m; x.add z) fun y => Near k y (fun i => g i + z i) (f + eN) := fun m e J v hzv heN hv he hJ hvJ f1 f2 => by
    refine Sat.bind (near_bilinearPub (L := 1) (A := J) (C := |m|) hn hk0 hk (elementwise ι) (fun _ => m) (fun j => le_refl _) he hJ (abs_nonneg m) hv hvJ (fun _ => le_refl _) f1 (by rwa [Nat.cast_one, one_mul])) fun y hy => ?_
    have hy' : Near k y z eN := ⟨hy.1, fun i => by
      have := hy.2 i
      rw [bilinearQ_elementwise, Nat.cast_one, one_mul, ← hzv i] at this
      rw [heN]; exact this⟩
    exact (near_add hx hy' hs hfit).sat
  unfold addNoise
  cases hN with
  | none h =>
    have hr : Near k x (fun i => g i + 0) (f + 0) := by simpa only [add_zero] using hx
    rcases h with h | h
    · rw [h]; exact Sat.pure hr
    · rw [h]; simp only [if_true]; exact Sat.pure hr
  | drawn m r h1 h2 h3 h4 =>
    rw [h1]
    simp only [h2, if_false, h3, h4]
    refine Sat.bind (near_enter hz (lt_of_le_of_lt ?_ hfit)).sat fun y hy => (near_add hx hy hs hfit).sat
    exact mul_le_mul_of_nonneg_left (by linarith) (by positivity)
  | joint m e J v h1 h2 h3 h4 h5 h6 h7 h8 h9 =>
    rw [h1]
    simp only [h2, if_false]
    have := hj m e J v (fun _ => rfl) rfl h4 h5 h6 h7 h8 h9
    rcases h3 with h3 | h3
    · rw [h3]; exact this
    · rw [h3]; simp only [if_true]; exact this

/-- **C101 (accuracy).** The predictions `p` are probabilities; labels, factors, inputs of the last layer and noise are bounded by `T`, `C`, `X` and `M`. In every execution in which no wrap-around spoils a
truncation, the gradient is within `gradErr + eN` of the exact gradient plus the noise. -/
theorem C101_gradient [NeZero n] (feature label : Fin n) (r : Room n k b o e T C X M eN) {alpha : Option ℚ} (ha : ∀ α, alpha = some α → 0 ≤ α ∧ α ≤ 1) {p t : Fin b × Fin o → ℚ} {A : Fin b × Fin d → ℚ}
    {L : Labels n (Fin b × Fin o)} {N : Noise n (Fin o × Fin d)} {z : Fin o × Fin d → ℚ} (hL : LabelsAre k L t e) (hN : NoiseIs k N z eN) (hp : ∀ i, 0 ≤ p i ∧ p i ≤ 1) (ht : ∀ i, |t i| ≤ T)
    (hC : ∀ i, |factor alpha (p i)| ≤ C) (hA : ∀ i, |A i| ≤ X) (hz : ∀ q, |z q| ≤ M) :
    Sat (lastLayerGrad k feature label alpha p L A N) fun g => Near k g (fun q => gradient alpha p t A q + z q) (gradErr n k b o e T C X + eN) := by
  have he := hL.nonneg
  have hT := r.T0
  have hC1 := r.C1
  have hX := r.X0
  have hu : (0 : ℚ) < 1 / 2 ^ k := by positivity
  have hs : (0 : ℚ) < (b * o : ℕ) := by exact_mod_cast r.size0
  have hd0 : 0 ≤ dzErr n k b o e T C := le_trans (by positivity) ((diffErr_pos r he).trans (diffErr_le r he))
  have hrep : ∀ i, |report alpha (p i)| ≤ 1 := fun i => report_abs ha (hp i).1 (hp i).2
  have hdiff : ∀ i, |report alpha (p i) - t i| ≤ 1 + T := fun i => (abs_sub _ _).trans (add_le_add (hrep i) (ht i))
  have hquot : ∀ i, |(report alpha (p i) - t i) / (b * o : ℕ)| ≤ (1 + T) / (b * o : ℕ) := fun i => by
    rw [abs_div, abs_of_pos hs]; exact div_le_div_of_nonneg_right (hdiff i) hs.le
  have hdz : ∀ i, |dz alpha p t i| ≤ (1 + T) / (b * o : ℕ) * C := fun i => by
    rw [dz, abs_mul]; exact mul_le_mul (hquot i) (hC i) (abs_nonneg _) (by positivity)
  unfold lastLayerGrad
  refine Sat.bind (near_enter (B := 1) (fun i => by rw [reported_eq]; exact hrep i) (lt_of_le_of_lt (mul_le_mul_of_nonneg_left (by linarith) (by positivity)) r.diff)).sat fun x1 h1 => ?_
  refine Sat.bind (sat_labels hL ht r.diff).sat fun x2 h2 => ?_
  refine Sat.bind (near_sub (h1.congr (reported_eq alpha p)) h2 hdiff r.diff).sat fun x3 h3 => ?_
  refine Sat.bind (near_divInt r.parties h3 ((b * o : ℕ) : ℤ) (by exact_mod_cast r.size0) (by exact_mod_cast r.size)) fun x4 h4 => ?_
  refine Sat.bind (sat_correct r he hC (v := fun i => (report alpha (p i) - t i) / (b * o : ℕ)) (by rw [diffErr]; exact_mod_cast h4) hquot) fun x5 h5 => ?_
  refine Sat.bind (near_enter hA (input_fit r he)).sat fun x6 h6 => ?_
  refine Sat.bind (near_bilinear (L := b) (A := (1 + T) / (b * o : ℕ) * C) (C := X) r.parties r.k0 r.k62 (transMat b o d) (fun j => by rw [transMat, List.length_map, List.length_finRange]) hd0 hu.le (by positivity) hX
    h5 h6 hdz hA r.prod) fun x7 h7 => ?_
  have h7' : Near k x7 (gradient alpha p t A) (gradErr n k b o e T C X) := h7.congr fun q => bilinearQ_transMat _ _ q
  have hg0 : 0 ≤ gradErr n k b o e T C X := by
    have : (0 : ℚ) ≤ (1 + T) / (b * o : ℕ) * C * (1 / 2 ^ k) := by positivity
    unfold gradErr; positivity
  refine sat_noise hN r.k0 r.k62 r.parties h7' hg0 (G := b * ((1 + T) / (b * o : ℕ) * C * X)) (by positivity) (fun q => ?_) hz r.sum
  refine (Finset.abs_sum_le_sum_abs _ _).trans ((Finset.sum_le_card_nsmul _ _ ((1 + T) / (b * o : ℕ) * C * X) fun i _ => ?_).trans (le_of_eq (by rw [Finset.card_univ, Fintype.card_fin, nsmul_eq_mul])))
  rw [abs_mul]
  exact mul_le_mul (hdz _) (hA _) (abs_nonneg _) (by positivity)

/-- The derivative of the mean loss with respect to the weight of the last layer. -/
theorem loss_hasFDerivAt (A : Fin b × Fin d → ℝ) (c : Fin o → ℝ) (t : Fin b × Fin o → ℝ) (W : Fin o × Fin d → ℝ) :
    HasFDerivAt (fun W => DP.meanLoss t (DP.reportProb none (logits A c W))) (CrypTen.linearFn fun q => ∑ i, DP.dLdZ none t (logits A c W) (i, q.1) * A (i, q.2)) W := by
  have h1 := DP.C61_loss_gradient (ι := Fin b × Fin o) none (by simp) t (logits A c W)
  have h2 : HasFDerivAt (logits A c) (ContinuousLinearMap.pi fun i : Fin b × Fin o => ∑ l, A (i.1, l) • (ContinuousLinearMap.proj (i.2, l) : (Fin o × Fin d → ℝ) →L[ℝ] ℝ)) W := by
    rw [hasFDerivAt_pi]
    intro i
    have h := (∑ l, A (i.1, l) • (ContinuousLinearMap.proj (i.2, l) : (Fin o × Fin d → ℝ) →L[ℝ] ℝ)).hasFDerivAt (x := W)
    refine (h.add_const (c i.2)).congr_of_eventuallyEq (Filter.Eventually.of_forall fun V => ?_)
    simp [logits, _root_.sum_apply]
  refine (h1.comp W h2).congr_fderiv ?_
  ext V
  simp only [ContinuousLinearMap.comp_apply, CrypTen.linearFn_apply, ContinuousLinearMap.pi_apply, _root_.sum_apply, ContinuousLinearMap.smul_apply, ContinuousLinearMap.proj_apply, smul_eq_mul]
  rw [Fintype.sum_prod_type, Fintype.sum_prod_type, Finset.sum_comm]
  refine Finset.sum_congr rfl fun j _ => ?_
  simp only [Finset.mul_sum, Finset.sum_mul]
  rw [Finset.sum_comm]
  refine Finset.sum_congr rfl fun l _ => Finset.sum_congr rfl fun i _ => by ring

/-- **C101 (loss).** Without `rappor_prob`, and if the predictions are within `δ` of the sigmoids of the logits: the gradient is, up to `gradErr + eN + δ X / o`, the derivative of the mean cross-entropy of
the labels with respect to the weight of the last layer, plus the noise. -/
theorem C101_loss [NeZero n] (feature label : Fin n) (r : Room n k b o e T 1 X M eN) {p t : Fin b × Fin o → ℚ} {A : Fin b × Fin d → ℚ}
    {L : Labels n (Fin b × Fin o)} {N : Noise n (Fin o × Fin d)} {z : Fin o × Fin d → ℚ} (hL : LabelsAre k L t e) (hN : NoiseIs k N z eN) (hp : ∀ i, 0 ≤ p i ∧ p i ≤ 1) (ht : ∀ i, |t i| ≤ T)
    (hA : ∀ i, |A i| ≤ X) (hz : ∀ q, |z q| ≤ M) {W : Fin o × Fin d → ℝ} {c : Fin o → ℝ} {δ : ℝ} (hδ : ∀ i, |(p i : ℝ) - 1 / (1 + Real.exp (-logits (fun i => (A i : ℝ)) c W i))| ≤ δ) :
    ∃ G : Fin o × Fin d → ℝ, HasFDerivAt (fun W => DP.meanLoss (fun i => (t i : ℝ)) (DP.reportProb none (logits (fun i => (A i : ℝ)) c W))) (CrypTen.linearFn G) W ∧
      Sat (lastLayerGrad k feature label none p L A N) fun g => g.scale = 2 ^ k ∧ ∀ q, |(g.value q : ℝ) - (G q + z q)| ≤ (gradErr n k b o e T 1 X + eN : ℚ) + δ * X / o := by
  refine ⟨_, loss_hasFDerivAt _ c _ W, (C101_gradient feature label r (by simp) hL hN hp ht (fun i => by simp [factor]) hA hz).mono fun g hg => ⟨hg.1, fun q => ?_⟩⟩
  have h1 : |(g.value q : ℝ) - (gradient none p t A q + z q : ℚ)| ≤ (gradErr n k b o e T 1 X + eN : ℚ) := by
    have := hg.2 q
    exact_mod_cast this
  have hs : (0 : ℝ) < (b * o : ℕ) := by exact_mod_cast r.size0
  have hb : (0 : ℝ) < b := by exact_mod_cast Nat.pos_of_mul_pos_right r.size0
  have ho : (0 : ℝ) < o := by exact_mod_cast Nat.pos_of_mul_pos_left r.size0
  have h2 : |((gradient none p t A q : ℚ) : ℝ) - ∑ i, DP.dLdZ none (fun i => (t i : ℝ)) (logits (fun i => (A i : ℝ)) c W) (i, q.1) * (A (i, q.2) : ℝ)| ≤ δ * X / o := by
    have e1 : ((gradient none p t A q : ℚ) : ℝ) - ∑ i, DP.dLdZ none (fun i => (t i : ℝ)) (logits (fun i => (A i : ℝ)) c W) (i, q.1) * (A (i, q.2) : ℝ) =
        ∑ i, ((p (i, q.1) : ℝ) - 1 / (1 + Real.exp (-logits (fun i => (A i : ℝ)) c W (i, q.1)))) / (b * o : ℕ) * (A (i, q.2) : ℝ) := by
      simp only [gradient, dz, factor, report, DP.dLdZ, Grad.sigmoid, Fintype.card_prod, Fintype.card_fin]
      push_cast
      rw [← Finset.sum_sub_distrib]
      refine Finset.sum_congr rfl fun i _ => ?_
      rw [mul_one, ← sub_mul, ← sub_div]
      congr 2
      ring
    rw [e1]
    have hδ0 : 0 ≤ δ * X / o := by
      have : 0 ≤ δ := (abs_nonneg _).trans (hδ (⟨0, Nat.pos_of_mul_pos_right r.size0⟩, ⟨0, Nat.pos_of_mul_pos_left r.size0⟩))
      have hX : (0 : ℝ) ≤ X := by exact_mod_cast r.X0
      positivity
    refine (Finset.abs_sum_le_sum_abs _ _).trans ((Finset.sum_le_card_nsmul _ _ (δ / (b * o : ℕ) * X) fun i _ => ?_).trans (le_of_eq ?_))
    · rw [abs_mul, abs_div, abs_of_pos hs]
      refine mul_le_mul (div_le_div_of_nonneg_right (hδ _) hs.le) (by exact_mod_cast hA _) (abs_nonneg _) (div_nonneg ((abs_nonneg _).trans (hδ (i, q.1))) hs.le)
    · rw [Finset.card_univ, Fintype.card_fin, nsmul_eq_mul]; push_cast; field_simp
  have h3 := abs_add_le ((g.value q : ℝ) - (gradient none p t A q + z q : ℚ)) (((gradient none p t A q : ℚ) : ℝ) - ∑ i, DP.dLdZ none (fun i => (t i : ℝ)) (logits (fun i => (A i : ℝ)) c W) (i, q.1) * (A (i, q.2) : ℝ))
  have e2 : (g.value q : ℝ) - (gradient none p t A q + z q : ℚ) + (((gradient none p t A q : ℚ) : ℝ) - ∑ i, DP.dLdZ none (fun i => (t i : ℝ)) (logits (fun i => (A i : ℝ)) c W) (i, q.1) * (A (i, q.2) : ℝ)) =
      (g.value q : ℝ) - (∑ i, DP.dLdZ none (fun i => (t i : ℝ)) (logits (fun i => (A i : ℝ)) c W) (i, q.1) * (A (i, q.2) : ℝ) + z q) := by push_cast; ring
  rw [e2] at h3
  linarith

end

/-! ## Privacy -/

theorem hide_enter [NeZero n] {h src : Fin n} {x x' : ι → ℚ} (e : src ≠ h → x = x') : Hidden h (ASame h) (enter k src x) (enter k src x') :=
  .bind .refl (.encryptA fun hs => by rw [e hs]) fun _ _ ha => .pure ⟨rfl, ha⟩

theorem hide_labels [NeZero n] {h label : Fin n} {L L' : Labels n ι} (e : SameLabels h label L L') : Hidden h (ASame h) (L.encrypt k label) (L'.encrypt k label) := by
  cases L <;> cases L' <;> first | exact hide_enter e | exact .pure e | exact e.elim

theorem hide_correct [NeZero n] {h feature : Fin n} {alpha : Option ℚ} {p p' : ι → ℚ} (e : feature ≠ h → p = p') {x x' : AST n ι} (f : ASame h x x') :
    Hidden h (ASame h) (correct k feature alpha p x) (correct k feature alpha p' x') := by
  cases alpha with
  | none => exact .pure f
  | some α => exact .bind .refl (hide_enter fun hs => by rw [e hs]) fun _ _ ha => hide_mul _ f ha

theorem hide_noise [NeZero n] {h : Fin n} {N N' : Noise n ι} (e : SameNoise h N N') {x x' : AST n ι} (f : ASame h x x') : Hidden h (ASame h) (addNoise k N x) (addNoise k N' x') := by
  obtain ⟨e1, e2, e3, e4⟩ := e
  have hj : ∀ m : ℚ, Hidden h (ASame h) (do let z ← AST.mulPub (elementwise ι) N.joint fun _ => m; x.add z) (do let z ← AST.mulPub (elementwise ι) N'.joint fun _ => m; x'.add z) := fun m =>
    .bind .refl (hide_mulPub _ e4 _) fun _ _ ha => hide_add f ha
  unfold addNoise
  rw [← e1, ← e2]
  cases N.magnitude with
  | none => exact .pure f
  | some m =>
    by_cases hm : m = 0
    · simp only [hm, if_true]; exact .pure f
    · simp only [hm, if_false]
      cases N.src with
      | none => exact hj m
      | some r =>
        by_cases hr : r = 0
        · simp only [hr, if_true]; exact hj m
        · simp only [hr, if_false]
          exact .bind .refl (hide_enter fun hs => by rw [e3 r hs]) fun _ _ ha => hide_add f ha

theorem hide_grad [NeZero n] {h feature label : Fin n} (alpha : Option ℚ) {p p' : Fin b × Fin o → ℚ} {A A' : Fin b × Fin d → ℚ} (ef : feature ≠ h → p = p' ∧ A = A') {L L' : Labels n (Fin b × Fin o)}
    (eL : SameLabels h label L L') {N N' : Noise n (Fin o × Fin d)} (eN : SameNoise h N N') : Hidden h (ASame h) (lastLayerGrad k feature label alpha p L A N) (lastLayerGrad k feature label alpha p' L' A' N') :=
  .bind .refl (hide_enter fun hs => by rw [(ef hs).1]) fun _ _ h1 => .bind .refl (hide_labels eL) fun _ _ h2 => .bind .refl (hide_sub h1 h2) fun _ _ h3 => .bind .refl (hide_divInt h3 _) fun _ _ h4 =>
    .bind .refl (hide_correct (fun hs => (ef hs).1) h4) fun _ _ h5 => .bind .refl (hide_enter fun hs => (ef hs).2) fun _ _ h6 => .bind .refl (hide_mul _ h5 h6) fun _ _ h7 => hide_noise eN h7

theorem SameLabels.symm {h label : Fin n} {L L' : Labels n ι} (e : SameLabels h label L L') : SameLabels h label L' L := by
  cases L <;> cases L' <;> first | exact fun hs => (e hs).symm | exact SameTensor.symm _ _ e | exact e.elim

theorem SameNoise.symm {h : Fin n} {N N' : Noise n ι} (e : SameNoise h N N') : SameNoise h N' N := ⟨e.1.symm, e.2.1.symm, fun r hr => (e.2.2.1 r hr).symm, SameTensor.symm _ _ e.2.2.2⟩

/-- **C101 (privacy).** Let `h` be any party: the feature source, the label source, the source of the noise or another. Two computations of the gradient that differ only in what `h` enters (predictions and
inputs of the last layer, labels, noise) look the same to all other parties together. -/
theorem C101_private [NeZero n] (h feature label : Fin n) (k : ℕ) (alpha : Option ℚ) {p p' : Fin b × Fin o → ℚ} {A A' : Fin b × Fin d → ℚ} (ef : feature ≠ h → p = p' ∧ A = A') {L L' : Labels n (Fin b × Fin o)}
    (eL : SameLabels h label L L') {N N' : Noise n (Fin o × Fin d)} (eN : SameNoise h N N') :
    Private h (SameTensor h) (lastLayerGrad k feature label alpha p L A N) (lastLayerGrad k feature label alpha p' L' A' N') :=
  Hidden.private (R := ASame h) (SameTensor.symm (h := h)) (hide_grad alpha ef eL eN) (hide_grad alpha (fun hs => ⟨(ef hs).1.symm, (ef hs).2.symm⟩) eL.symm eN.symm)

/-- **C101 (what the feature source learns).** The share of the gradient that `h` sends when the gradient is revealed is fixed by the revealed (noisy) gradient and what the other parties hold. -/
theorem C101_result (h : Fin n) {g g' : AST n (Fin o × Fin d)} (e : SameTensor h g g') : g.share h = g'.share h ↔ reveal g.share = reveal g'.share :=
  C77_result (sh := fun _ => Fin o × Fin d) h (R := fun _ => g) (R' := fun _ => g') (fun _ => e) 0

/-! ## Runs without wrap-around -/

theorem possible_enter [NeZero n] {β : Type} (src : Fin n) (x : ι → ℚ) {f : AST n ι → Proto n β} (hf : ∀ a : AST n ι, a.Alone → ∀ c, Possible (f a) c) (c : ℕ) : Possible (enter k src x >>= f) c :=
  Backprop.possible_assoc (Possible.input src _ (fun a ha c => by
    obtain ⟨Z, h1, h2⟩ := hf ⟨a, 2 ^ k⟩ ha c
    exact ⟨Z, h1, fun Z' hZ' => ⟨trivial, h2 Z' hZ'⟩⟩) c)

theorem possible_ret [NeZero n] {α β : Type} (a : α) {f : α → Proto n β} {c : ℕ} (h : Possible (f a) c) : Possible (pure a >>= f) c := by
  obtain ⟨Z, h1, h2⟩ := h
  exact ⟨Z, h1, fun Z' hZ' => ⟨trivial, h2 Z' hZ'⟩⟩

theorem possible_end [NeZero n] {α : Type} {m : Proto n α} {Q : α → Prop} (hm : Calm m Q) (c : ℕ) : Possible m c := by
  obtain ⟨Z, h1, h2⟩ := Possible.of_calm hm (f := pure) (fun a _ c => Backprop.possible_pure a c) c
  exact ⟨Z, h1, fun Z' hZ' => (h2 Z' hZ').1⟩

theorem possible_noise [NeZero n] (N : Noise n ι) (hN : N.joint.Alone) {x : AST n ι} (hx : x.Alone) (c : ℕ) : Possible (addNoise k N x) c := by
  have hj : ∀ m : ℚ, Possible (do let z ← AST.mulPub (elementwise ι) N.joint fun _ => m; x.add z) c := fun m =>
    Possible.of_calm (calm_mulPub _ hN _) (fun z hz c => possible_end (calm_add hx hz) c) c
  unfold addNoise
  cases N.magnitude with
  | none => exact Backprop.possible_pure _ c
  | some m =>
    by_cases hm : m = 0
    · simp only [hm, if_true]; exact Backprop.possible_pure _ c
    · simp only [hm, if_false]
      cases N.src with
      | none => exact hj m
      | some r =>
        by_cases hr : r = 0
        · simp only [hr, if_true]; exact hj m
        · simp only [hr, if_false]
          exact possible_enter r _ (fun z hz c => possible_end (calm_add hx hz) c) c

/-- **C101, runs without wrap-around.** Whoever the sources are, there are correct tuples with which no truncation wraps around. -/
theorem C101_good_run [NeZero n] (feature label : Fin n) (k : ℕ) (alpha : Option ℚ) (p : Fin b × Fin o → ℚ) (t : Fin b × Fin o → ℚ) (A : Fin b × Fin d → ℚ) (N : Noise n (Fin o × Fin d))
    (hN : ∀ p ≠ 0, ∀ i, N.joint.share p i = 0) : ∃ T : Tuples n, T.Valid ∧ (lastLayerGrad k feature label alpha p (.plain t) A N T 0).good := by
  refine Possible.run (possible_enter feature _ (fun x1 h1 c => possible_enter label t (fun x2 h2 c => Possible.of_calm (calm_sub h1 h2) (fun x3 h3 c => Possible.of_calm (calm_divInt h3 _) (fun x4 h4 c => ?_) c) c) c) 0)
  have hrest : ∀ x5 : AST n (Fin b × Fin o), ∀ c, Possible (do let a ← enter k feature A; let dw ← AST.mul (transMat b o d) x5 a; addNoise k N dw) c := fun x5 c =>
    possible_enter feature A (fun x6 _ c => Possible.of_calm (calm_mul _ _ _) (fun x7 h7 c => possible_noise N hN h7 c) c) c
  cases alpha with
  | none => exact possible_ret _ (hrest x4 c)
  | some α => exact Backprop.possible_assoc (possible_enter feature _ (fun y _ c => Possible.of_calm (calm_mul _ _ _) (fun x5 _ c => hrest x5 c) c) c)

/-! ## A concrete case -/

/-- Three parties, 16 bits, two samples with one output and two inputs: there is room. -/
theorem sample_room : Room 3 16 2 1 (1 / 2 ^ 16) 1 1 4 1 (1 / 2 ^ 16) := by
  constructor <;> norm_num [diffErr, dzErr, gradErr]

/-- Party 1 draws the noise. -/
def sampleNoise : Noise 3 (Fin 1 × Fin 2) := ⟨some (1 / 4), some 1, fun _ _ => 2, ⟨0, 2 ^ 16⟩⟩

/-- Predictions of 1/2 with `rappor_prob = 3/4`, labels 1 and 0 of party 2, noise of party 1: the conditions are met, and the gradient is not trivial. -/
example : Sat (lastLayerGrad 16 0 2 (some (3 / 4)) (fun _ : Fin 2 × Fin 1 => 1 / 2) (.plain fun i => if i.1 = 0 then 1 else 0) (fun i : Fin 2 × Fin 2 => if i.1 = 0 then 4 else 1) sampleNoise)
    fun g => Near 16 g (fun _ => 1 / 8 * (1 - 4) + 1 / 2) (gradErr 3 16 2 1 (1 / 2 ^ 16) 1 1 4 + 1 / 2 ^ 16) := by
  refine (C101_gradient 0 2 sample_room (alpha := some (3 / 4)) (fun α h => by cases h; norm_num) (.plain _) (.drawn (1 / 4) 1 rfl (by norm_num) rfl (by decide)) (fun i => by norm_num) (fun i => by split_ifs <;> norm_num)
    (fun i => by norm_num [factor, report]) (fun i => by split_ifs <;> norm_num) (fun q => by norm_num [sampleNoise])).mono fun g hg => hg.congr fun q => ?_
  simp only [gradient, dz, factor, report, Fin.sum_univ_two, sampleNoise]
  norm_num

/-- The error in this case is below 3/1000. -/
example : gradErr 3 16 2 1 (1 / 2 ^ 16) 1 1 4 + 1 / 2 ^ 16 < 3 / 1000 := by norm_num [diffErr, dzErr, gradErr]

/-- Noise drawn jointly, which encodes one half at party 0. -/
example : ∃ e, NoiseIs 16 (⟨some (1 / 4), some 0, fun _ _ => 0, ⟨fun r _ => if r = 0 then 32768 else 0, 2 ^ 16⟩⟩ : Noise 3 Unit) (fun _ => 1 / 2 * (1 / 4)) e :=
  ⟨_, .joint (1 / 4) 0 1 (fun _ => 1 / 2) rfl (by norm_num) (.inr rfl) ⟨rfl, by decide +kernel⟩ le_rfl (by norm_num) (fun _ => by norm_num [abs_of_pos]) (by norm_num [abs_of_pos]) (by norm_num [abs_of_pos])⟩

/-- Two computations that differ in the labels of party 2, and in its unused random numbers, meet the conditions. -/
example : SameLabels (2 : Fin 3) 2 (.plain fun _ : Fin 2 × Fin 1 => 1) (.plain fun _ => 0) ∧ SameNoise (2 : Fin 3) sampleNoise { sampleNoise with drawn := fun r _ => if r = 2 then 7 else 2 } :=
  ⟨fun h => absurd rfl h, rfl, rfl, fun r hr => by simp [sampleNoise, hr], rfl, fun _ _ => rfl⟩

end CrypTen.Split

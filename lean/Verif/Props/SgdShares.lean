import Verif.Spec.SgdShares
import Verif.Props.Sgd
import Verif.Props.Program

/-! # C44 on shares: the error of a history of SGD steps -/

namespace CrypTen.Sgd
variable {n : ℕ} {ι : Type} {k : ℕ}

theorem Scalar.err_nonneg (c : Scalar) {M e : ℚ} (hM : 0 ≤ M) (he : 0 ≤ e) : 0 ≤ c.err n k M e := by
  cases c <;> unfold Scalar.err <;> positivity

theorem Scalar.oneSub_val (c : Scalar) : c.oneSub.val = 1 - c.val := by
  cases c <;> simp [Scalar.oneSub, Scalar.val]

/-- Sums fit into words. -/
theorem Room.fit {thr : Option ℚ} {h : HyperS} {M E C : ℚ} (r : Room n k thr h M E C) {e : ℚ} (he0 : 0 ≤ e) (he : e ≤ E) :
    2 ^ k * (M + e) < 2 ^ 63 := by
  refine lt_of_le_of_lt ?_ r.product
  have h1 : (1 : ℚ) ≤ 2 ^ k := one_le_pow₀ (by norm_num)
  have hM := r.magnitude
  have hC := r.one
  have h2 : (0 : ℚ) ≤ 1 / 2 ^ k := by positivity
  have h3 : M + e ≤ (M + E) * (C + 1 / 2 ^ k) := by nlinarith
  have h4 : 0 ≤ (M + E) * (C + 1 / 2 ^ k) := by nlinarith
  calc (2 : ℚ) ^ k * (M + e) ≤ 2 ^ k * ((M + E) * (C + 1 / 2 ^ k)) := mul_le_mul_of_nonneg_left h3 (by positivity)
    _ ≤ 2 ^ k * 2 ^ k * ((M + E) * (C + 1 / 2 ^ k)) := by
      rw [mul_assoc]
      exact mul_le_mul_of_nonneg_left (le_mul_of_one_le_left h4 h1) (by positivity)

/-- A product with a Python number. -/
theorem near_scale [NeZero n] (hn : n < 2 ^ 60) (hk0 : 0 < k) (hk : k ≤ 62) {thr : Option ℚ} {h : HyperS} {M E C : ℚ} (r : Room n k thr h M E C)
    (c : Scalar) (hc : |c.val| ≤ C) {x : AST n ι} {v : ι → ℚ} {e : ℚ} (he0 : 0 ≤ e) (he : e ≤ E) (hx : Near k x v e) (hv : ∀ i, |v i| ≤ M)
    (hvc : ∀ i, |v i * c.val| ≤ M) (hce : c.err n k M e ≤ E) : Sat (scale x c) fun z => Near k z (fun i => v i * c.val) (c.err n k M e) := by
  have hM := r.magnitude
  cases c with
  | int z =>
    exact Sat.pure (near_mulInt hx z hvc (r.fit (Scalar.err_nonneg (n := n) (k := k) (.int z) hM he0) hce))
  | float q =>
    have hC : 0 ≤ C := le_trans zero_le_one r.one
    have hq : |q| ≤ C := hc
    have hp : (0 : ℚ) ≤ 1 / 2 ^ k := by positivity
    have h2 : 2 ^ k * |q| < 2 ^ 63 := lt_of_le_of_lt (mul_le_mul_of_nonneg_left hq (by positivity)) r.scalar
    have h3 : 2 ^ k * 2 ^ k * (((1 : ℕ) : ℚ) * ((M + e) * (|q| + 1 / 2 ^ k))) < 2 ^ 63 := by
      refine lt_of_le_of_lt ?_ r.product
      rw [Nat.cast_one, one_mul]
      refine mul_le_mul_of_nonneg_left ?_ (by positivity)
      have hq0 := abs_nonneg q
      exact mul_le_mul (by linarith) (by linarith) (by positivity) (by linarith)
    refine (near_bilinearPub hn hk0 hk (elementwise ι) (fun _ => q) (L := 1) (fun j => le_refl _) he0 hM (abs_nonneg q) hx hv (fun _ => le_refl _) h2 h3).mono
      fun z hz => ?_
    have e1 : bilinearQ (elementwise ι) v (fun _ => q) = fun i => v i * q := funext fun i => bilinearQ_elementwise _ _ i
    rw [e1] at hz
    refine hz.mono (le_of_eq ?_)
    unfold Scalar.err
    push_cast
    ring

theorem near_congr {x : AST n ι} {v w : ι → ℚ} {e f : ℚ} (h : Near k x v e) (hv : v = w) (he : e = f) : Near k x w f := hv ▸ he ▸ h

/-- The thresholded gradient. -/
theorem near_used [NeZero n] (hn : n < 2 ^ 60) (hk0 : 0 < k) (hk : k ≤ 62) {thr : Option ℚ} {h : HyperS} {M E C : ℚ} (r : Room n k thr h M E C)
    {x : AST n ι} {g : ι → ℚ} {e : ℚ} (he0 : 0 ≤ e) (he : e ≤ E) (hx : Near k x g e) (hg : ∀ i, |g i| ≤ M) (hc : Clear n k thr g e) :
    Sat (usedShares (2 ^ k) (squareThreshold thr) x) fun z => Near k z (usedGradient thr 0 g fun _ => 0) e := by
  cases thr with
  | none =>
    refine Sat.pure (near_congr hx (funext fun i => ?_) rfl)
    simp [usedGradient]
  | some t =>
    have hM := r.magnitude
    have hroom := r.threshold t rfl
    have hk1 : (1 : ℚ) ≤ 2 ^ k := one_le_pow₀ (by norm_num)
    have hkp : (0 : ℚ) < 2 ^ k := by positivity
    have hv : ∀ i, |x.value i| ≤ M + E := fun i => (hx.abs_le (hg i)).trans (by linarith)
    have hv2 : ∀ i, |x.value i * x.value i| ≤ (M + E) ^ 2 := fun i => by
      rw [abs_mul, sq]
      exact mul_le_mul (hv i) (hv i) (abs_nonneg _) (by linarith)
    have ht := trunc_any k (t * t)
    have ht2 := abs_le.1 ht
    have hfit : ∀ i, Fits (x.scale * x.scale * (x.value i * x.value i)) := fun i => by
      refine fits_of_abs ?_ hroom
      rw [hx.scaleQ, abs_mul, abs_of_pos (a := (2 : ℚ) ^ k * 2 ^ k) (by positivity)]
      refine mul_le_mul_of_nonneg_left ?_ (by positivity)
      have := hv2 i
      nlinarith [sq_nonneg t, (Nat.cast_nonneg n : (0 : ℚ) ≤ n)]
    have hn1 : (1 : ℚ) ≤ n := by exact_mod_cast Nat.pos_of_ne_zero (NeZero.ne n)
    have hd0 : (0 : ℚ) < 1 / 2 ^ k := by positivity
    have hnd : (n : ℚ) / 2 ^ k = n * (1 / 2 ^ k) := by ring
    have hn1d : ((n : ℚ) + 1) / 2 ^ k = n * (1 / 2 ^ k) + 1 / 2 ^ k := by ring
    have hfit2 : ∀ i (q : ℚ), |q - x.value i * x.value i| < n / 2 ^ k → Fits (2 ^ k * (q - truncQ (2 ^ k * (t * t)) / 2 ^ k)) := by
      intro i q hq
      have h1 : |q| ≤ (M + E) ^ 2 + n * (1 / 2 ^ k) := by
        have := abs_add_le (q - x.value i * x.value i) (x.value i * x.value i)
        rw [sub_add_cancel] at this
        have := hv2 i
        rw [hnd] at hq
        linarith
      have h2 : |(truncQ (2 ^ k * (t * t)) : ℚ) / 2 ^ k| ≤ t ^ 2 + 1 / 2 ^ k := by
        rw [abs_le]
        constructor <;> nlinarith [ht2.1, ht2.2, sq_nonneg t]
      have h3 : |q - (truncQ (2 ^ k * (t * t)) : ℚ) / 2 ^ k| ≤ (M + E) ^ 2 + t ^ 2 + (n + 1) * (1 / 2 ^ k) := by
        refine (abs_sub _ _).trans ?_
        linarith
      refine fits_of_abs (b := 2 ^ k * ((M + E) ^ 2 + t ^ 2 + (n + 1) * (1 / 2 ^ k))) ?_ ?_
      · rw [abs_mul, abs_of_pos hkp]
        exact mul_le_mul_of_nonneg_left h3 hkp.le
      · refine lt_of_le_of_lt ?_ hroom
        have hk2 : (2 : ℚ) ≤ 2 ^ k := by
          calc (2 : ℚ) = 2 ^ 1 := by norm_num
            _ ≤ 2 ^ k := pow_le_pow_right₀ (by norm_num) hk0
        have hA : 0 ≤ (M + E) ^ 2 + t ^ 2 := by positivity
        have e1 : (2 : ℚ) ^ k * ((M + E) ^ 2 + t ^ 2 + (n + 1) * (1 / 2 ^ k)) = 2 ^ k * ((M + E) ^ 2 + t ^ 2) + (n + 1) := by
          field_simp
        rw [e1]
        have h5 : (2 : ℚ) ^ k * ((M + E) ^ 2 + t ^ 2) ≤ 2 ^ k * 2 ^ k * ((M + E) ^ 2 + t ^ 2) := by
          rw [mul_assoc]
          exact le_mul_of_one_le_left (by positivity) hk1
        have h7 : (4 : ℚ) ≤ 2 ^ k * 2 ^ k := by nlinarith
        have h8 := mul_le_mul_of_nonneg_right h7 (Nat.cast_nonneg n : (0 : ℚ) ≤ n)
        have h6 : (n : ℚ) + 1 ≤ 2 ^ k * 2 ^ k * n := by linarith
        rw [mul_add]
        linarith
    refine (C44_threshold_shares_partial hn k hk (t * t) x hx.1 hfit hfit2).mono fun z hz => ⟨hz.1, fun i => ?_⟩
    obtain ⟨-, hkeep, hdrop⟩ := hz.2 i
    have hxi := hx.2 i
    have hab : |x.value i| ≤ |g i| + e := by
      have := abs_add_le (x.value i - g i) (g i)
      rw [sub_add_cancel] at this
      linarith
    have hab2 : |g i| - e ≤ |x.value i| := by
      have := abs_sub_abs_le_abs_sub (g i) (x.value i)
      rw [abs_sub_comm] at this
      linarith
    have hxx : x.value i * x.value i = |x.value i| ^ 2 := by rw [sq_abs, sq]
    have hx0 := abs_nonneg (x.value i)
    have hg0 := abs_nonneg (g i)
    have hnp : 0 < (n : ℚ) * (1 / 2 ^ k) := mul_pos (by linarith) hd0
    rcases hc t rfl i with hlow | ⟨hge, hhigh⟩
    · have h1 : |x.value i| ^ 2 ≤ (|g i| + e) ^ 2 := pow_le_pow_left₀ hx0 hab 2
      have h2 := hkeep (by rw [hxx, hnd]; rw [hn1d] at hlow; linarith [ht2.1])
      have h3 : |g i| < |t| := by
        rw [← sq_lt_sq]
        have : g i ^ 2 ≤ (|g i| + e) ^ 2 := by rw [← sq_abs (g i)]; exact pow_le_pow_left₀ hg0 (by linarith) 2
        rw [hn1d] at hlow
        linarith
      rw [h2]
      simpa [usedGradient, h3] using hxi
    · have h1 : (|g i| - e) ^ 2 ≤ |x.value i| ^ 2 := pow_le_pow_left₀ (by linarith) hab2 2
      have h2 := hdrop (by rw [hxx, hnd]; rw [hn1d] at hhigh; linarith [ht2.2])
      have h3 : ¬ |g i| < |t| := by
        rw [not_lt, ← sq_le_sq]
        have : (|g i| - e) ^ 2 ≤ g i ^ 2 := by rw [← sq_abs (g i)]; exact pow_le_pow_left₀ (by linarith) (by linarith) 2
        rw [hn1d] at hhigh
        linarith
      rw [h2]
      simpa [usedGradient, h3] using he0

/-- The L2 penalty. -/
theorem near_decay [NeZero n] (hn : n < 2 ^ 60) (hk0 : 0 < k) (hk : k ≤ 62) {thr : Option ℚ} {h : HyperS} {M E C : ℚ} (r : Room n k thr h M E C)
    {p d : AST n ι} {v g : ι → ℚ} {ep eg : ℚ} (hep0 : 0 ≤ ep) (hep : ep ≤ E) (heg0 : 0 ≤ eg) (hp : Near k p v ep)
    (hd : Near k d (usedGradient thr 0 g fun _ => 0) eg) (hv : ∀ i, |v i| ≤ M) (hw : ∀ i, |v i * h.weightDecay.val| ≤ M)
    (hu : ∀ i, |usedGradient thr h.weightDecay.val g v i| ≤ M) (hE : errUsed n k h M ep eg ≤ E) :
    Sat (decayShares h p d) fun z => Near k z (usedGradient thr h.weightDecay.val g v) (errUsed n k h M ep eg) := by
  have heq : (fun i => usedGradient thr 0 g (fun _ => 0) i + v i * h.weightDecay.val) = usedGradient thr h.weightDecay.val g v :=
    funext fun i => by simp only [usedGradient]; ring
  unfold decayShares errUsed at *
  by_cases h0 : h.weightDecay.val = 0
  · rw [if_pos h0]
    refine Sat.pure (near_congr hd ?_ (if_pos h0).symm)
    rw [← heq, h0]
    funext i
    ring
  · rw [if_neg h0] at hE ⊢
    rw [if_neg h0]
    have h1 := h.weightDecay.err_nonneg (n := n) (k := k) r.magnitude hep0
    refine Sat.bind (near_scale hn hk0 hk r h.weightDecay r.weightDecay hep0 hep hp hv hw (by linarith)) fun w hw' => ?_
    refine ((near_add hd hw' (B := M) (fun i => ?_) (r.fit (by linarith) hE)).mono fun z hz => near_congr hz heq rfl).sat
    have := congrFun heq i
    beta_reduce at this
    rw [this]
    exact hu i

/-- The velocity. -/
theorem near_velocity [NeZero n] (hn : n < 2 ^ 60) (hk0 : 0 < k) (hk : k ≤ 62) {thr : Option ℚ} {h : HyperS} {M E C : ℚ} (r : Room n k thr h M E C)
    {b : Option (AST n ι)} {v : Option (ι → ℚ)} {ev : Option ℚ} {d : AST n ι} {u : ι → ℚ} {ed : ℚ} (hed0 : 0 ≤ ed) (hed : ed ≤ E) (hd : Near k d u ed)
    (hb : match b, v, ev with
      | none, none, none => True
      | some b, some v, some f => Near k b v f
      | _, _, _ => False)
    (hev : ∀ f, ev = some f → 0 ≤ f ∧ f ≤ E) (hu : ∀ i, |u i| ≤ M) (hs : ∀ i, |u i * (1 - h.dampening.val)| ≤ M)
    (hold : ∀ w, v = some w → ∀ i, |w i| ≤ M ∧ |w i * h.momentum.val| ≤ M) (hnew : ∀ i, |newVelocity h.exact v u i| ≤ M)
    (hE : errVelocity n k h M ev ed ≤ E) :
    Sat (bufferShares h b d) fun z => Near k z (newVelocity h.exact v u) (errVelocity n k h M ev ed) := by
  match b, v, ev, hb, hev, hold, hnew, hE with
  | none, none, none, _, _, _, _, _ => exact Sat.pure hd
  | some b, some v, some f, hb, hev, hold, hnew, hE =>
    obtain ⟨hf0, hf⟩ := hev f rfl
    have hE : h.momentum.err n k M f + h.dampening.oneSub.err n k M ed ≤ E := hE
    have h1 := h.momentum.err_nonneg (n := n) (k := k) r.magnitude hf0
    have h2 := h.dampening.oneSub.err_nonneg (n := n) (k := k) r.magnitude hed0
    have heq : (fun i => v i * h.momentum.val + u i * h.dampening.oneSub.val) = newVelocity h.exact (some v) u := funext fun i => by
      show _ = h.momentum.val * v i + (1 - h.dampening.val) * u i
      rw [Scalar.oneSub_val]
      ring
    refine Sat.bind (near_scale hn hk0 hk r h.momentum r.momentum hf0 hf hb (fun i => (hold v rfl i).1) (fun i => (hold v rfl i).2) (by linarith)) fun b' hb' => ?_
    refine Sat.bind (near_scale hn hk0 hk r h.dampening.oneSub (by rw [Scalar.oneSub_val]; exact r.dampening) hed0 hed hd hu
      (fun i => by rw [Scalar.oneSub_val]; exact hs i) (by linarith)) fun e' he' => ?_
    refine ((near_add hb' he' (B := M) (fun i => ?_) (r.fit (by linarith) hE)).mono fun z hz => near_congr hz heq rfl).sat
    have := congrFun heq i
    beta_reduce at this
    rw [this]
    exact hnew i

theorem errUsed_nonneg {h : HyperS} {M ep eg : ℚ} (hM : 0 ≤ M) (hep : 0 ≤ ep) (heg : 0 ≤ eg) : 0 ≤ errUsed n k h M ep eg := by
  unfold errUsed
  split
  · exact heg
  · exact add_nonneg heg (h.weightDecay.err_nonneg hM hep)

theorem errVelocity_nonneg {h : HyperS} {M ed : ℚ} {ev : Option ℚ} (hM : 0 ≤ M) (hev : ∀ f, ev = some f → 0 ≤ f) (hed : 0 ≤ ed) :
    0 ≤ errVelocity n k h M ev ed := by
  cases ev with
  | none => exact hed
  | some f => exact add_nonneg (h.momentum.err_nonneg hM (hev f rfl)) (h.dampening.oneSub.err_nonneg hM hed)

/-- One step on shares. -/
theorem near_step [NeZero n] (hn : n < 2 ^ 60) (hk0 : 0 < k) (hk : k ≤ 62) {thr : Option ℚ} {h : HyperS} {M E C : ℚ} (r : Room n k thr h M E C)
    {s : AST n ι × Option (AST n ι)} {d : (ι → ℚ) × Option (ι → ℚ)} {e : ℚ × Option ℚ} (he0 : 0 ≤ e.1 ∧ ∀ f, e.2 = some f → 0 ≤ f)
    (heE : e.1 ≤ E ∧ ∀ f, e.2 = some f → f ≤ E) (hM : ∀ i, |d.1 i| ≤ M)
    (hs : ApproxState k s d e) {x : AST n ι} {g : ι → ℚ} {eg : ℚ} (hx : Approx k x g eg) (hf : StepFits n k thr h M E d e g eg) (hc : Clear n k thr g eg) :
    Sat (stepShares (2 ^ k) (squareThreshold thr) h s (some x)) fun s' => ApproxState k s' (docStep thr h.exact d (some g)) (errStep n k h M e (some eg)) := by
  have hM0 := r.magnitude
  have heg : eg ≤ errUsed n k h M e.1 eg := by
    unfold errUsed
    split
    · exact le_refl _
    · linarith [h.weightDecay.err_nonneg (n := n) (k := k) hM0 he0.1]
  have hed0 := errUsed_nonneg (n := n) (k := k) (h := h) hM0 he0.1 hf.errGrad
  refine Sat.bind (near_used hn hk0 hk r hf.errGrad (heg.trans hf.errUsed) hx hf.grad hc) fun u hu => ?_
  refine Sat.bind (near_decay hn hk0 hk r he0.1 heE.1 hf.errGrad hs.1 hu hM hf.decay hf.used hf.errUsed) fun w hw => ?_
  obtain ⟨D, hD⟩ : ∃ D, usedGradient thr h.weightDecay.val g d.1 = D := ⟨_, rfl⟩
  obtain ⟨ed, hed⟩ : ∃ ed, errUsed n k h M e.1 eg = ed := ⟨_, rfl⟩
  have descend : ∀ (y : AST n ι), Near k y (direction thr h.exact d g) (errDirection n k h M e.2 ed) → 0 ≤ errDirection n k h M e.2 ed →
      Sat (descendShares h s.1 y) fun z => Near k z (fun i => d.1 i - direction thr h.exact d g i * h.lr.val) (e.1 + h.lr.err n k M (errDirection n k h M e.2 ed)) := by
    intro y hy hy0
    have hE : e.1 + h.lr.err n k M (errDirection n k h M e.2 ed) ≤ E := by rw [← hed]; exact hf.errNext
    have h1 := h.lr.err_nonneg (n := n) (k := k) hM0 hy0
    refine Sat.bind (near_scale hn hk0 hk r h.lr r.lr hy0 (by rw [← hed]; exact hf.errDir) hy (fun i => (hf.dir i).1) (fun i => (hf.dir i).2) (by linarith [he0.1])) fun z hz => ?_
    refine (near_sub hs.1 hz (B := M) (fun i => ?_) (r.fit (by linarith [he0.1]) hE)).sat
    have h2 := hf.next i
    have h3 : (docStep thr h.exact d (some g)).1 i = d.1 i - direction thr h.exact d g i * h.lr.val := by
      simp only [docStep, direction]
      split
      · rw [mul_comm]; rfl
      · rw [mul_comm]; rfl
    rwa [h3] at h2
  rw [hD, hed] at hw
  rw [hed] at hed0
  by_cases hm : h.momentum.val = 0
  · rw [if_pos hm]
    have hm' : h.exact.momentum = 0 := hm
    have hdir : direction thr h.exact d g = D := by simp only [direction, if_pos hm']; exact hD
    have herr : errDirection n k h M e.2 ed = ed := if_pos hm
    refine Sat.bind (descend w (by rw [hdir, herr]; exact hw) (by rw [herr]; exact hed0)) fun p hp => Sat.pure ⟨?_, ?_⟩
    · refine near_congr hp ?_ ?_
      · simp only [docStep, if_pos hm', direction]
        funext i
        show _ - _ * h.lr.val = _ - h.lr.val * _
        ring
      · simp only [errStep, hed]
    · simp only [docStep, if_pos hm', errStep, if_pos hm]
      exact hs.2
  · rw [if_neg hm]
    have hm' : ¬ h.exact.momentum = 0 := hm
    have hv0 := errVelocity_nonneg (n := n) (k := k) (h := h) hM0 he0.2 hed0
    have hvE : errVelocity n k h M e.2 ed ≤ E := by rw [← hed]; exact hf.errNew
    refine Sat.bind (near_velocity hn hk0 hk r hed0 (by rw [← hed]; exact hf.errUsed) hw hs.2 (fun f hf' => ⟨he0.2 f hf', heE.2 f hf'⟩)
      (by rw [← hD]; exact hf.used) (by rw [← hD]; exact hf.share) hf.old (by rw [← hD]; exact fun i => (hf.new i).1) hvE) fun b hb => ?_
    have hdirS : Sat (directionShares h w b) fun y => Near k y (direction thr h.exact d g) (errDirection n k h M e.2 ed) := by
      unfold directionShares
      by_cases hne : h.nesterov
      · rw [if_pos hne]
        have herr : errDirection n k h M e.2 ed = ed + h.momentum.err n k M (errVelocity n k h M e.2 ed) := by simp only [errDirection, if_neg hm, if_pos hne]
        have heq : (fun i => D i + newVelocity h.exact d.2 D i * h.momentum.val) = direction thr h.exact d g := by
          funext i
          have hne' : h.exact.nesterov = true := hne
          simp only [direction, if_neg hm', if_pos hne']
          rw [← hD]
          show _ + _ * h.momentum.val = _ + h.momentum.val * _
          rw [mul_comm]
          rfl
        have h1 := h.momentum.err_nonneg (n := n) (k := k) hM0 hv0
        have h2 : ed + h.momentum.err n k M (errVelocity n k h M e.2 ed) ≤ E := by rw [← herr, ← hed]; exact hf.errDir
        refine Sat.bind (near_scale hn hk0 hk r h.momentum r.momentum hv0 hvE hb (by rw [← hD]; exact fun i => (hf.new i).1)
          (by rw [← hD]; exact fun i => (hf.new i).2) (by linarith)) fun m hm2 => ?_
        refine ((near_add hw hm2 (B := M) (fun i => ?_) (r.fit (by linarith) h2)).mono fun z hz => near_congr hz heq herr.symm).sat
        have := congrFun heq i
        beta_reduce at this
        rw [this]
        exact (hf.dir i).1
      · rw [if_neg hne]
        refine Sat.pure (near_congr hb ?_ ?_)
        · have hne' : ¬ h.exact.nesterov = true := hne
          funext i
          simp only [direction, if_neg hm', if_neg hne']
          rw [← hD]
          rfl
        · simp only [errDirection, if_neg hm, if_neg hne]
    refine Sat.bind hdirS fun y hy => ?_
    refine Sat.bind (descend y hy ?_) fun p hp => Sat.pure ⟨?_, ?_⟩
    · unfold errDirection
      rw [if_neg hm]
      split
      · exact add_nonneg hed0 (h.momentum.err_nonneg hM0 hv0)
      · exact hv0
    · refine near_congr hp ?_ ?_
      · simp only [docStep, if_neg hm', direction]
        funext i
        show _ - _ * h.lr.val = _ - h.lr.val * _
        ring
      · simp only [errStep, hed]
    · simp only [docStep, if_neg hm', errStep, if_neg hm, hed]
      refine near_congr hb ?_ rfl
      rw [← hD]
      rfl

theorem errStep_nonneg {h : HyperS} {M : ℚ} {e : ℚ × Option ℚ} {eg : ℚ} (hM : 0 ≤ M) (he : 0 ≤ e.1 ∧ ∀ f, e.2 = some f → 0 ≤ f) (heg : 0 ≤ eg) :
    0 ≤ (errStep n k h M e (some eg)).1 ∧ ∀ f, (errStep n k h M e (some eg)).2 = some f → 0 ≤ f := by
  have hd := errUsed_nonneg (n := n) (k := k) (h := h) hM he.1 heg
  have hv := errVelocity_nonneg (n := n) (k := k) (h := h) hM he.2 hd
  constructor
  · refine add_nonneg he.1 (h.lr.err_nonneg hM ?_)
    unfold errDirection
    split
    · exact hd
    · split
      · exact add_nonneg hd (h.momentum.err_nonneg hM hv)
      · exact hv
  · intro f hf
    simp only [errStep] at hf
    split at hf
    · exact he.2 f hf
    · exact Option.some.inj hf ▸ hv

/-- **C44** on shares: after any history of steps (with missing gradients, threshold, momentum, dampening, L2 penalty, Nesterov), the parameter and its
velocity differ from the documented ones by at most the error bound. Missing: gradients within rounding of the threshold, and what C14 and C15 say about
wrap-arounds in truncations (`Sat`). -/
theorem C44_shares_partial [NeZero n] (hn : n < 2 ^ 60) (hk0 : 0 < k) (hk : k ≤ 62) {thr : Option ℚ} {h : HyperS} {M E C : ℚ} (r : Room n k thr h M E C)
    (xs : List (Option (AST n ι))) (gs : List (Option ((ι → ℚ) × ℚ))) (s : AST n ι × Option (AST n ι)) (d : (ι → ℚ) × Option (ι → ℚ)) (e : ℚ × Option ℚ)
    (he0 : 0 ≤ e.1 ∧ ∀ f, e.2 = some f → 0 ≤ f) (heE : e.1 ≤ E ∧ ∀ f, e.2 = some f → f ≤ E) (hM : ∀ i, |d.1 i| ≤ M)
    (hs : ApproxState k s d e) (hg : ApproxGrads k xs gs) (hf : RunFits n k thr h M E gs d e) :
    Sat (runShares (2 ^ k) (squareThreshold thr) h xs s) fun s' =>
      ApproxState k s' ((gs.map (Option.map Prod.fst)).foldl (docStep thr h.exact) d) ((gs.map (Option.map Prod.snd)).foldl (errStep n k h M) e) := by
  induction xs generalizing gs s d e with
  | nil =>
    cases gs with
    | nil => exact Sat.pure hs
    | cons g gs => cases g <;> exact hg.elim
  | cons x xs ih =>
    cases gs with
    | nil => cases x <;> exact hg.elim
    | cons g gs =>
      match x, g, hg, hf with
      | none, none, hg, hf =>
        refine Sat.bind (Sat.pure (Q := fun s' => ApproxState k s' d e) hs) fun s' hs' => ?_
        exact ih gs s' d e he0 heE hM hs' hg hf
      | some x, some (g, eg), hg, hf =>
        refine Sat.bind (near_step hn hk0 hk r he0 heE hM hs hg.1 hf.1 hf.2.1) fun s' hs' => ?_
        refine ih gs s' _ _ (errStep_nonneg r.magnitude he0 hf.1.errGrad) ⟨hf.1.errNext, fun f hf' => ?_⟩ hf.1.next hs' hg.2 hf.2.2
        have hf2 : (if h.momentum.val = 0 then e.2 else some (errVelocity n k h M e.2 (errUsed n k h M e.1 eg))) = some f := hf'
        split at hf2
        · exact heE.2 f hf2
        · exact Option.some.inj hf2 ▸ hf.1.errNew

/-- The parameters of plain SGD. -/
def plainHyper (η : ℚ) : HyperS := ⟨.float η, .int 0, .int 0, .int 0, false⟩

/-- The error bound of `T` plain steps. -/
def plainErr (n k : ℕ) (η M e eg : ℚ) (T : ℕ) : ℚ := e + T * (eg * |η| + (M + eg + n) / 2 ^ k)

/-- **C44** on shares, plain SGD in one formula: after `T` steps with gradients `g₁ … g_T` known up to `eg`, the parameter is `p - η (g₁ + … + g_T)` up to
`e + T (eg η + (M + eg + n) / 2 ^ k)`. -/
theorem C44_plain_shares_partial [NeZero n] (hn : n < 2 ^ 60) (hk0 : 0 < k) (hk : k ≤ 62) (η : ℚ) {M C e eg : ℚ} (xs : List (AST n ι)) (gs : List (ι → ℚ))
    (r : Room n k none (plainHyper η) M (plainErr n k η M e eg gs.length) C) (he : 0 ≤ e) (heg : 0 ≤ eg) (hegE : eg ≤ plainErr n k η M e eg gs.length)
    (x : AST n ι) (p : ι → ℚ) (hx : Approx k x p e) (hxs : List.Forall₂ (fun y g => Approx k y g eg) xs gs)
    (hg : ∀ g ∈ gs, ∀ i, |g i| ≤ M ∧ |g i * η| ≤ M) (hp : ∀ j ≤ gs.length, ∀ i, |p i - η * ((gs.take j).map fun g => g i).sum| ≤ M) :
    Sat (runShares (2 ^ k) none (plainHyper η) (xs.map some) (x, none)) fun s' =>
      Approx k s'.1 (fun i => p i - η * (gs.map fun g => g i).sum) (plainErr n k η M e eg gs.length) := by
  obtain ⟨E, hE⟩ : ∃ E, plainErr n k η M e eg gs.length = E := ⟨_, rfl⟩
  have hM := r.magnitude
  have hδ : 0 ≤ eg * |η| + (M + eg + n) / 2 ^ k := by positivity
  rw [hE] at r hegE ⊢
  have hplain : ∀ (d : (ι → ℚ) × Option (ι → ℚ)) (g : ι → ℚ), docStep none (plainHyper η).exact d (some g) = (fun i => d.1 i - η * g i, d.2) := by
    intro d g
    simp [docStep, plainHyper, HyperS.exact, Scalar.val, usedGradient]
  have hused : ∀ (g q : ι → ℚ), usedGradient none (plainHyper η).weightDecay.val g q = g := fun g q => by
    funext i
    simp [usedGradient, plainHyper, Scalar.val]
  have hdir : ∀ (d : (ι → ℚ) × Option (ι → ℚ)) (g : ι → ℚ), direction none (plainHyper η).exact d g = g := fun d g => by
    funext i
    simp [direction, usedGradient, plainHyper, HyperS.exact, Scalar.val]
  have herr : ∀ f : ℚ, errStep n k (plainHyper η) M (f, none) (some eg) = (f + (eg * |η| + (M + eg + n) / 2 ^ k), none) := fun f => by
    simp [errStep, errDirection, errUsed, plainHyper, Scalar.val, Scalar.err]
  -- the statement for the rest of a history
  have key : ∀ (gs' : List (ι → ℚ)) (q : ι → ℚ) (f : ℚ), 0 ≤ f → f + gs'.length * (eg * |η| + (M + eg + n) / 2 ^ k) ≤ E →
      (∀ g ∈ gs', ∀ i, |g i| ≤ M ∧ |g i * η| ≤ M) → (∀ j ≤ gs'.length, ∀ i, |q i - η * ((gs'.take j).map fun g => g i).sum| ≤ M) →
      RunFits n k none (plainHyper η) M E (gs'.map fun g => some (g, eg)) (q, none) (f, none) ∧
        ((gs'.map fun g => some (g, eg)).map (Option.map Prod.fst)).foldl (docStep none (plainHyper η).exact) (q, none) =
          (fun i => q i - η * (gs'.map fun g => g i).sum, none) ∧
        ((gs'.map fun g => some (g, eg)).map (Option.map Prod.snd)).foldl (errStep n k (plainHyper η) M) (f, none) =
          (f + gs'.length * (eg * |η| + (M + eg + n) / 2 ^ k), none) := by
    intro gs'
    induction gs' with
    | nil => intro q f _ _ _ _; exact ⟨trivial, by simp, by simp⟩
    | cons g gs' ih =>
      intro q f hf hfE hg' hp'
      rw [List.length_cons] at hfE
      push_cast at hfE
      have hl : (0 : ℚ) ≤ gs'.length := Nat.cast_nonneg _
      have hle : f + (eg * |η| + (M + eg + n) / 2 ^ k) ≤ E := by nlinarith
      obtain ⟨i1, i2, i3⟩ := ih (fun i => q i - η * g i) (f + (eg * |η| + (M + eg + n) / 2 ^ k)) (by linarith) (by linarith)
        (fun g' h' => hg' g' (List.mem_cons_of_mem _ h')) (fun j hj i => by
          have := hp' (j + 1) (by simpa using hj) i
          rw [List.take_succ_cons, List.map_cons, List.sum_cons] at this
          have e1 : q i - η * g i - η * ((gs'.take j).map fun g => g i).sum = q i - η * (g i + ((gs'.take j).map fun g => g i).sum) := by ring
          rw [e1]; exact this)
      refine ⟨⟨?_, fun t h => (nomatch h), ?_⟩, ?_, ?_⟩
      · have hgi := fun i => hg' g (by simp) i
        have hq0 : ∀ i, |q i| ≤ M := fun i => by simpa using hp' 0 (by omega) i
        constructor
        · exact fun i => (hgi i).1
        · intro i; simpa [plainHyper, Scalar.val] using hM
        · intro i; rw [hused]; exact (hgi i).1
        · intro i; rw [hused]; simpa [plainHyper, Scalar.val] using (hgi i).1
        · intro v hv; exact (nomatch hv)
        · intro i
          rw [hused]
          refine ⟨by simpa [newVelocity] using (hgi i).1, by simpa [newVelocity, plainHyper, Scalar.val] using hM⟩
        · intro i; rw [hdir]; exact hgi i
        · intro i
          rw [hplain]
          have := hp' 1 (by simp) i
          simpa using this
        · exact heg
        · simpa [errUsed, plainHyper, Scalar.val] using hegE
        · simpa [errVelocity, errUsed, plainHyper, Scalar.val] using hegE
        · simpa [errDirection, errUsed, plainHyper, Scalar.val] using hegE
        · rw [herr]; exact hle
      · rw [hplain, herr]
        exact i1
      · simp only [List.map_cons, List.foldl_cons, Option.map_some, hplain]
        rw [i2]
        congr 1
        funext i
        rw [List.sum_cons]
        ring
      · simp only [List.map_cons, List.foldl_cons, Option.map_some, herr]
        rw [i3, List.length_cons]
        congr 1
        push_cast
        ring
  obtain ⟨h1, h2, h3⟩ := key gs p e he (by rw [← hE]; exact le_refl _) hg hp
  have hgr : ApproxGrads k (xs.map some) (gs.map fun g => some (g, eg)) := by
    clear hg hp h1 h2 h3 hE
    induction hxs with
    | nil => trivial
    | cons h _ ih => exact ⟨h, ih⟩
  have heE : e ≤ E := by
    rw [← hE]
    unfold plainErr
    have : (0 : ℚ) ≤ gs.length := Nat.cast_nonneg _
    nlinarith
  refine (C44_shares_partial hn hk0 hk r (xs.map some) _ (x, none) (p, none) (e, none) ⟨he, fun f h => (nomatch h)⟩ ⟨heE, fun f h => (nomatch h)⟩
    (fun i => by simpa using hp 0 (Nat.zero_le _) i) ⟨hx, trivial⟩ hgr h1).mono fun s' hs' => ?_
  rw [h2, h3] at hs'
  have := hs'.1
  rw [← hE]
  exact this

/-- The hypotheses are met: three parties, 16 bits, two steps with learning rate 1/10 and gradients up to 1: the error is below 1/1000. -/
example (x y : AST 3 Unit) (hx : Approx 16 x (fun _ => 1) 0) (hy : Approx 16 y (fun _ => 1 / 2) 0) :
    Sat (runShares (2 ^ 16) none (plainHyper (1 / 10)) [some y, some y] (x, none)) fun s' =>
      Approx 16 s'.1 (fun _ => 9 / 10) (1 / 1000) := by
  have h := C44_plain_shares_partial (n := 3) (k := 16) (by norm_num) (by norm_num) (by norm_num) (1 / 10) (M := 1) (C := 1) (e := 0) (eg := 0) [y, y]
    [fun _ => 1 / 2, fun _ => 1 / 2] (by constructor <;> first | (intro t ht; exact (nomatch ht)) | norm_num [plainHyper, Scalar.val, plainErr]) (le_refl _) (le_refl _)
    (by norm_num [plainErr]) x (fun _ => 1) hx (.cons hy (.cons hy .nil))
    (by intro g hg i; simp at hg; subst hg; norm_num)
    (by
      intro j hj i
      have : j ≤ 2 := hj
      interval_cases j <;> norm_num)
  refine h.mono fun s' hs' => ⟨hs'.1, fun i => ?_⟩
  have h1 := hs'.2 i
  norm_num [plainErr] at h1 ⊢
  linarith

/-- Such tensors exist. -/
example : Approx 16 (⟨fun p _ => if p = 0 then 65536 else 0, 2 ^ 16⟩ : AST 3 Unit) (fun _ => 1) 0 := by
  refine ⟨rfl, fun i => ?_⟩
  have e1 : reveal (fun p _ => if p = 0 then 65536 else 0 : Shares 3 Unit) i = 65536 := by rw [reveal_apply]; decide
  have t : (65536 : I64).toInt = 65536 := by decide
  rw [AST.value, e1, t]
  norm_num

/-- The hypotheses of the general theorem are met: momentum, Nesterov, L2 penalty and threshold together. -/
example (x y : AST 3 Unit) (hx : Approx 16 x (fun _ => 1) 0) (hy : Approx 16 y (fun _ => 1 / 2) 0) :
    Sat (runShares (2 ^ 16) (some (2 * 2)) ⟨.float (1 / 10), .float (9 / 10), .int 0, .float (1 / 100), true⟩ [some y, none] (x, none)) fun s' =>
      Approx 16 s'.1 (fun _ => 1 - 1 / 10 * (51 / 100 + 9 / 10 * (51 / 100))) (1 / 1000) := by
  have h := C44_shares_partial (n := 3) (k := 16) (ι := Unit) (by norm_num) (by norm_num) (by norm_num) (thr := some 2)
    (h := ⟨.float (1 / 10), .float (9 / 10), .int 0, .float (1 / 100), true⟩) (M := 1) (E := 1) (C := 1)
    (by constructor <;> first | (intro t ht; injection ht with ht; subst ht; norm_num) | norm_num [Scalar.val])
    [some y, none] [some (fun _ => 1 / 2, 0), none] (x, none) (fun _ => 1, none) (0, none) ⟨le_refl _, fun f h => (nomatch h)⟩
    ⟨by norm_num, fun f h => (nomatch h)⟩ (by norm_num) ⟨hx, trivial⟩ ⟨hy, trivial⟩
    ⟨by constructor <;> first | (intro v hv; exact (nomatch hv)) | norm_num [Scalar.val, usedGradient, newVelocity, direction, HyperS.exact, docStep, errUsed, errVelocity, errDirection, errStep, Scalar.err, Scalar.oneSub],
      fun t ht i => by injection ht with ht; subst ht; left; norm_num, trivial⟩
  refine h.mono fun s' hs' => ⟨hs'.1.1, fun i => ?_⟩
  have h1 := hs'.1.2 i
  norm_num [docStep, errStep, usedGradient, newVelocity, HyperS.exact, Scalar.val, errUsed, errVelocity, errDirection, Scalar.err, Scalar.oneSub] at h1 ⊢
  linarith

end CrypTen.Sgd

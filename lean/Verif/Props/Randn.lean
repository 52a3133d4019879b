import Verif.Spec.Randn
import Mathlib.Analysis.SpecialFunctions.PolarCoord
import Mathlib.MeasureTheory.Function.JacobianOneDim
import Mathlib.Probability.Distributions.Gaussian.Real
import Mathlib.MeasureTheory.Constructions.Pi
import Mathlib.Analysis.Real.Pi.Bounds
import Mathlib.Analysis.SpecialFunctions.Log.Deriv
import Mathlib.Analysis.Complex.ExponentialBounds

/-!
# C84: normally distributed random numbers

The pairs of numbers that `randn` makes are polar coordinates of a pair of independent normal numbers (Box–Muller); the change of
variables, the angle of the constant `6.28318531` instead of `2 π`, and the number left out for odd sizes are accounted for.
-/

namespace CrypTen.Randn
open MeasureTheory Set ProbabilityTheory
open scoped ENNReal Real

/-- One pair of normal numbers from a pair of uniform ones. -/
noncomputable def pair (tau : ℝ) (u : ℝ × ℝ) : ℝ × ℝ :=
  (√(-2 * Real.log u.1) * Real.sin ((u.2 - 0.5) * tau), √(-2 * Real.log u.1) * Real.cos ((u.2 - 0.5) * tau))

/-- The uniform numbers whose angle is in (-π, π). -/
noncomputable def J (tau : ℝ) : Set ℝ := Ioo (1 / 2 - π / tau) (1 / 2 + π / tau)

theorem pair_measurable (tau : ℝ) : Measurable (pair tau) := by
  unfold pair
  fun_prop

theorem radius_integral (g : ℝ → ℝ≥0∞) :
    ∫⁻ u in Ioo 0 1, g u = ∫⁻ r in Ioi 0, ENNReal.ofReal (r * Real.exp (-r ^ 2 / 2)) * g (Real.exp (-r ^ 2 / 2)) := by
  have himg : (fun r : ℝ => Real.exp (-r ^ 2 / 2)) '' Ioi 0 = Ioo 0 1 := by
    ext u
    constructor
    · rintro ⟨r, hr, rfl⟩
      have hr : 0 < r := hr
      have : 0 < r ^ 2 := by positivity
      exact ⟨Real.exp_pos _, Real.exp_lt_one_iff.2 (by linarith)⟩
    · rintro ⟨h0, h1⟩
      have hl : Real.log u < 0 := Real.log_neg h0 h1
      refine ⟨√(-2 * Real.log u), Real.sqrt_pos.2 (by linarith), ?_⟩
      beta_reduce
      rw [Real.sq_sqrt (by linarith)]
      rw [show -(-2 * Real.log u) / 2 = Real.log u by ring, Real.exp_log h0]
  have hd : ∀ r ∈ Ioi (0 : ℝ), HasDerivWithinAt (fun r : ℝ => Real.exp (-r ^ 2 / 2)) (-(r * Real.exp (-r ^ 2 / 2))) (Ioi 0) r := by
    intro r _
    have h : HasDerivAt (fun r : ℝ => Real.exp (-r ^ 2 / 2)) (Real.exp (-r ^ 2 / 2) * (-(2 * r) / 2)) r := by
      have := ((hasDerivAt_pow 2 r).neg.div_const 2).exp
      simpa using this
    have e : Real.exp (-r ^ 2 / 2) * (-(2 * r) / 2) = -(r * Real.exp (-r ^ 2 / 2)) := by ring
    rw [← e]
    exact h.hasDerivWithinAt
  have hinj : InjOn (fun r : ℝ => Real.exp (-r ^ 2 / 2)) (Ioi 0) := by
    intro a ha b hb h
    have h := Real.exp_injective h
    have ha : 0 < a := ha
    have hb : 0 < b := hb
    have : a ^ 2 = b ^ 2 := by linarith
    exact (pow_left_inj₀ ha.le hb.le two_ne_zero).1 this
  rw [← himg, lintegral_image_eq_lintegral_abs_deriv_mul measurableSet_Ioi hd hinj]
  refine setLIntegral_congr_fun measurableSet_Ioi fun r hr => ?_
  have hr : 0 < r := hr
  beta_reduce
  rw [abs_neg, abs_of_pos (mul_pos hr (Real.exp_pos _))]

theorem angle_integral {tau : ℝ} (ht : 0 < tau) (g : ℝ → ℝ≥0∞) :
    ∫⁻ u in J tau, g u = ∫⁻ θ in Ioo (-π) π, ENNReal.ofReal (1 / tau) * g (θ / tau + 1 / 2) := by
  have himg : (fun θ : ℝ => θ / tau + 1 / 2) '' Ioo (-π) π = J tau := by
    ext u
    unfold J
    constructor
    · rintro ⟨θ, ⟨h0, h1⟩, rfl⟩
      have e0 : -π / tau < θ / tau := (div_lt_div_iff_of_pos_right ht).2 h0
      have e1 : θ / tau < π / tau := (div_lt_div_iff_of_pos_right ht).2 h1
      rw [neg_div] at e0
      exact ⟨by beta_reduce; linarith, by beta_reduce; linarith⟩
    · rintro ⟨h0, h1⟩
      refine ⟨(u - 1 / 2) * tau, ⟨?_, ?_⟩, ?_⟩
      · have : -(π / tau) < u - 1 / 2 := by linarith
        have := mul_lt_mul_of_pos_right this ht
        rwa [neg_mul, div_mul_cancel₀ _ ht.ne'] at this
      · have : u - 1 / 2 < π / tau := by linarith
        have := mul_lt_mul_of_pos_right this ht
        rwa [div_mul_cancel₀ _ ht.ne'] at this
      · beta_reduce
        rw [mul_div_cancel_right₀ _ ht.ne']
        ring
  have hd : ∀ θ ∈ Ioo (-π) π, HasDerivWithinAt (fun θ : ℝ => θ / tau + 1 / 2) (1 / tau) (Ioo (-π) π) θ := by
    intro θ _
    exact (((hasDerivAt_id θ).div_const tau).add_const (1 / 2)).hasDerivWithinAt
  have hinj : InjOn (fun θ : ℝ => θ / tau + 1 / 2) (Ioo (-π) π) := by
    intro a _ b _ h
    have h : a / tau + 1 / 2 = b / tau + 1 / 2 := h
    have : a / tau = b / tau := by linarith
    field_simp at this
    exact this
  rw [← himg, lintegral_image_eq_lintegral_abs_deriv_mul measurableSet_Ioo hd hinj, abs_of_pos (by positivity)]

theorem pdf_mul (x y : ℝ) : gaussianPDF 0 1 x * gaussianPDF 0 1 y = ENNReal.ofReal (Real.exp (-(x ^ 2 + y ^ 2) / 2) / (2 * π)) := by
  rw [gaussianPDF, gaussianPDF, ← ENNReal.ofReal_mul (gaussianPDFReal_nonneg _ _ _), gaussianPDFReal, gaussianPDFReal]
  congr 1
  simp only [NNReal.coe_one, mul_one, sub_zero]
  have : (√(2 * π))⁻¹ * Real.exp (-x ^ 2 / 2) * ((√(2 * π))⁻¹ * Real.exp (-y ^ 2 / 2))
      = (√(2 * π) * √(2 * π))⁻¹ * (Real.exp (-x ^ 2 / 2) * Real.exp (-y ^ 2 / 2)) := by
    rw [mul_inv]; ring
  rw [this, Real.mul_self_sqrt (by positivity), ← Real.exp_add]
  rw [show -x ^ 2 / 2 + -y ^ 2 / 2 = -(x ^ 2 + y ^ 2) / 2 by ring]
  ring

/-- The two-dimensional normal distribution in polar coordinates. -/
theorem normal_polar (f : ℝ × ℝ → ℝ≥0∞) (hf : Measurable f) :
    ∫⁻ p, f p ∂(N01.prod N01) =
      ∫⁻ r in Ioi 0, ∫⁻ θ in Ioo (-π) π, ENNReal.ofReal (r * Real.exp (-r ^ 2 / 2) / (2 * π)) * f (r * Real.sin θ, r * Real.cos θ) := by
  have hpdf := measurable_gaussianPDF 0 1
  have hd : Measurable fun z : ℝ × ℝ => gaussianPDF 0 1 z.1 * gaussianPDF 0 1 z.2 :=
    (hpdf.comp measurable_fst).mul (hpdf.comp measurable_snd)
  rw [N01, gaussianReal_of_var_ne_zero 0 one_ne_zero, prod_withDensity hpdf hpdf,
    lintegral_withDensity_eq_lintegral_mul _ hd hf]
  simp only [Pi.mul_apply]
  rw [← lintegral_prod_swap, ← Measure.volume_eq_prod, ← lintegral_comp_polarCoord_symm, polarCoord_target, Measure.volume_eq_prod,
    ← Measure.prod_restrict, lintegral_prod]
  · refine setLIntegral_congr_fun measurableSet_Ioi fun r hr => ?_
    have hr : 0 < r := hr
    refine lintegral_congr fun θ => ?_
    simp only [polarCoord_symm_apply, Prod.swap, Prod.fst, Prod.snd, pdf_mul, smul_eq_mul]
    rw [← mul_assoc, ← ENNReal.ofReal_mul hr.le]
    congr 2
    rw [mul_pow, mul_pow, ← mul_add, Real.sin_sq_add_cos_sq, mul_one, mul_div_assoc]
  · refine Measurable.aemeasurable ?_
    have hs : Measurable fun p : ℝ × ℝ => polarCoord.symm p := continuous_polarCoord_symm.measurable
    have h2 : Measurable fun z : ℝ × ℝ => gaussianPDF 0 1 z.swap.1 * gaussianPDF 0 1 z.swap.2 * f z.swap :=
      (hd.comp measurable_swap).mul (hf.comp measurable_swap)
    exact (ENNReal.measurable_ofReal.comp measurable_fst).mul (h2.comp hs)

/-- Pairs of uniform numbers whose angle is in (-π, π) give pairs of independent normal numbers, with total mass `2π / tau`. -/
theorem pair_law {tau : ℝ} (ht : 0 < tau) :
    (U.prod (volume.restrict (J tau))).map (pair tau) = ENNReal.ofReal (2 * π / tau) • N01.prod N01 := by
  refine Measure.ext_of_lintegral _ fun f hf => ?_
  rw [lintegral_map hf (pair_measurable tau), lintegral_smul_measure, normal_polar f hf, smul_eq_mul,
    lintegral_prod (fun a => f (pair tau a)) (hf.comp (pair_measurable tau)).aemeasurable, radius_integral]
  rw [← lintegral_const_mul' _ _ ENNReal.ofReal_ne_top]
  refine setLIntegral_congr_fun measurableSet_Ioi fun r hr => ?_
  have hr : 0 < r := hr
  beta_reduce
  rw [angle_integral ht, ← lintegral_const_mul' _ _ ENNReal.ofReal_ne_top, ← lintegral_const_mul' _ _ ENNReal.ofReal_ne_top]
  refine lintegral_congr fun θ => ?_
  have hpos : 0 < r * Real.exp (-r ^ 2 / 2) := mul_pos hr (Real.exp_pos _)
  rw [← mul_assoc, ← mul_assoc, ← ENNReal.ofReal_mul hpos.le, ← ENNReal.ofReal_mul (by positivity)]
  congr 2
  · field_simp
  · simp only [pair, Real.log_exp]
    have e1 : √(-2 * (-r ^ 2 / 2)) = r := by
      rw [show -2 * (-r ^ 2 / 2) = r ^ 2 by ring, Real.sqrt_sq hr.le]
    have e2 : (θ / tau + 1 / 2 - 0.5) * tau = θ := by
      rw [show θ / tau + 1 / 2 - 0.5 = θ / tau by norm_num, div_mul_cancel₀ _ ht.ne']
    rw [e1, e2]

/-- From pairs to one vector: all first components, then all second ones. -/
def join {m : ℕ} (w : Fin m → ℝ × ℝ) : Fin (m + m) → ℝ :=
  Fin.append (fun i => (w i).1) (fun i => (w i).2)

theorem join_measurable {m : ℕ} : Measurable (join (m := m)) := by
  refine measurable_pi_lambda _ fun k => ?_
  unfold join
  refine Fin.addCases (fun i => ?_) (fun i => ?_) k
  · simp only [Fin.append_left]
    exact (measurable_pi_apply i).fst
  · simp only [Fin.append_right]
    exact (measurable_pi_apply i).snd

theorem join_law {m : ℕ} (μ : Measure ℝ) [SigmaFinite μ] :
    (Measure.pi fun _ : Fin m => μ.prod μ).map join = Measure.pi fun _ : Fin (m + m) => μ := by
  symm
  refine Measure.pi_eq fun s hs => ?_
  rw [Measure.map_apply join_measurable (MeasurableSet.univ_pi hs)]
  have : join ⁻¹' (univ.pi s) = univ.pi fun i : Fin m => s (Fin.castAdd m i) ×ˢ s (Fin.natAdd m i) := by
    ext w
    simp only [mem_preimage, mem_univ_pi, mem_prod, join]
    constructor
    · intro h i
      have h1 := h (Fin.castAdd m i)
      have h2 := h (Fin.natAdd m i)
      rw [Fin.append_left] at h1
      rw [Fin.append_right] at h2
      exact ⟨h1, h2⟩
    · intro h k
      refine Fin.addCases (fun i => ?_) (fun i => ?_) k
      · rw [Fin.append_left]; exact (h i).1
      · rw [Fin.append_right]; exact (h i).2
  rw [this, Measure.pi_pi, Fin.prod_univ_add, ← Finset.prod_mul_distrib]
  refine Finset.prod_congr rfl fun i _ => ?_
  rw [Measure.prod_prod]

theorem pi_smul_law {m : ℕ} (c : ℝ≥0∞) (hc : c ≠ ∞) (μ : Measure (ℝ × ℝ)) [IsFiniteMeasure μ] :
    (Measure.pi fun _ : Fin m => c • μ) = c ^ m • Measure.pi fun _ : Fin m => μ := by
  have : IsFiniteMeasure (c • μ) := Measure.smul_finite μ hc
  refine Measure.pi_eq fun s hs => ?_
  rw [Measure.smul_apply, Measure.pi_pi]
  simp [Finset.prod_mul_distrib]

theorem J_subset {tau : ℝ} (ht : 2 * π ≤ tau) : J tau ⊆ Ioo 0 1 := by
  have h0 : 0 < tau := by linarith [Real.pi_pos]
  have : π / tau ≤ 1 / 2 := by
    rw [div_le_div_iff₀ h0 two_pos]
    linarith
  exact Ioo_subset_Ioo (by linarith) (by linarith)

/-- All pairs at once: the distribution is at least `(2π / tau) ^ m` times the normal one. -/
theorem pairs_ge {tau : ℝ} (ht : 2 * π ≤ tau) (m : ℕ) :
    ENNReal.ofReal (2 * π / tau) ^ m • (Measure.pi fun _ : Fin m => N01.prod N01)
      ≤ (Measure.pi fun _ : Fin m => U.prod U).map fun w i => pair tau (w i) := by
  have h0 : 0 < tau := by linarith [Real.pi_pos]
  have hm : Measurable fun (w : Fin m → ℝ × ℝ) i => pair tau (w i) :=
    measurable_pi_lambda _ fun i => (pair_measurable tau).comp (measurable_pi_apply i)
  have hU : U.restrict (J tau) = volume.restrict (J tau) := by
    rw [U, Measure.restrict_restrict (by unfold J; exact measurableSet_Ioo), inter_eq_left.2 (J_subset ht)]
  have hr : (U.prod U).restrict (univ ×ˢ J tau) = U.prod (volume.restrict (J tau)) := by
    rw [← Measure.prod_restrict, Measure.restrict_univ, hU]
  rw [← pi_smul_law _ ENNReal.ofReal_ne_top, ← pair_law h0, ← hr,
    ← Measure.pi_map_pi (μ := fun _ : Fin m => (U.prod U).restrict (univ ×ˢ J tau)) fun _ => (pair_measurable tau).aemeasurable,
    ← Measure.restrict_pi_pi]
  exact Measure.map_mono Measure.restrict_le_self hm

/-- Leaving out components of a vector of independent numbers. -/
theorem reindex_law {M N : ℕ} (e : Fin N → Fin M) (he : Function.Injective e) (μ : Measure ℝ) [IsProbabilityMeasure μ] :
    (Measure.pi fun _ : Fin M => μ).map (fun z i => z (e i)) = Measure.pi fun _ : Fin N => μ := by
  classical
  symm
  refine Measure.pi_eq fun s hs => ?_
  have hr : Measurable fun (z : Fin M → ℝ) i => z (e i) := measurable_pi_lambda _ fun i => measurable_pi_apply _
  rw [Measure.map_apply hr (MeasurableSet.univ_pi hs)]
  have hpre : (fun (z : Fin M → ℝ) i => z (e i)) ⁻¹' univ.pi s = univ.pi fun k => ⋂ (i) (_ : e i = k), s i := by
    ext z
    simp only [mem_preimage, mem_univ_pi, mem_iInter]
    exact ⟨fun h k i hi => hi ▸ h i, fun h i => h (e i) i rfl⟩
  rw [hpre, Measure.pi_pi]
  have h1 : ∀ i, (⋂ (j) (_ : e j = e i), s j) = s i := by
    intro i
    ext x
    simp only [mem_iInter]
    exact ⟨fun h => h i rfl, fun h j hj => he hj ▸ h⟩
  rw [← Finset.prod_subset (Finset.subset_univ (Finset.univ.image e))]
  · rw [Finset.prod_image fun _ _ _ _ h => he h]
    exact Finset.prod_congr rfl fun i _ => by rw [h1]
  · intro k _ hk
    have : (⋂ (i) (_ : e i = k), s i) = univ := by
      ext x
      simp only [mem_iInter, mem_univ, iff_true]
      intro i hi
      exact absurd (Finset.mem_image.2 ⟨i, Finset.mem_univ _, hi⟩) hk
    rw [this, measure_univ]

theorem pairs_le (N : ℕ) (i : Fin N) : i.val + N % 2 < pairs N + pairs N := by
  have := i.isLt
  unfold pairs
  omega

theorem seq_left {m : ℕ} (w : Fin m → ℝ × ℝ) (i : ℕ) (h : i < m) : seq (join w) i = (w ⟨i, h⟩).1 := by
  rw [seq, dif_pos (by omega), join]
  exact Fin.append_left _ _ ⟨i, h⟩

theorem seq_right {m : ℕ} (w : Fin m → ℝ × ℝ) (i : ℕ) (h : i < m) : seq (join w) (m + i) = (w ⟨i, h⟩).2 := by
  rw [seq, dif_pos (by omega), join]
  exact Fin.append_right _ _ ⟨i, h⟩

theorem join_pair_left (tau : ℝ) {m : ℕ} (w : Fin m → ℝ × ℝ) (k : ℕ) (hk : k < m + m) (h : k < m) :
    join (fun i => pair tau (w i)) ⟨k, hk⟩ = √(-2 * Real.log (seq (join w) k)) * Real.sin ((seq (join w) (m + k) - 0.5) * tau) := by
  rw [seq_left w k h, seq_right w k h, join]
  exact Fin.append_left _ _ ⟨k, h⟩

theorem join_pair_right (tau : ℝ) {m : ℕ} (w : Fin m → ℝ × ℝ) (k : ℕ) (hk : k < m + m) (h : m ≤ k) :
    join (fun i => pair tau (w i)) ⟨k, hk⟩ =
      √(-2 * Real.log (seq (join w) (k - m))) * Real.cos ((seq (join w) k - 0.5) * tau) := by
  obtain ⟨j, rfl⟩ : ∃ j, k = m + j := ⟨k - m, by omega⟩
  have hj : j < m := by omega
  rw [Nat.add_sub_cancel_left, seq_left w j hj, seq_right w j hj, join]
  exact Fin.append_right _ _ ⟨j, hj⟩

/-- The numbers that `randn` returns are those of the pairs, without the first one if there is one too many. -/
theorem sample_eq (tau : ℝ) (N : ℕ) (w : Fin (pairs N) → ℝ × ℝ) (i : Fin N) :
    sample tau N (join w) i = join (fun i => pair tau (w i)) ⟨i + N % 2, pairs_le N i⟩ := by
  have hi := i.isLt
  by_cases ho : N % 2 = 1
  · have hp : (N + 1) / 2 = pairs N := rfl
    have hu : ∀ k, (if k < N then seq (join w) k else seq (join w) (N + (k - N))) = seq (join w) k := by
      intro k
      split
      · rfl
      · congr 1; omega
    simp only [sample, randn, ho, if_true, Vec.drop, Vec.cat, Vec.mul, Vec.map, Vec.take, hp, hu]
    have hmin : min (pairs N) (N + 1) = pairs N := by unfold pairs; omega
    rw [hmin]
    by_cases hk : 1 + i.val < pairs N
    · rw [if_pos hk, join_pair_left tau w _ _ (by omega), add_comm 1 i.val]
    · rw [if_neg hk, join_pair_right tau w _ _ (by omega)]
      congr 3
      · congr 2; omega
      · congr 2; omega
  · have ho : N % 2 = 0 := by omega
    have hp : N / 2 = pairs N := by unfold pairs; omega
    simp only [sample, randn, ho, Nat.zero_ne_one, if_false, Vec.drop, Vec.cat, Vec.mul, Vec.map, Vec.take, hp]
    have hmin : min (pairs N) N = pairs N := by unfold pairs; omega
    rw [hmin]
    by_cases hk : i.val < pairs N
    · rw [if_pos hk, join_pair_left tau w _ _ (by omega)]; rfl
    · rw [if_neg hk, join_pair_right tau w _ _ (by omega)]
      congr 3
      congr 2; omega

theorem seq_measurable {M : ℕ} (i : ℕ) : Measurable fun ω : Fin M → ℝ => seq ω i := by
  unfold seq
  split
  · exact measurable_pi_apply _
  · exact measurable_const

theorem sample_measurable (tau : ℝ) (N : ℕ) : Measurable (sample tau N) := by
  have hs := fun i => seq_measurable (M := pairs N + pairs N) i
  refine measurable_pi_lambda _ fun i => ?_
  by_cases ho : N % 2 = 1
  · simp only [sample, randn, ho, if_true, Vec.drop, Vec.cat, Vec.mul, Vec.map, Vec.take]
    split_ifs <;> fun_prop
  · simp only [sample, randn, ho, if_false, Vec.drop, Vec.cat, Vec.mul, Vec.map, Vec.take]
    split_ifs <;> fun_prop

/-- The distribution of the numbers is at least `(2π / tau) ^ pairs` times the normal one. -/
theorem sample_ge {tau : ℝ} (ht : 2 * π ≤ tau) (N : ℕ) :
    ENNReal.ofReal (2 * π / tau) ^ pairs N • (Measure.pi fun _ : Fin N => N01)
      ≤ (Measure.pi fun _ : Fin (pairs N + pairs N) => U).map (sample tau N) := by
  have hm : Measurable fun (w : Fin (pairs N) → ℝ × ℝ) i => pair tau (w i) :=
    measurable_pi_lambda _ fun i => (pair_measurable tau).comp (measurable_pi_apply i)
  let e : Fin N → Fin (pairs N + pairs N) := fun i => ⟨i + N % 2, pairs_le N i⟩
  have he : Function.Injective e := fun a b h => Fin.ext (by simpa [e] using h)
  have hr : Measurable fun (z : Fin (pairs N + pairs N) → ℝ) i => z (e i) := measurable_pi_lambda _ fun i => measurable_pi_apply _
  have hcomp : sample tau N ∘ join = (fun (z : Fin (pairs N + pairs N) → ℝ) i => z (e i)) ∘ join ∘ fun w i => pair tau (w i) :=
    funext fun w => funext fun i => sample_eq tau N w i
  rw [← join_law, Measure.map_map (sample_measurable tau N) join_measurable, hcomp, ← Measure.map_map hr (join_measurable.comp hm),
    ← Measure.map_map join_measurable hm, ← reindex_law e he, ← join_law, ← Measure.map_smul, ← Measure.map_smul]
  exact Measure.map_mono (Measure.map_mono (pairs_ge ht _) join_measurable) hr

instance (tau : ℝ) (N : ℕ) : IsProbabilityMeasure (output tau N) := by
  haveI : IsProbabilityMeasure U := ⟨by simp [U]⟩
  exact Measure.isProbabilityMeasure_map (sample_measurable tau N).aemeasurable

/-- `randn` returns as many numbers as asked for. -/
theorem C84_size (tau : ℝ) (u extra : Vec) (h : extra.len = 1) : (randn tau u extra).len = u.len := by
  by_cases ho : u.len % 2 = 1
  · simp only [randn, ho, if_true, Vec.drop, Vec.cat, Vec.mul, Vec.map, Vec.take, h]
    omega
  · simp only [randn, ho, if_false, Vec.drop, Vec.cat, Vec.mul, Vec.map, Vec.take]
    omega

example : (randn tau ⟨7, fun i => i / 8⟩ ⟨1, fun _ => 1 / 2⟩).len = 7 := C84_size _ _ _ rfl

theorem tau_gt : 2 * π < tau := by
  have := Real.pi_lt_d20
  unfold tau
  linarith

/-- The part of the circle that is not covered once. -/
theorem ratio_ge : 1 - 5e-10 ≤ 2 * π / tau := by
  have := Real.pi_gt_d20
  rw [le_div_iff₀ (by unfold tau; norm_num)]
  unfold tau
  linarith

/-- With `2 π` in place of the constant, the numbers are independent and normally distributed, for every size. -/
theorem C84_box_muller (N : ℕ) : output (2 * π) N = normals N := by
  have hle : normals N ≤ output (2 * π) N := by
    have := sample_ge (le_refl (2 * π)) N
    rwa [div_self (by positivity), ENNReal.ofReal_one, one_pow, one_smul] at this
  exact (Measure.eq_of_le_of_measure_univ_eq hle (by rw [measure_univ, measure_univ])).symm

/-- With the constant of the code, the probability of every event differs from that under independent normal numbers by at most
`5e-10` for every pair of numbers made. (Exact arithmetic and ideal uniform numbers: see `C84_tail_wrong`.) -/
theorem C84_randn_partial (N : ℕ) (A : Set (Fin N → ℝ)) (hA : MeasurableSet A) :
    |(output tau N).real A - (normals N).real A| ≤ 5e-10 * ((N + 1) / 2 : ℕ) := by
  set κ := 2 * π / tau with hκ
  have hκ0 : 0 ≤ κ := le_trans (by norm_num) ratio_ge
  have hκ1 : κ ≤ 1 := by
    rw [hκ, div_le_one (by unfold tau; norm_num)]
    exact tau_gt.le
  have hp0 : 0 ≤ κ ^ pairs N := pow_nonneg hκ0 _
  have hp1 : κ ^ pairs N ≤ 1 := pow_le_one₀ hκ0 hκ1
  have hB : 1 - 5e-10 * ((N + 1) / 2 : ℕ) ≤ κ ^ pairs N := by
    have h1 := one_add_mul_le_pow (a := κ - 1) (by linarith) (pairs N)
    have h2 : (pairs N : ℝ) * (κ - 1) ≥ pairs N * (-5e-10) := mul_le_mul_of_nonneg_left (by linarith [ratio_ge]) (Nat.cast_nonneg _)
    have h3 : 1 + (κ - 1) = κ := by ring
    rw [h3] at h1
    have h4 : ((pairs N : ℕ) : ℝ) = ((N + 1) / 2 : ℕ) := rfl
    rw [← h4]
    linarith
  have hlow : ∀ B : Set (Fin N → ℝ), κ ^ pairs N * (normals N).real B ≤ (output tau N).real B := by
    intro B
    have h := sample_ge tau_gt.le N B
    rw [Measure.smul_apply, smul_eq_mul, ← ENNReal.ofReal_pow hκ0] at h
    have h' := ENNReal.toReal_mono (measure_ne_top _ _) h
    rwa [ENNReal.toReal_mul, ENNReal.toReal_ofReal hp0] at h'
  have hA1 := hlow A
  have hA2 := hlow Aᶜ
  rw [probReal_compl_eq_one_sub hA, probReal_compl_eq_one_sub hA] at hA2
  have hn1 : (normals N).real A ≤ 1 := measureReal_le_one
  have hn0 : 0 ≤ (normals N).real A := measureReal_nonneg
  rw [abs_le]
  constructor
  · nlinarith
  · nlinarith

/-- A case: the probability that the first of three numbers is positive. -/
example : |(output tau 3).real {x | 0 < x 0} - (normals 3).real {x | 0 < x 0}| ≤ 1e-9 := by
  have := C84_randn_partial 3 {x | 0 < x 0} (measurableSet_lt measurable_const (measurable_pi_apply 0))
  norm_num at this ⊢
  exact this

/-- A number of `randn` is a radius times a number of size at most one. -/
theorem entry_le (tau : ℝ) (u extra : Vec) (h : extra.len = 1) (c : ℝ)
    (hu : ∀ i < u.len, c ≤ u.get i ∧ u.get i ≤ 1) (he : c ≤ extra.get 0 ∧ extra.get 0 ≤ 1) (hc : 0 < c) (i : ℕ) (hi : i < u.len) :
    |(randn tau u extra).get i| ≤ √(-2 * Real.log c) := by
  have key : ∀ a x : ℝ, c ≤ a → |x| ≤ 1 → |√(-2 * Real.log a) * x| ≤ √(-2 * Real.log c) := by
    intro a x ha hx
    rw [abs_mul, abs_of_nonneg (Real.sqrt_nonneg _)]
    have h1 : √(-2 * Real.log a) ≤ √(-2 * Real.log c) := Real.sqrt_le_sqrt (by linarith [Real.log_le_log hc ha])
    have h2 := Real.sqrt_nonneg (-2 * Real.log a)
    nlinarith [abs_nonneg x]
  by_cases ho : u.len % 2 = 1
  · have hall : ∀ k < u.len + 1, c ≤ (if k < u.len then u.get k else extra.get (k - u.len)) := by
      intro k hk
      split
      · exact (hu k ‹_›).1
      · rw [show k - u.len = 0 by omega]; exact he.1
    simp only [randn, ho, if_true, Vec.drop, Vec.cat, Vec.mul, Vec.map, Vec.take, h]
    by_cases hk : 1 + i < min ((u.len + 1) / 2) (u.len + 1)
    · rw [if_pos hk]
      exact key _ _ (hall _ (by omega)) (Real.abs_sin_le_one _)
    · rw [if_neg hk]
      exact key _ _ (hall _ (by omega)) (Real.abs_cos_le_one _)
  · simp only [randn, ho, if_false, Vec.drop, Vec.cat, Vec.mul, Vec.map, Vec.take]
    by_cases hk : i < min (u.len / 2) u.len
    · rw [if_pos hk]
      exact key _ _ (hu _ (by omega)).1 (Real.abs_sin_le_one _)
    · rw [if_neg hk]
      exact key _ _ (hu _ (by omega)).1 (Real.abs_cos_le_one _)

/-- The uniform numbers of `rand` are multiples of `2⁻¹⁶` (C52): unless one is zero, no number of `randn` is beyond 4.71. -/
theorem C84_bounded (tau : ℝ) (u extra : Vec) (h : extra.len = 1)
    (hu : ∀ i < u.len, ∃ k : ℕ, 0 < k ∧ k < 2 ^ 16 ∧ u.get i = k / 2 ^ 16)
    (he : ∃ k : ℕ, 0 < k ∧ k < 2 ^ 16 ∧ extra.get 0 = k / 2 ^ 16) (i : ℕ) (hi : i < u.len) :
    |(randn tau u extra).get i| < 4.71 := by
  have hgrid : ∀ a : ℝ, (∃ k : ℕ, 0 < k ∧ k < 2 ^ 16 ∧ a = k / 2 ^ 16) → 1 / 2 ^ 16 ≤ a ∧ a ≤ 1 := by
    rintro a ⟨k, hk0, hk1, rfl⟩
    have h0 : (1 : ℝ) ≤ k := by exact_mod_cast hk0
    have h1 : (k : ℝ) ≤ 2 ^ 16 := by exact_mod_cast hk1.le
    constructor
    · gcongr
    · rw [div_le_one (by positivity)]; exact h1
  refine lt_of_le_of_lt (entry_le tau u extra h (1 / 2 ^ 16) (fun i hi => hgrid _ (hu i hi)) (hgrid _ he) (by positivity) i hi) ?_
  rw [Real.sqrt_lt' (by norm_num), one_div, Real.log_inv, Real.log_pow]
  have := Real.log_two_lt_d9
  push_cast
  linarith

/-- The hypotheses are met by draws of `rand`. -/
example : |(randn tau ⟨2, fun i => if i = 0 then (1 : ℕ) / 2 ^ 16 else (3 : ℕ) / 2 ^ 16⟩ ⟨1, fun _ => (5 : ℕ) / 2 ^ 16⟩).get 1| < 4.71 :=
  C84_bounded _ _ _ rfl
    (fun i _ => by
      by_cases h0 : i = 0
      · exact ⟨1, by norm_num, by norm_num, if_pos h0⟩
      · exact ⟨3, by norm_num, by norm_num, if_neg h0⟩)
    ⟨5, by norm_num, by norm_num, rfl⟩ 1 (by norm_num)

/-- So the tail of the normal distribution is missing: with the numbers of `rand`, none of which is zero, values above 5 do not occur,
though their probability is positive. -/
theorem C84_tail_wrong :
    0 < N01 (Ioi 5) ∧
      ∀ (u extra : Vec), extra.len = 1 → (∀ i < u.len, ∃ k : ℕ, 0 < k ∧ k < 2 ^ 16 ∧ u.get i = k / 2 ^ 16) →
        (∃ k : ℕ, 0 < k ∧ k < 2 ^ 16 ∧ extra.get 0 = k / 2 ^ 16) → ∀ i < u.len, (randn tau u extra).get i ∉ Ioi 5 := by
  constructor
  · have hac := gaussianReal_absolutelyContinuous' 0 (one_ne_zero : (1 : NNReal) ≠ 0)
    rw [pos_iff_ne_zero]
    intro h0
    have := hac h0
    rw [Real.volume_Ioi] at this
    exact ENNReal.top_ne_zero this
  · intro u extra h hu he i hi hmem
    have h1 := C84_bounded tau u extra h hu he i hi
    have h2 : (5 : ℝ) < (randn tau u extra).get i := hmem
    have h3 := le_abs_self ((randn tau u extra).get i)
    norm_num at h1
    linarith

end CrypTen.Randn

import Verif.Spec.Gradient
import Mathlib.Analysis.Calculus.FDeriv.Comp
import Mathlib.Analysis.Calculus.Deriv.Comp
import Mathlib.Algebra.BigOperators.Ring.Finset

/-!
# Calculus for `IsVJP`
-/

namespace CrypTen
open ContinuousLinearMap

variable {ι ι' κ : Type} [Fintype ι] [Fintype ι'] [Fintype κ]

theorem linearFn_apply (c h : ι → ℝ) : linearFn c h = ∑ i, c i * h i := by
  simp [linearFn]

/-- From the Jacobian. -/
theorem isVJP_of_jacobian {f : (ι → ℝ) → κ → ℝ} {x : ι → ℝ} {b : (κ → ℝ) → ι → ℝ} (J : κ → ι → ℝ)
    (hJ : ∀ k, HasFDerivAt (fun z => f z k) (linearFn (J k)) x) (hb : ∀ g i, b g i = ∑ k, g k * J k i) : IsVJP f x b := by
  intro g
  have h : HasFDerivAt (fun z => ∑ k, g k * f z k) (∑ k, g k • linearFn (J k)) x := HasFDerivAt.fun_sum fun k _ => (hJ k).const_mul (g k)
  refine HasFDerivAt.congr_fderiv h ?_
  symm
  ext z
  rw [linearFn_apply]
  simp only [sum_apply, smul_apply, linearFn_apply, smul_eq_mul, hb, Finset.sum_mul, Finset.mul_sum]
  rw [Finset.sum_comm]
  exact Finset.sum_congr rfl fun k _ => Finset.sum_congr rfl fun i _ => by ring

theorem hasFDerivAt_coord [DecidableEq ι] (i : ι) (x : ι → ℝ) : HasFDerivAt (fun z : ι → ℝ => z i) (linearFn (Pi.single i 1)) x := by
  have : linearFn (Pi.single i (1 : ℝ)) = (proj i : (ι → ℝ) →L[ℝ] ℝ) := by
    ext z; rw [linearFn_apply]; simp [Pi.single_apply]
  rw [this]
  exact hasFDerivAt_apply i x

/-- A function of one entry. -/
theorem hasFDerivAt_entry [DecidableEq ι] {φ : ℝ → ℝ} {d : ℝ} {x : ι → ℝ} {i : ι} (h : HasDerivAt φ d (x i)) :
    HasFDerivAt (fun z : ι → ℝ => φ (z i)) (linearFn (Pi.single i d)) x := by
  have := h.comp_hasFDerivAt x (hasFDerivAt_coord i x)
  refine HasFDerivAt.congr_fderiv this ?_
  symm
  ext z
  simp only [smul_apply, linearFn_apply, smul_eq_mul, Finset.mul_sum, Pi.single_apply]
  exact Finset.sum_congr rfl fun j _ => by split <;> ring

/-- Functions applied entry by entry. -/
theorem isVJP_map {φ : ι → ℝ → ℝ} {φ' : ι → ℝ} {x : ι → ℝ} {b : (ι → ℝ) → ι → ℝ} (h : ∀ i, HasDerivAt (φ i) (φ' i) (x i)) (hb : ∀ g i, b g i = g i * φ' i) :
    IsVJP (fun z i => φ i (z i)) x b := by
  classical
  refine isVJP_of_jacobian (fun k => Pi.single k (φ' k)) (fun k => hasFDerivAt_entry (h k)) fun g i => ?_
  rw [hb]
  simp [Pi.single_apply]

/-- Linear functions. -/
theorem isVJP_linear {A : κ → ι → ℝ} {f : (ι → ℝ) → κ → ℝ} {x : ι → ℝ} {b : (κ → ℝ) → ι → ℝ} (hf : ∀ z k, f z k = ∑ i, A k i * z i) (hb : ∀ g i, b g i = ∑ k, g k * A k i) :
    IsVJP f x b := by
  refine isVJP_of_jacobian A (fun k => ?_) hb
  have : (fun z => f z k) = linearFn (A k) := by
    funext z; rw [hf, linearFn_apply]
  rw [this]
  exact (linearFn (A k)).hasFDerivAt

/-- Copies of entries: the gradient adds up what arrives at the copies. -/
theorem isVJP_gather [DecidableEq ι] {σ : κ → ι} {x : ι → ℝ} {b : (κ → ℝ) → ι → ℝ} (hb : ∀ g i, b g i = ∑ k with σ k = i, g k) : IsVJP (fun z k => z (σ k)) x b := by
  refine isVJP_linear (A := fun k i => if σ k = i then 1 else 0) (fun z k => by simp) fun g i => ?_
  rw [hb, Finset.sum_filter]
  exact Finset.sum_congr rfl fun k _ => by split <;> simp

/-- Entry-by-entry functions of two tensors that are copied together along `σ` and `τ`. -/
theorem isVJP2_zip [DecidableEq ι] [DecidableEq ι'] {σ : κ → ι} {τ : κ → ι'} {φ : ℝ → ℝ → ℝ} {dx dy : κ → ℝ} {x : ι → ℝ} {y : ι' → ℝ} {b : (κ → ℝ) → (ι → ℝ) × (ι' → ℝ)}
    (h : ∀ k, HasFDerivAt (fun p : ℝ × ℝ => φ p.1 p.2) (dx k • fst ℝ ℝ ℝ + dy k • snd ℝ ℝ ℝ) (x (σ k), y (τ k)))
    (hb : ∀ g, b g = (fun i => ∑ k with σ k = i, g k * dx k, fun i => ∑ k with τ k = i, g k * dy k)) :
    IsVJP2 (fun x y k => φ (x (σ k)) (y (τ k))) x y b := by
  unfold IsVJP2
  refine isVJP_of_jacobian (fun k => Sum.elim (fun i => if σ k = i then dx k else 0) fun i => if τ k = i then dy k else 0) (fun k => ?_) fun g i => ?_
  · have h1 : HasFDerivAt (fun z : ι ⊕ ι' → ℝ => (z (.inl (σ k)), z (.inr (τ k)))) ((proj (.inl (σ k)) : (ι ⊕ ι' → ℝ) →L[ℝ] ℝ).prod (proj (.inr (τ k)))) (Sum.elim x y) :=
      (hasFDerivAt_apply _ _).prodMk (hasFDerivAt_apply _ _)
    have h2 := HasFDerivAt.comp (Sum.elim x y) (f := fun z : ι ⊕ ι' → ℝ => (z (.inl (σ k)), z (.inr (τ k)))) (h k) h1
    refine HasFDerivAt.congr_fderiv h2 ?_
    symm
    ext z
    rw [linearFn_apply, Fintype.sum_sum_type]
    simp [ite_mul]
  · rw [hb]
    cases i with
    | inl i =>
      simp only [Sum.elim_inl, Finset.sum_filter]
      exact Finset.sum_congr rfl fun k _ => by split <;> simp
    | inr i =>
      simp only [Sum.elim_inr, Finset.sum_filter]
      exact Finset.sum_congr rfl fun k _ => by split <;> simp

/-- The chain rule. -/
theorem IsVJP.comp {f : (ι → ℝ) → κ → ℝ} {h : (κ → ℝ) → ι' → ℝ} {x : ι → ℝ} {b : (κ → ℝ) → ι → ℝ} {b' : (ι' → ℝ) → κ → ℝ} (hf : IsVJP f x b) (hh : IsVJP h (f x) b') :
    IsVJP (fun z => h (f z)) x fun g => b (b' g) := by
  classical
  have hd : HasFDerivAt f (ContinuousLinearMap.pi fun k => linearFn (b (Pi.single k 1))) x := by
    rw [hasFDerivAt_pi']
    intro k
    have := hf (Pi.single k 1)
    simp only [Pi.single_apply, ite_mul, one_mul, zero_mul, Finset.sum_ite_eq', Finset.mem_univ, if_true] at this
    exact this
  intro g
  have h1 := (hh g).comp x hd
  have h2 : HasFDerivAt (fun z => ∑ k, b' g k * f z k) (∑ k, b' g k • linearFn (b (Pi.single k 1))) x :=
    HasFDerivAt.fun_sum fun k _ => ((hasFDerivAt_pi'.1 hd) k).const_mul (b' g k)
  have h3 := h2.unique (hf (b' g))
  rw [← h3]
  refine HasFDerivAt.congr_fderiv h1 ?_
  symm
  ext z
  simp [linearFn_apply]

theorem IsVJP.congr_back {f : (ι → ℝ) → κ → ℝ} {x : ι → ℝ} {b b' : (κ → ℝ) → ι → ℝ} (hf : IsVJP f x b) (h : ∀ g i, b g i = b' g i) : IsVJP f x b' := by
  have : b = b' := by funext g i; exact h g i
  rw [← this]; exact hf

end CrypTen

import Verif.Model.Gradients
import Verif.Lemmas.Gradient
import Mathlib.Analysis.SpecialFunctions.Log.Deriv
import Mathlib.Analysis.SpecialFunctions.ExpDeriv
import Mathlib.Analysis.SpecialFunctions.Trigonometric.Deriv
import Mathlib.Analysis.SpecialFunctions.Trigonometric.DerivHyp
import Mathlib.Analysis.SpecialFunctions.Pow.Deriv
import Mathlib.Analysis.SpecialFunctions.Sqrt
import Mathlib.Analysis.Calculus.Deriv.ZPow
import Mathlib.Analysis.Calculus.Deriv.Inv
import Mathlib.Algebra.BigOperators.Field
import Mathlib.Tactic.FieldSimp
import Mathlib.Tactic.Linarith

/-!
# C43: gradient functions are the vector-Jacobian products of their forward functions
-/

namespace CrypTen
open Grad ContinuousLinearMap

set_option linter.unusedSectionVars false

variable {ι ι' κ : Type} [Fintype ι] [Fintype ι'] [Fintype κ] [DecidableEq ι] [DecidableEq ι']

theorem C43_neg (x : ι → ℝ) : IsVJP negF x negB :=
  isVJP_map (φ := fun _ y => -y) (φ' := fun _ => -1) (fun i => hasDerivAt_neg (x i)) fun g i => by simp [negB]

theorem C43_relu (x : ι → ℝ) (hx : ∀ i, x i ≠ 0) : IsVJP reluF x (reluB (reluMask x)) := by
  refine isVJP_map (φ := fun _ y => y * if 0 < y then 1 else 0) (φ' := reluMask x) (fun i => ?_) fun g i => rfl
  rcases lt_or_gt_of_ne (hx i) with h | h
  · have : HasDerivAt (fun _ : ℝ => (0 : ℝ)) 0 (x i) := hasDerivAt_const _ _
    rw [reluMask, if_neg (not_lt.2 h.le)]
    refine this.congr_of_eventuallyEq ?_
    filter_upwards [gt_mem_nhds h] with y hy
    simp [not_lt.2 (le_of_lt hy)]
  · rw [reluMask, if_pos h]
    refine (hasDerivAt_id (x i)).congr_of_eventuallyEq ?_
    filter_upwards [lt_mem_nhds h] with y hy
    simp [hy]

theorem C43_dropout (mask : ι → ℝ) (p : ℝ) (x : ι → ℝ) : IsVJP (dropoutF mask p) x (dropoutB mask p) :=
  isVJP_map (φ := fun i y => y * (mask i / (1 - p))) (φ' := fun i => mask i / (1 - p)) (fun i => by simpa using (hasDerivAt_id (x i)).mul_const (mask i / (1 - p))) fun g i => rfl

theorem C43_tanh (x : ι → ℝ) : IsVJP tanhF x (tanhB (tanhF x)) := by
  refine isVJP_map (φ := fun _ y => Real.tanh y) (φ' := fun i => -(Real.tanh (x i) ^ 2) + 1) (fun i => ?_) fun g i => rfl
  have h1 := (Real.hasDerivAt_sinh (x i)).div (Real.hasDerivAt_cosh (x i)) (Real.cosh_pos (x i)).ne'
  have e : (fun y => Real.tanh y) = fun y => Real.sinh y / Real.cosh y := funext Real.tanh_eq_sinh_div_cosh
  rw [e]
  refine h1.congr_deriv ?_
  have hc := (Real.cosh_pos (x i)).ne'
  rw [Real.tanh_eq_sinh_div_cosh]
  field_simp
  ring

theorem C43_hardtanh (lo hi : ℝ) (hlh : lo < hi) (x : ι → ℝ) (h1 : ∀ i, x i ≠ lo) (h2 : ∀ i, x i ≠ hi) : IsVJP (hardtanhF lo hi) x (hardtanhB (hardtanhSaved lo hi x)) := by
  refine isVJP_map (φ := fun _ y => ((if 0 < y - lo then 1 else 0) + (if 0 < hi - y then 1 else 0) - 1) * y + (1 - if 0 < y - lo then 1 else 0) * lo + (1 - if 0 < hi - y then 1 else 0) * hi)
    (φ' := hardtanhSaved lo hi x) (fun i => ?_) fun g i => mul_comm _ _
  unfold hardtanhSaved hardtanhLo hardtanhHi
  rcases lt_or_gt_of_ne (h1 i) with h | h
  · rw [if_neg (by linarith), if_pos (by linarith)]
    refine ((hasDerivAt_const (x i) lo).congr_deriv (by ring)).congr_of_eventuallyEq ?_
    filter_upwards [gt_mem_nhds h] with y hy
    rw [if_neg (by linarith), if_pos (by linarith)]; ring
  · rcases lt_or_gt_of_ne (h2 i) with h' | h'
    · rw [if_pos (by linarith), if_pos (by linarith)]
      refine ((hasDerivAt_id (x i)).congr_deriv (by ring)).congr_of_eventuallyEq ?_
      filter_upwards [lt_mem_nhds h, gt_mem_nhds h'] with y hy hy'
      rw [if_pos (by linarith), if_pos (by linarith)]; simp
    · rw [if_pos (by linarith), if_neg (by linarith)]
      refine ((hasDerivAt_const (x i) hi).congr_deriv (by ring)).congr_of_eventuallyEq ?_
      filter_upwards [lt_mem_nhds h'] with y hy
      rw [if_pos (by linarith), if_neg (by linarith)]; ring

theorem C43_relu6 (x : ι → ℝ) (h1 : ∀ i, x i ≠ 0) (h2 : ∀ i, x i ≠ 6) : IsVJP relu6F x (relu6B (relu6Saved x)) := by
  have h := C43_hardtanh 0 6 (by norm_num) x h1 h2
  have e1 : hardtanhF 0 6 = (relu6F : (ι → ℝ) → ι → ℝ) := by
    funext x i
    simp [hardtanhF, relu6F, hardtanhSaved, hardtanhLo, hardtanhHi, relu6Saved]
  have e2 : hardtanhB (hardtanhSaved 0 6 x) = relu6B (relu6Saved x) := by
    funext g i
    simp [hardtanhB, relu6B, hardtanhSaved, hardtanhLo, hardtanhHi, relu6Saved]
  rw [← e1, ← e2]; exact h

theorem C43_pow (p : ℤ) (x : ι → ℝ) (hx : ∀ i, x i ≠ 0) : IsVJP (powF p) x (powB (powSaved p x)) := by
  refine isVJP_map (φ := fun _ y => y ^ (p - 1) * y) (φ' := powSaved p x) (fun i => ?_) fun g i => mul_comm _ _
  refine ((hasDerivAt_zpow p (x i) (.inl (hx i))).congr_deriv (mul_comm _ _)).congr_of_eventuallyEq ?_
  filter_upwards [isOpen_ne.mem_nhds (hx i)] with y hy
  rw [← zpow_add_one₀ hy, sub_add_cancel]

theorem C43_pos_pow_int (p : ℤ) (x : ι → ℝ) (hx : ∀ i, 0 < x i) : IsVJP (posPowIntF p) x (posPowIntB p x) :=
  isVJP_map (φ := fun _ y => y ^ p) (φ' := fun i => (p : ℝ) * x i ^ (p - 1)) (fun i => hasDerivAt_zpow p (x i) (.inl (hx i).ne')) fun g i => by unfold posPowIntB; ring

/-- **C43 fails for `pos_pow` with a fractional power.** At `x = 4`, `p = 3/2`, the gradient function returns `4^(3/4) = 2√2` instead of the derivative `(3/2) √4 = 3`. -/
theorem C43_pos_pow_wrong : ¬IsVJP (posPowF (3 / 2)) (fun _ : Unit => 4) (posPowB (3 / 2) fun _ => Real.log 4) := by
  have hlog : Real.log 4 = 2 * Real.log 2 := by
    rw [show (4 : ℝ) = 2 ^ 2 by norm_num, Real.log_pow]; norm_num
  intro h
  have h1 : IsVJP (posPowF (3 / 2)) (fun _ : Unit => (4 : ℝ)) (fun g i => g i * 3) := by
    refine isVJP_map (φ := fun _ y => Real.exp (Real.log y * (3 / 2))) (φ' := fun _ => 3) (fun i => ?_) fun g i => rfl
    have h2 := ((Real.hasDerivAt_log (x := 4) (by norm_num)).mul_const (3 / 2)).exp
    refine h2.congr_deriv ?_
    rw [hlog, show 2 * Real.log 2 * (3 / 2) = 3 * Real.log 2 by ring, show (3 : ℝ) * Real.log 2 = ((3 : ℕ) : ℝ) * Real.log 2 by norm_num, Real.exp_nat_mul, Real.exp_log (by norm_num)]
    norm_num
  have h2 := (h fun _ => 1).unique (h1 fun _ => 1)
  have h3 := congrArg (fun L => L fun _ => (1 : ℝ)) h2
  simp only [linearFn_apply] at h3
  simp [posPowB, hlog] at h3
  have h4 : Real.exp (2 * Real.log 2 * (3 / 2 - 1) * (3 / 2)) ^ 2 = 8 := by
    rw [← Real.exp_nat_mul, show ((2 : ℕ) : ℝ) * (2 * Real.log 2 * (3 / 2 - 1) * (3 / 2)) = ((3 : ℕ) : ℝ) * Real.log 2 by push_cast; ring, Real.exp_nat_mul, Real.exp_log (by norm_num)]
    norm_num
  rw [h3] at h4
  norm_num at h4

theorem C43_square (x : ι → ℝ) : IsVJP squareF x (squareB x) :=
  isVJP_map (φ := fun _ y => y ^ 2) (φ' := fun i => x i * 2) (fun i => by simpa [mul_comm] using hasDerivAt_pow 2 (x i)) fun g i => rfl

theorem C43_sqrt (x : ι → ℝ) (hx : ∀ i, 0 < x i) : IsVJP sqrtF x (sqrtB (invSqrt x)) := by
  refine isVJP_map (φ := fun _ y => (Real.sqrt y)⁻¹ * y) (φ' := fun i => (Real.sqrt (x i))⁻¹ / 2) (fun i => ?_) fun g i => by unfold sqrtB invSqrt; ring
  refine ((Real.hasDerivAt_sqrt (hx i).ne').congr_deriv (by rw [one_div, mul_inv]; ring)).congr_of_eventuallyEq ?_
  filter_upwards [lt_mem_nhds (hx i)] with y hy
  have := Real.sqrt_pos.2 hy
  rw [inv_mul_eq_div, div_eq_iff this.ne', Real.mul_self_sqrt hy.le]

theorem C43_exp (x : ι → ℝ) : IsVJP expF x (expB (expF x)) :=
  isVJP_map (φ := fun _ y => Real.exp y) (φ' := fun i => Real.exp (x i)) (fun i => Real.hasDerivAt_exp (x i)) fun g i => mul_comm _ _

theorem C43_log (x : ι → ℝ) (hx : ∀ i, x i ≠ 0) : IsVJP logF x (logB x) :=
  isVJP_map (φ := fun _ y => Real.log y) (φ' := fun i => (x i)⁻¹) (fun i => Real.hasDerivAt_log (hx i)) fun g i => rfl

theorem C43_reciprocal (x : ι → ℝ) (hx : ∀ i, x i ≠ 0) : IsVJP reciprocalF x (reciprocalB (reciprocalF x)) :=
  isVJP_map (φ := fun _ y => y⁻¹) (φ' := fun i => -(x i ^ 2)⁻¹) (fun i => hasDerivAt_inv (hx i)) fun g i => by simp [reciprocalB, reciprocalF]

theorem C43_sin (x : ι → ℝ) : IsVJP sinF x (sinB (cosF x)) :=
  isVJP_map (φ := fun _ y => Real.sin y) (φ' := fun i => Real.cos (x i)) (fun i => Real.hasDerivAt_sin (x i)) fun g i => rfl

theorem C43_cos (x : ι → ℝ) : IsVJP cosF x (cosB (sinF x)) :=
  isVJP_map (φ := fun _ y => Real.cos y) (φ' := fun i => -Real.sin (x i)) (fun i => Real.hasDerivAt_cos (x i)) fun g i => rfl

theorem C43_abs (x : ι → ℝ) (hx : ∀ i, x i ≠ 0) : IsVJP absF x (absB (signF x)) := by
  refine isVJP_map (φ := fun _ y => y * signOf y) (φ' := signF x) (fun i => ?_) fun g i => rfl
  unfold signF signOf
  rcases lt_or_gt_of_ne (hx i) with h | h
  · rw [if_pos h]
    refine ((hasDerivAt_neg (x i))).congr_of_eventuallyEq ?_
    filter_upwards [gt_mem_nhds h] with y hy
    rw [if_pos hy]; ring
  · rw [if_neg (not_lt.2 (le_of_lt h))]
    refine (hasDerivAt_id (x i)).congr_of_eventuallyEq ?_
    filter_upwards [lt_mem_nhds h] with y hy
    rw [if_neg (not_lt.2 (le_of_lt hy))]; simp

theorem C43_sign (x : ι → ℝ) (hx : ∀ i, x i ≠ 0) : IsVJP signF x signB := by
  refine isVJP_map (φ := fun _ y => signOf y) (φ' := fun _ => 0) (fun i => ?_) fun g i => by simp [signB]
  unfold signOf
  rcases lt_or_gt_of_ne (hx i) with h | h
  · refine (hasDerivAt_const (x i) (-1)).congr_of_eventuallyEq ?_
    filter_upwards [gt_mem_nhds h] with y hy
    rw [if_pos hy]
  · refine (hasDerivAt_const (x i) 1).congr_of_eventuallyEq ?_
    filter_upwards [lt_mem_nhds h] with y hy
    rw [if_neg (not_lt.2 (le_of_lt hy))]

theorem hasDerivAt_sigmoid (y : ℝ) : HasDerivAt sigmoid (sigmoid y * (1 - sigmoid y)) y := by
  have h1 : HasDerivAt (fun y => 1 + Real.exp (-y)) (-Real.exp (-y)) y := by
    have := ((hasDerivAt_neg y).exp).const_add 1
    simpa using this
  have hp : 1 + Real.exp (-y) ≠ 0 := by positivity
  refine (h1.inv hp).congr_deriv ?_
  unfold sigmoid
  field_simp
  ring

theorem C43_sigmoid (x : ι → ℝ) : IsVJP sigmoidF x (sigmoidB (sigmoidF x)) :=
  isVJP_map (φ := fun _ y => sigmoid y) (φ' := fun i => sigmoid (x i) * (1 - sigmoid (x i))) (fun i => hasDerivAt_sigmoid (x i)) fun g i => by unfold sigmoidB sigmoidF; ring

private theorem polyVal_sum (c : List ℝ) (y : ℝ) : polyVal c y = ∑ j ∈ Finset.range c.length, c.getD j 0 * y ^ (j + 1) := rfl

private theorem polyVal_deriv (c : List ℝ) (y : ℝ) : HasDerivAt (polyVal c) ((polynomialScaled c).headD 0 + polyVal (polynomialScaled c).tail y) y := by
  have h1 : HasDerivAt (fun y => ∑ j ∈ Finset.range c.length, c.getD j 0 * y ^ (j + 1)) (∑ j ∈ Finset.range c.length, c.getD j 0 * (((j + 1 : ℕ) : ℝ) * y ^ j)) y :=
    HasDerivAt.fun_sum fun j _ => by simpa using (hasDerivAt_pow (j + 1) y).const_mul (c.getD j 0)
  have e : polyVal c = fun y => ∑ j ∈ Finset.range c.length, c.getD j 0 * y ^ (j + 1) := funext (polyVal_sum c)
  rw [e]
  refine h1.congr_deriv ?_
  unfold polynomialScaled
  cases c with
  | nil => simp [polyVal]
  | cons a c =>
    rw [List.length_cons, Finset.sum_range_succ', polyVal_sum, List.mapIdx_cons]
    simp only [List.tail_cons, List.headD_cons, List.length_mapIdx, List.getD_cons_succ, List.getD_cons_zero]
    rw [add_comm]
    congr 1
    · simp
    · refine Finset.sum_congr rfl fun j hj => ?_
      rw [Finset.mem_range] at hj
      simp only [List.getD_eq_getElem?_getD, List.getElem?_mapIdx, List.getElem?_eq_getElem hj, Option.map_some, Option.getD_some]
      push_cast
      ring

theorem C43_polynomial (c : List ℝ) (x : ι → ℝ) : IsVJP (polynomialF c) x (polynomialB c x) := by
  refine isVJP_map (φ := fun _ y => polyVal c y) (φ' := fun i => polyVal (polynomialScaled c).tail (x i) + (polynomialScaled c).headD 0) (fun i => ?_) fun g i => mul_comm _ _
  rw [add_comm]
  exact polyVal_deriv c (x i)

/-! ## Two operands -/

theorem C43_add (σ : κ → ι) (τ : κ → ι') (x : ι → ℝ) (y : ι' → ℝ) : IsVJP2 (addF σ τ) x y (addB σ τ) := by
  refine isVJP2_zip (φ := fun a b => a + b) (dx := fun _ => 1) (dy := fun _ => 1) (fun k => ?_) fun g => by simp [addB]; exact ⟨rfl, rfl⟩
  refine (hasFDerivAt_fst.add hasFDerivAt_snd).congr_fderiv ?_
  simp

theorem C43_sub (σ : κ → ι) (τ : κ → ι') (x : ι → ℝ) (y : ι' → ℝ) : IsVJP2 (subF σ τ) x y (subB σ τ) := by
  refine isVJP2_zip (φ := fun a b => a - b) (dx := fun _ => 1) (dy := fun _ => -1) (fun k => ?_) fun g => by simp [subB, unbroadcast]; rfl
  refine (hasFDerivAt_fst.sub hasFDerivAt_snd).congr_fderiv ?_
  ext <;> simp

theorem C43_rsub (σ : κ → ι) (τ : κ → ι') (x : ι → ℝ) (y : ι' → ℝ) : IsVJP2 (rsubF σ τ) x y (rsubB σ τ) := by
  refine isVJP2_zip (φ := fun a b => -a + b) (dx := fun _ => -1) (dy := fun _ => 1) (fun k => ?_) fun g => by simp [rsubB, unbroadcast]; rfl
  refine (hasFDerivAt_fst.neg.add hasFDerivAt_snd).congr_fderiv ?_
  ext <;> simp

theorem C43_mul (σ : κ → ι) (τ : κ → ι') (x : ι → ℝ) (y : ι' → ℝ) : IsVJP2 (mulF σ τ) x y (mulB σ τ x y) := by
  refine isVJP2_zip (φ := fun a b => a * b) (dx := fun k => y (τ k)) (dy := fun k => x (σ k)) (fun k => ?_) fun g => rfl
  refine (hasFDerivAt_fst.mul hasFDerivAt_snd).congr_fderiv ?_
  ext <;> simp

theorem C43_div (σ : κ → ι) (τ : κ → ι') (x : ι → ℝ) (y : ι' → ℝ) (hy : ∀ j, y j ≠ 0) : IsVJP2 (divF σ τ) x y (divB σ τ x fun j => (y j)⁻¹) := by
  refine isVJP2_zip (φ := fun a b => a * b⁻¹) (dx := fun k => (y (τ k))⁻¹) (dy := fun k => -((y (τ k))⁻¹ ^ 2 * x (σ k))) (fun k => ?_) fun g => ?_
  · have h1 : HasFDerivAt (fun p : ℝ × ℝ => p.2⁻¹) (-(y (τ k) ^ 2)⁻¹ • snd ℝ ℝ ℝ) (x (σ k), y (τ k)) := (hasDerivAt_inv (hy (τ k))).comp_hasFDerivAt (x (σ k), y (τ k)) hasFDerivAt_snd
    refine (hasFDerivAt_fst.mul h1).congr_fderiv ?_
    ext <;> simp; ring
  · unfold divB unbroadcast
    refine Prod.ext (funext fun i => Finset.sum_congr rfl fun k _ => mul_comm _ _) (funext fun i => Finset.sum_congr rfl fun k _ => ?_)
    ring

theorem C43_div_public (σ : κ → ι) (y : κ → ℝ) (x : ι → ℝ) : IsVJP (divPublicF σ y) x (divPublicB σ y) := by
  refine isVJP_linear (A := fun k i => if σ k = i then 1 / y k else 0) (fun z k => by simp [divPublicF, ite_mul]; ring) fun g i => ?_
  unfold divPublicB unbroadcast
  rw [Finset.sum_filter]
  exact Finset.sum_congr rfl fun k _ => by split <;> simp [div_eq_mul_inv]

theorem C43_rdiv (σ : κ → ι) (τ : κ → ι') (x : ι → ℝ) (y : ι' → ℝ) (hx : ∀ j, x j ≠ 0) : IsVJP2 (rdivF σ τ) x y (rdivB σ τ (fun j => (x j)⁻¹) y) := by
  refine isVJP2_zip (φ := fun a b => a⁻¹ * b) (dx := fun k => -((x (σ k))⁻¹ ^ 2 * y (τ k))) (dy := fun k => (x (σ k))⁻¹) (fun k => ?_) fun g => ?_
  · have h1 : HasFDerivAt (fun p : ℝ × ℝ => p.1⁻¹) (-(x (σ k) ^ 2)⁻¹ • fst ℝ ℝ ℝ) (x (σ k), y (τ k)) := (hasDerivAt_inv (hx (σ k))).comp_hasFDerivAt (x (σ k), y (τ k)) hasFDerivAt_fst
    refine (h1.mul hasFDerivAt_snd).congr_fderiv ?_
    ext <;> simp; ring
  · unfold rdivB unbroadcast
    refine Prod.ext (funext fun i => Finset.sum_congr rfl fun k _ => ?_) (funext fun i => Finset.sum_congr rfl fun k _ => mul_comm _ _)
    ring

/-! ## Products -/

theorem C43_dot (x y : ι → ℝ) : IsVJP2 dotF x y (dotB x y) := by
  unfold IsVJP2
  refine isVJP_of_jacobian (fun _ => Sum.elim y x) (fun k => ?_) fun g i => ?_
  · have h : HasFDerivAt (fun z : ι ⊕ ι → ℝ => ∑ i, z (.inl i) * z (.inr i)) (∑ i, (x i • (proj (.inr i) : (ι ⊕ ι → ℝ) →L[ℝ] ℝ) + y i • (proj (.inl i) : (ι ⊕ ι → ℝ) →L[ℝ] ℝ))) (Sum.elim x y) :=
      HasFDerivAt.fun_sum fun i _ => by
        have a := hasFDerivAt_apply (𝕜 := ℝ) (Sum.inl i) (Sum.elim x y)
        have b := hasFDerivAt_apply (𝕜 := ℝ) (Sum.inr i) (Sum.elim x y)
        simpa using a.fun_mul b
    refine HasFDerivAt.congr_fderiv h ?_
    ext z
    simp [linearFn_apply, Fintype.sum_sum_type, Finset.sum_add_distrib, add_comm]
  · cases i <;> simp [dotB]

theorem C43_ger (x : ι → ℝ) (y : ι' → ℝ) : IsVJP2 gerF x y (gerB x y) := by
  refine isVJP2_zip (σ := Prod.fst) (τ := Prod.snd) (φ := fun a b => a * b) (dx := fun p => y p.2) (dy := fun p => x p.1) (fun k => ?_) fun g => ?_
  · refine (hasFDerivAt_fst.mul hasFDerivAt_snd).congr_fderiv ?_
    ext <;> simp
  · unfold gerB
    refine Prod.ext (funext fun i => ?_) (funext fun j => ?_)
    · simp only [Finset.sum_filter, Fintype.sum_prod_type]
      rw [Finset.sum_eq_single i (fun b _ hb => by simp [hb]) (by simp)]
      simp
    · simp only [Finset.sum_filter, Fintype.sum_prod_type_right]
      rw [Finset.sum_eq_single j (fun b _ hb => by simp [hb]) (by simp)]
      simp [mul_comm]

theorem C43_matmul [DecidableEq κ] (x : ι × κ → ℝ) (y : κ × ι' → ℝ) : IsVJP2 matmulF x y (matmulB x y) := by
  unfold IsVJP2
  refine isVJP_of_jacobian (fun p => Sum.elim (fun q => if q.1 = p.1 then y (q.2, p.2) else 0) fun q => if q.2 = p.2 then x (p.1, q.1) else 0) (fun p => ?_) fun g i => ?_
  · have h : HasFDerivAt (fun z : (ι × κ) ⊕ (κ × ι') → ℝ => ∑ k, z (.inl (p.1, k)) * z (.inr (k, p.2)))
        (∑ k, (x (p.1, k) • (proj (.inr (k, p.2)) : ((ι × κ) ⊕ (κ × ι') → ℝ) →L[ℝ] ℝ) + y (k, p.2) • (proj (.inl (p.1, k)) : ((ι × κ) ⊕ (κ × ι') → ℝ) →L[ℝ] ℝ))) (Sum.elim x y) :=
      HasFDerivAt.fun_sum fun k _ => by
        have a := hasFDerivAt_apply (𝕜 := ℝ) (Sum.inl (p.1, k)) (Sum.elim x y)
        have b := hasFDerivAt_apply (𝕜 := ℝ) (Sum.inr (k, p.2)) (Sum.elim x y)
        simpa using a.fun_mul b
    refine HasFDerivAt.congr_fderiv h ?_
    ext z
    simp only [linearFn_apply, Fintype.sum_sum_type, Sum.elim_inl, Sum.elim_inr, Fintype.sum_prod_type, ite_mul, zero_mul, sum_apply, add_apply, smul_apply, smul_eq_mul, proj_apply,
      Finset.sum_add_distrib]
    rw [add_comm]
    congr 1
    · rw [Finset.sum_eq_single p.1 (fun b _ hb => by simp [hb]) (by simp)]
      simp
    · simp
  · cases i with
    | inl q =>
      simp only [matmulB, Sum.elim_inl, Fintype.sum_prod_type, mul_ite, mul_zero]
      rw [Finset.sum_eq_single q.1 (fun b _ hb => by simp [Ne.symm hb]) (by simp)]
      simp
    | inr q =>
      simp only [matmulB, Sum.elim_inr, Fintype.sum_prod_type, mul_ite, mul_zero]
      exact Finset.sum_congr rfl fun i _ => by simp [mul_comm]

/-! ## Reductions -/

theorem C43_sum (x : κ × ι → ℝ) : IsVJP sumF x sumB := by
  classical
  refine isVJP_linear (A := fun o p => if p.1 = o then 1 else 0) (fun z o => ?_) fun g p => ?_
  · simp only [sumF, Fintype.sum_prod_type, ite_mul, one_mul, zero_mul]
    rw [Finset.sum_eq_single o (fun b _ hb => by simp [hb]) (by simp)]
    simp
  · simp [sumB]

theorem C43_mean (x : κ × ι → ℝ) : IsVJP meanF x meanB := by
  classical
  refine isVJP_linear (A := fun o p => if p.1 = o then 1 / (Fintype.card ι : ℝ) else 0) (fun z o => ?_) fun g p => ?_
  · simp only [meanF, Fintype.sum_prod_type, ite_mul, zero_mul]
    rw [Finset.sum_eq_single o (fun b _ hb => by simp [hb]) (by simp)]
    simp only [if_true]
    rw [← Finset.mul_sum]; ring
  · simp [meanB]

theorem C43_trace (x : ι × ι → ℝ) : IsVJP traceF x traceB := by
  refine isVJP_linear (A := fun _ p => if p.1 = p.2 then 1 else 0) (fun z o => ?_) fun g p => ?_
  · simp [traceF, Fintype.sum_prod_type]
  · simp [traceB, mul_comm]

theorem C43_cumsum {n : ℕ} (x : κ × Fin n → ℝ) : IsVJP cumsumF x cumsumB := by
  classical
  refine isVJP_linear (A := fun p q => if q.1 = p.1 ∧ q.2 ≤ p.2 then 1 else 0) (fun z p => ?_) fun g q => ?_
  · simp only [cumsumF, Fintype.sum_prod_type, ite_mul, one_mul, zero_mul, Finset.sum_filter]
    rw [Finset.sum_eq_single p.1 (fun b _ hb => by simp [hb]) (by simp)]
    simp
  · simp only [cumsumB, flipDim, cumsumF, Fintype.sum_prod_type, mul_ite, mul_one, mul_zero, Finset.sum_filter]
    rw [Finset.sum_eq_single q.1 (fun b _ hb => by simp [Ne.symm hb]) (by simp)]
    simp only [true_and]
    refine Finset.sum_nbij' Fin.rev Fin.rev (by simp) (by simp) (by simp) (by simp) fun d _ => ?_
    simp [Fin.le_rev_iff, Fin.rev_le_iff]

/-- the mean of a row as a linear function -/
private theorem hasFDerivAt_mean (x : κ × ι → ℝ) (o : κ) [DecidableEq κ] : HasFDerivAt (fun z : κ × ι → ℝ => meanF z o) (linearFn fun p => if p.1 = o then 1 / (Fintype.card ι : ℝ) else 0) x := by
  have := (C43_mean x) (Pi.single o 1)
  simp only [Pi.single_apply, ite_mul, one_mul, zero_mul, Finset.sum_ite_eq', Finset.mem_univ, if_true] at this
  refine this.congr_fderiv ?_
  congr 1
  funext p
  simp [meanB, Pi.single_apply]

theorem C43_var (divisor : ℝ) (x : κ × ι → ℝ) : IsVJP (varF divisor) x (varB divisor x (meanF x)) := by
  classical
  refine isVJP_of_jacobian (fun o p => if p.1 = o then (x p - meanF x p.1) * 2 / divisor else 0) (fun o => ?_) fun g p => ?_
  · have h1 : ∀ d : ι, HasFDerivAt (fun z : κ × ι → ℝ => (z (o, d) - meanF z o) ^ 2)
        ((2 * (x (o, d) - meanF x o)) • ((proj (o, d) : (κ × ι → ℝ) →L[ℝ] ℝ) - linearFn fun p => if p.1 = o then 1 / (Fintype.card ι : ℝ) else 0)) x := by
      intro d
      have := ((hasFDerivAt_apply (𝕜 := ℝ) (o, d) x).sub (hasFDerivAt_mean x o)).pow 2
      simpa using this
    have h2 : HasFDerivAt (fun z : κ × ι → ℝ => (∑ d, (z (o, d) - meanF z o) ^ 2) * divisor⁻¹)
        (divisor⁻¹ • ∑ d : ι, (2 * (x (o, d) - meanF x o)) • ((proj (o, d) : (κ × ι → ℝ) →L[ℝ] ℝ) - linearFn fun p => if p.1 = o then 1 / (Fintype.card ι : ℝ) else 0)) x :=
      (HasFDerivAt.fun_sum fun d _ => h1 d).mul_const divisor⁻¹
    have e : (fun z => varF divisor z o) = fun z : κ × ι → ℝ => (∑ d, (z (o, d) - meanF z o) ^ 2) * divisor⁻¹ := rfl
    rw [e]
    refine HasFDerivAt.congr_fderiv h2 ?_
    ext z
    simp only [smul_apply, sum_apply, sub_apply, proj_apply, smul_eq_mul, linearFn_apply, Fintype.sum_prod_type, ite_mul, zero_mul]
    rw [Finset.sum_eq_single o (fun b _ hb => by simp [hb]) (by simp), Finset.sum_eq_single o (fun b _ hb => by simp [hb]) (by simp)]
    simp only [if_true]
    have h0 : ∑ d, (x (o, d) - meanF x o) = 0 := by
      rw [Finset.sum_sub_distrib, Finset.sum_const, Finset.card_univ, nsmul_eq_mul]
      unfold meanF
      by_cases hc : (Fintype.card ι : ℝ) = 0
      · have : IsEmpty ι := Fintype.card_eq_zero_iff.1 (by exact_mod_cast hc)
        simp
      · rw [mul_div_cancel₀ _ hc, sub_self]
    have h3 : ∑ d, 2 * (x (o, d) - meanF x o) * (z (o, d) - ∑ i, 1 / (Fintype.card ι : ℝ) * z (o, i)) = ∑ d, 2 * (x (o, d) - meanF x o) * z (o, d) := by
      generalize ∑ i, 1 / (Fintype.card ι : ℝ) * z (o, i) = c
      have : ∀ d, 2 * (x (o, d) - meanF x o) * (z (o, d) - c) = 2 * (x (o, d) - meanF x o) * z (o, d) - 2 * c * (x (o, d) - meanF x o) := fun d => by ring
      simp only [this]
      rw [Finset.sum_sub_distrib, ← Finset.mul_sum Finset.univ (fun d => x (o, d) - meanF x o), h0]
      ring
    rw [h3, Finset.mul_sum]
    exact Finset.sum_congr rfl fun d _ => by ring
  · simp only [varB, mul_ite, mul_zero, Finset.sum_ite_eq, Finset.mem_univ, if_true]
    ring

theorem C43_max [Nonempty ι] (x : κ × ι → ℝ) (a : κ → ι) (ha : ∀ o d, d ≠ a o → x (o, d) < x (o, a o)) :
    IsVJP maxF x (maxB fun p => if p.2 = a p.1 then 1 else 0) := by
  classical
  refine isVJP_of_jacobian (fun o => Pi.single (o, a o) 1) (fun o => ?_) fun g p => ?_
  · refine (hasFDerivAt_coord (o, a o) x).congr_of_eventuallyEq ?_
    have : ∀ᶠ z : κ × ι → ℝ in nhds x, ∀ d, d ≠ a o → z (o, d) < z (o, a o) := by
      rw [Filter.eventually_all]
      intro d
      by_cases hd : d = a o
      · simp [hd]
      · have := (isOpen_lt (continuous_apply (A := fun _ : κ × ι => ℝ) (o, d)) (continuous_apply (o, a o))).mem_nhds (show x ∈ _ from ha o d hd)
        filter_upwards [this] with z hz _
        exact hz
    filter_upwards [this] with z hz
    refine le_antisymm (Finset.sup'_le _ _ fun d _ => ?_) (Finset.le_sup' (fun d => z (o, d)) (Finset.mem_univ (a o)))
    by_cases hd : d = a o
    · rw [hd]
    · exact (hz d hd).le
  · simp only [maxB, Pi.single_apply, mul_ite, mul_one, mul_zero]
    rw [Finset.sum_eq_single p.1]
    · by_cases h : p.2 = a p.1
      · rw [if_pos h, if_pos (show p = (p.1, a p.1) from Prod.ext rfl h)]
      · rw [if_neg h, if_neg fun e : p = (p.1, a p.1) => h (congrArg Prod.snd e)]
    · intro b _ hb
      rw [if_neg fun e => hb (congrArg Prod.fst e).symm]
    · simp

theorem C43_min [Nonempty ι] (x : κ × ι → ℝ) (a : κ → ι) (ha : ∀ o d, d ≠ a o → x (o, a o) < x (o, d)) :
    IsVJP minF x (maxB fun p => if p.2 = a p.1 then 1 else 0) := by
  classical
  refine isVJP_of_jacobian (fun o => Pi.single (o, a o) 1) (fun o => ?_) fun g p => ?_
  · refine (hasFDerivAt_coord (o, a o) x).congr_of_eventuallyEq ?_
    have : ∀ᶠ z : κ × ι → ℝ in nhds x, ∀ d, d ≠ a o → z (o, a o) < z (o, d) := by
      rw [Filter.eventually_all]
      intro d
      by_cases hd : d = a o
      · simp [hd]
      · have := (isOpen_lt (continuous_apply (A := fun _ : κ × ι => ℝ) (o, a o)) (continuous_apply (o, d))).mem_nhds (show x ∈ _ from ha o d hd)
        filter_upwards [this] with z hz _
        exact hz
    filter_upwards [this] with z hz
    refine le_antisymm (Finset.inf'_le (fun d => z (o, d)) (Finset.mem_univ (a o))) (Finset.le_inf' _ _ fun d _ => ?_)
    by_cases hd : d = a o
    · rw [hd]
    · exact (hz d hd).le
  · simp only [maxB, Pi.single_apply, mul_ite, mul_one, mul_zero]
    rw [Finset.sum_eq_single p.1]
    · by_cases h : p.2 = a p.1
      · rw [if_pos h, if_pos (show p = (p.1, a p.1) from Prod.ext rfl h)]
      · rw [if_neg h, if_neg fun e : p = (p.1, a p.1) => h (congrArg Prod.snd e)]
    · intro b _ hb
      rw [if_neg fun e => hb (congrArg Prod.fst e).symm]
    · simp

private theorem exp_sum_pos [Nonempty ι] (x : κ × ι → ℝ) (o : κ) : 0 < ∑ d : ι, Real.exp (x (o, d)) :=
  Finset.sum_pos (fun d _ => Real.exp_pos _) Finset.univ_nonempty

private theorem exp_logSoftmax [Nonempty ι] (x : κ × ι → ℝ) (p : κ × ι) : Real.exp (logSoftmaxF x p) = softmaxF x p := by
  unfold logSoftmaxF softmaxF
  rw [Real.exp_sub, Real.exp_log (exp_sum_pos x p.1)]

theorem C43_log_softmax [Nonempty ι] (x : κ × ι → ℝ) : IsVJP logSoftmaxF x (logSoftmaxB (logSoftmaxF x)) := by
  classical
  refine isVJP_of_jacobian (fun p q => (if q = p then 1 else 0) - if q.1 = p.1 then softmaxF x q else 0) (fun p => ?_) fun g q => ?_
  · have h1 : HasFDerivAt (fun z : κ × ι → ℝ => ∑ d, Real.exp (z (p.1, d))) (∑ d : ι, Real.exp (x (p.1, d)) • (proj (p.1, d) : (κ × ι → ℝ) →L[ℝ] ℝ)) x :=
      HasFDerivAt.fun_sum fun d _ => (hasFDerivAt_apply (𝕜 := ℝ) (p.1, d) x).exp
    have h2 := (hasFDerivAt_apply (𝕜 := ℝ) p x).sub (h1.log (exp_sum_pos x p.1).ne')
    refine HasFDerivAt.congr_fderiv h2 ?_
    ext z
    simp only [linearFn_apply, sub_apply, smul_apply, sum_apply, proj_apply, smul_eq_mul, sub_mul, ite_mul, one_mul, zero_mul, Finset.sum_sub_distrib, Finset.sum_ite_eq', Finset.mem_univ, if_true]
    congr 1
    rw [Fintype.sum_prod_type, Finset.sum_eq_single p.1 (fun b _ hb => by simp [hb]) (by simp), Finset.mul_sum]
    simp only [if_true, softmaxF]
    exact Finset.sum_congr rfl fun d _ => by ring
  · simp only [logSoftmaxB, exp_logSoftmax, mul_sub, mul_ite, mul_one, mul_zero, Finset.sum_sub_distrib, Finset.sum_ite_eq, Finset.mem_univ, if_true]
    congr 1
    rw [Fintype.sum_prod_type, Finset.sum_eq_single q.1 (fun b _ hb => by simp [Ne.symm hb]) (by simp), Finset.mul_sum]
    simp only [if_true]
    exact Finset.sum_congr rfl fun d _ => by ring

theorem C43_softmax [Nonempty ι] (x : κ × ι → ℝ) : IsVJP softmaxF x (softmaxB (softmaxF x)) := by
  classical
  have h := (C43_log_softmax x).comp (C43_exp (logSoftmaxF x))
  have e1 : (fun z => expF (logSoftmaxF z)) = (softmaxF : (κ × ι → ℝ) → _) := by
    funext z p; exact exp_logSoftmax z p
  rw [e1] at h
  refine h.congr_back fun g p => ?_
  have e2 : expF (logSoftmaxF x) = softmaxF x := congrFun e1 x
  simp only [logSoftmaxB, softmaxB, expB, e2, exp_logSoftmax]
  ring

/-- a sum of functions of single entries -/
private theorem isVJP_sum {φ : ι → ℝ → ℝ} {φ' : ι → ℝ} {x : ι → ℝ} {b : (Unit → ℝ) → ι → ℝ} (h : ∀ i, HasDerivAt (φ i) (φ' i) (x i)) (hb : ∀ g i, b g i = g () * φ' i) :
    IsVJP (fun z (_ : Unit) => ∑ i, φ i (z i)) x b := by
  refine isVJP_of_jacobian (fun _ => φ') (fun _ => ?_) fun g i => by simp [hb]
  refine HasFDerivAt.congr_fderiv (HasFDerivAt.fun_sum fun i _ => hasFDerivAt_entry (h i)) ?_
  ext z
  simp [linearFn_apply, Pi.single_apply]

theorem C43_norm (x : ι → ℝ) (hx : ∃ i, x i ≠ 0) : IsVJP normF x (normB x (normF x)) := by
  have hpos : 0 < ∑ i, x i ^ 2 := by
    obtain ⟨i, hi⟩ := hx
    exact Finset.sum_pos' (fun j _ => sq_nonneg _) ⟨i, Finset.mem_univ i, by positivity⟩
  refine isVJP_of_jacobian (fun _ i => x i / Real.sqrt (∑ i, x i ^ 2)) (fun _ => ?_) fun g i => by simp [normB, normF]
  have h1 : HasFDerivAt (fun z : ι → ℝ => ∑ i, z i ^ 2) (∑ i, (2 * x i) • (proj i : (ι → ℝ) →L[ℝ] ℝ)) x :=
    HasFDerivAt.fun_sum fun i _ => by simpa using (hasFDerivAt_apply (𝕜 := ℝ) i x).pow 2
  refine HasFDerivAt.congr_fderiv (h1.sqrt hpos.ne') ?_
  ext z
  simp only [linearFn_apply, smul_apply, sum_apply, proj_apply, smul_eq_mul, Finset.mul_sum]
  refine Finset.sum_congr rfl fun i _ => ?_
  have := (Real.sqrt_pos.2 hpos).ne'
  field_simp

/-- **C43 fails for `norm(dim=…)`.** For the matrix with rows (3, 4) and (6, 8) and the gradient (1, 0) of its row norms, the gradient function returns 0 for the entry 4, where the derivative
is 4/5. -/
theorem C43_norm_dim_wrong : let x : Fin 2 × Fin 2 → ℝ := fun p => ![![3, 4], ![6, 8]] p.1 p.2
    ¬IsVJP normDimF x (normDimB x (normDimF x)) := by
  intro x h
  have h1 := h ![1, 0]
  have e : (fun z : Fin 2 × Fin 2 → ℝ => ∑ k, (![1, 0] : Fin 2 → ℝ) k * normDimF z k) = fun z => Real.sqrt (z (0, 0) ^ 2 + z (0, 1) ^ 2) := by
    funext z; simp [normDimF, Fin.sum_univ_two]
  rw [e] at h1
  have h2 : HasFDerivAt (fun z : Fin 2 × Fin 2 → ℝ => z (0, 0) ^ 2 + z (0, 1) ^ 2) ((2 * x (0, 0)) • (proj (0, 0) : (Fin 2 × Fin 2 → ℝ) →L[ℝ] ℝ) + (2 * x (0, 1)) • proj (0, 1)) x := by
    have a := (hasFDerivAt_apply (𝕜 := ℝ) (0, 0) x).pow 2
    have b := (hasFDerivAt_apply (𝕜 := ℝ) (0, 1) x).pow 2
    simpa using a.fun_add b
  have h5 : x (0, 0) ^ 2 + x (0, 1) ^ 2 = 5 ^ 2 := by simp [x]; norm_num
  have h3 := h2.sqrt (by rw [h5]; norm_num)
  have h4 := congrArg (fun L => L (Pi.single (0, 1) 1)) (h1.unique h3)
  simp only [linearFn_apply, h5] at h4
  rw [Real.sqrt_sq (by norm_num)] at h4
  simp [normDimB, Pi.single_apply, x] at h4

/-! ## Losses -/

theorem C43_bce (t x : ι → ℝ) (h0 : ∀ i, x i ≠ 0) (h1 : ∀ i, x i ≠ 1) : IsVJP (bceF t) x (bceB t x) := by
  have e : bceF t = fun z (_ : Unit) => ∑ i, -((t i * Real.log (z i) + (1 - t i) * Real.log (1 - z i)) / Fintype.card ι) := by
    funext z u
    rw [bceF, Finset.sum_neg_distrib, Finset.sum_div]
  rw [e]
  refine isVJP_sum (φ := fun i y => -((t i * Real.log y + (1 - t i) * Real.log (1 - y)) / Fintype.card ι)) (φ' := fun i => ((1 - x i)⁻¹ * (1 - t i) - (x i)⁻¹ * t i) / Fintype.card ι) (fun i => ?_) fun g i => by simp only [bceB]; ring
  have a := (Real.hasDerivAt_log (h0 i)).const_mul (t i)
  have b := (((hasDerivAt_id (x i)).const_sub 1).log (sub_ne_zero.2 (h1 i).symm)).const_mul (1 - t i)
  refine ((a.add b).div_const (Fintype.card ι : ℝ)).neg.congr_deriv ?_
  simp only [id]
  ring

theorem sigmoid_pos (y : ℝ) : 0 < sigmoid y := by unfold sigmoid; positivity
theorem sigmoid_lt_one (y : ℝ) : sigmoid y < 1 := by
  unfold sigmoid
  exact inv_lt_one_of_one_lt₀ (by linarith [Real.exp_pos (-y)])

theorem C43_bce_with_logits (t x : ι → ℝ) : IsVJP (bceLogitsF t) x (bceLogitsB t (sigmoidF x)) := by
  have h := (C43_sigmoid x).comp (C43_bce t (sigmoidF x) (fun i => (sigmoid_pos _).ne') fun i => (sigmoid_lt_one _).ne)
  refine h.congr_back fun g i => ?_
  have h0 := (sigmoid_pos (x i)).ne'
  have h1 : 1 - sigmoid (x i) ≠ 0 := sub_ne_zero.2 (sigmoid_lt_one (x i)).ne'
  simp only [sigmoidB, bceB, bceLogitsB, sigmoidF]
  generalize sigmoid (x i) = p at h0 h1
  rw [neg_add_eq_sub]
  field_simp
  ring

theorem C43_rappor (α : ℝ) (h0 : 0 ≤ α) (h1 : α ≤ 1) (t x : ι → ℝ) : IsVJP (rapporF α t) x (rapporB α t (rapporPred α x) (rapporCorrection α x)) := by
  have hp : ∀ i, 0 < rapporPred α x i ∧ rapporPred α x i < 1 := by
    intro i
    have a := sigmoid_pos (x i)
    have b := sigmoid_lt_one (x i)
    unfold rapporPred
    split
    · exact ⟨a, b⟩
    · constructor <;> nlinarith [mul_nonneg h0 a.le, mul_nonneg (sub_nonneg.2 h1) a.le, mul_nonneg h0 (sub_pos.2 b).le, mul_nonneg (sub_nonneg.2 h1) (sub_pos.2 b).le]
  have hd : IsVJP (rapporPred α) x fun g i => g i * ((if α = 0 then 1 else 2 * α - 1) * (sigmoid (x i) * (1 - sigmoid (x i)))) := by
    refine isVJP_map (φ := fun _ y => if α = 0 then sigmoid y else α * sigmoid y + (1 - α) * (1 - sigmoid y)) (φ' := fun i => (if α = 0 then 1 else 2 * α - 1) * (sigmoid (x i) * (1 - sigmoid (x i))))
      (fun i => ?_) fun g i => rfl
    have a := hasDerivAt_sigmoid (x i)
    by_cases hα : α = 0
    · simpa [hα] using a
    · simp only [if_neg hα]
      refine ((a.const_mul α).add ((a.const_sub 1).const_mul (1 - α))).congr_deriv ?_
      ring
  refine (hd.comp (C43_bce t (rapporPred α x) (fun i => (hp i).1.ne') fun i => (hp i).2.ne)).congr_back fun g i => ?_
  have a := (hp i).1.ne'
  have b : 1 - rapporPred α x i ≠ 0 := sub_ne_zero.2 (hp i).2.ne'
  simp only [bceB, rapporB, rapporCorrection]
  by_cases hα : α = 0
  · simp only [if_pos hα]
    have e : rapporPred α x i = sigmoid (x i) := by simp [rapporPred, hα]
    rw [e] at a b ⊢
    field_simp
    ring
  · simp only [if_neg hα]
    field_simp
    ring

theorem C43_cross_entropy [Nonempty ι] (t x : κ × ι → ℝ) (ht : ∀ o, ∑ d, t (o, d) = 1) : IsVJP (crossEntropyF t) x (crossEntropyB t (softmaxF x)) := by
  have hl : IsVJP (fun (z : κ × ι → ℝ) (_ : Unit) => ∑ p, -(z p * t p) / Fintype.card κ) (logSoftmaxF x) fun g p => g () * (-t p / Fintype.card κ) := by
    classical
    refine isVJP_sum (φ := fun p y => -(y * t p) / Fintype.card κ) (φ' := fun p => -t p / Fintype.card κ) (fun p => ?_) fun g p => rfl
    have := (((hasDerivAt_id (logSoftmaxF x p)).mul_const (t p)).neg).div_const (Fintype.card κ : ℝ)
    simpa using this
  have h := (C43_log_softmax x).comp hl
  have e : (fun z => (fun (z : κ × ι → ℝ) (_ : Unit) => ∑ p, -(z p * t p) / Fintype.card κ) (logSoftmaxF z)) = crossEntropyF t := by
    funext z u
    simp only [crossEntropyF, ← exp_logSoftmax, Real.log_exp, Finset.sum_div]
  rw [e] at h
  refine h.congr_back fun g p => ?_
  have h2 : ∑ d, g () * (-t (p.1, d) / (Fintype.card κ : ℝ)) = -(g () / Fintype.card κ) := by
    have : ∀ d, g () * (-t (p.1, d) / (Fintype.card κ : ℝ)) = -(g () / Fintype.card κ) * t (p.1, d) := fun d => by ring
    simp only [this]
    rw [← Finset.mul_sum, ht, mul_one]
  simp only [logSoftmaxB, crossEntropyB, exp_logSoftmax, h2]
  ring

/-! ## Batch normalisation -/

theorem C43_batchnorm [Nonempty ι] (ε w b : ℝ) (hε : 0 < ε) (x : ι → ℝ) : IsVJP (batchnormF ε w b) x (batchnormB w (bnInv ε x) (bnNorm ε x)) := by
  have hn : (Fintype.card ι : ℝ) ≠ 0 := by exact_mod_cast Fintype.card_ne_zero
  have hv : 0 < bnVar x + ε := by
    have : 0 ≤ bnVar x := by unfold bnVar; positivity
    linarith
  have hm : HasFDerivAt (fun z : ι → ℝ => bnMean z) (linearFn fun _ => (Fintype.card ι : ℝ)⁻¹) x := by
    have : (fun z : ι → ℝ => bnMean z) = linearFn fun _ => (Fintype.card ι : ℝ)⁻¹ := by
      funext z
      rw [linearFn_apply, bnMean, ← Finset.mul_sum]; ring
    rw [this]
    exact (linearFn _).hasFDerivAt
  have h0 : ∑ j, (x j - bnMean x) = 0 := by
    rw [Finset.sum_sub_distrib, Finset.sum_const, Finset.card_univ, nsmul_eq_mul, bnMean, mul_div_cancel₀ _ hn, sub_self]
  have hvar : HasFDerivAt (fun z : ι → ℝ => bnVar z) (linearFn fun j => 2 * (x j - bnMean x) / Fintype.card ι) x := by
    have h1 : ∀ j, HasFDerivAt (fun z : ι → ℝ => (z j - bnMean z) ^ 2) ((2 * (x j - bnMean x)) • ((proj j : (ι → ℝ) →L[ℝ] ℝ) - linearFn fun _ => (Fintype.card ι : ℝ)⁻¹)) x := by
      intro j
      simpa using ((hasFDerivAt_apply (𝕜 := ℝ) j x).sub hm).pow 2
    have h2 := (HasFDerivAt.fun_sum (u := Finset.univ) fun j _ => h1 j).mul_const (Fintype.card ι : ℝ)⁻¹
    refine HasFDerivAt.congr_fderiv (f := fun z : ι → ℝ => bnVar z) h2 ?_
    ext z
    simp only [linearFn_apply, smul_apply, sum_apply, sub_apply, proj_apply, smul_eq_mul]
    generalize ∑ i, (Fintype.card ι : ℝ)⁻¹ * z i = c
    have : ∀ d, 2 * (x d - bnMean x) * (z d - c) = 2 * (x d - bnMean x) * z d - 2 * c * (x d - bnMean x) := fun d => by ring
    simp only [this]
    rw [Finset.sum_sub_distrib, ← Finset.mul_sum Finset.univ (fun d => x d - bnMean x), h0, mul_zero, sub_zero, Finset.mul_sum]
    exact Finset.sum_congr rfl fun d _ => by ring
  have hs := Real.sqrt_pos.2 hv
  have hinv : HasFDerivAt (fun z : ι → ℝ => bnInv ε z) (linearFn fun j => -(bnInv ε x ^ 3 * (x j - bnMean x) / Fintype.card ι)) x := by
    have h1 := (hasDerivAt_inv hs.ne').comp_hasFDerivAt x ((hvar.add_const ε).sqrt hv.ne')
    refine HasFDerivAt.congr_fderiv (f := fun z : ι → ℝ => bnInv ε z) h1 ?_
    ext z
    simp only [linearFn_apply, smul_apply, smul_eq_mul, Finset.mul_sum]
    refine Finset.sum_congr rfl fun j _ => ?_
    unfold bnInv
    field_simp
  refine isVJP_of_jacobian (fun i j => w * bnInv ε x * ((if j = i then 1 else 0) - 1 / Fintype.card ι - bnNorm ε x i * bnNorm ε x j / Fintype.card ι)) (fun i => ?_) fun g j => ?_
  · have h1 := ((((hasFDerivAt_apply (𝕜 := ℝ) i x).sub hm).mul hinv).mul_const w).add_const b
    refine HasFDerivAt.congr_fderiv (f := fun z : ι → ℝ => batchnormF ε w b z i) h1 ?_
    ext z
    simp only [linearFn_apply, smul_apply, add_apply, sub_apply, proj_apply, smul_eq_mul, Pi.sub_apply]
    have e : ∀ j, w * bnInv ε x * ((if j = i then 1 else 0) - 1 / (Fintype.card ι : ℝ) - bnNorm ε x i * bnNorm ε x j / Fintype.card ι) * z j
        = w * (bnInv ε x * ((if j = i then z j else 0) - (Fintype.card ι : ℝ)⁻¹ * z j)) + w * ((x i - bnMean x) * (-(bnInv ε x ^ 3 * (x j - bnMean x) / Fintype.card ι) * z j)) := by
      intro j
      unfold bnNorm
      split <;> ring
    simp only [e]
    have h2 : ∑ j, w * (bnInv ε x * ((if j = i then z j else 0) - (Fintype.card ι : ℝ)⁻¹ * z j)) = w * (bnInv ε x * (z i - ∑ j, (Fintype.card ι : ℝ)⁻¹ * z j)) := by
      rw [← Finset.mul_sum, ← Finset.mul_sum, Finset.sum_sub_distrib, Finset.sum_ite_eq', if_pos (Finset.mem_univ i)]
    have h3 : ∑ j, w * ((x i - bnMean x) * (-(bnInv ε x ^ 3 * (x j - bnMean x) / Fintype.card ι) * z j)) = w * ((x i - bnMean x) * ∑ j, -(bnInv ε x ^ 3 * (x j - bnMean x) / Fintype.card ι) * z j) := by
      rw [← Finset.mul_sum, ← Finset.mul_sum]
    rw [Finset.sum_add_distrib, h2, h3]
    ring
  · unfold batchnormB
    have e : ∀ k, g k * (w * bnInv ε x * ((if j = k then 1 else 0) - 1 / (Fintype.card ι : ℝ) - bnNorm ε x k * bnNorm ε x j / Fintype.card ι))
        = (if j = k then g k * w * bnInv ε x else 0) + g k * w * (bnInv ε x / -(Fintype.card ι : ℝ)) + bnNorm ε x j * (bnNorm ε x k * (g k * w)) * (bnInv ε x / -(Fintype.card ι : ℝ)) := by
      intro k
      rw [div_neg]
      split <;> ring
    simp only [e]
    rw [Finset.sum_add_distrib, Finset.sum_add_distrib, Finset.sum_ite_eq, if_pos (Finset.mem_univ _), Finset.sum_mul, Finset.mul_sum, Finset.sum_mul]

theorem C43_batchnorm_weight (ε : ℝ) (x : ι → ℝ) (w b : Unit → ℝ) :
    IsVJP2 (fun w b => batchnormF ε (w ()) (b ()) x) w b fun g => (batchnormWeightB (bnNorm ε x) g, batchnormBiasB g) := by
  unfold IsVJP2
  refine isVJP_linear (A := fun i => Sum.elim (fun _ => bnNorm ε x i) fun _ => 1) (fun z i => ?_) fun g j => ?_
  · simp [batchnormF]
  · cases j <;> simp [batchnormWeightB, batchnormBiasB]

/-! ## Copies of entries -/

theorem C43_index_select (σ : κ → ι) (x : ι → ℝ) : IsVJP (copyF σ) x (copyAddB σ) := isVJP_gather fun _ _ => rfl

private theorem foldl_update {m : ℕ} (σ : Fin m → ι) (g : Fin m → ℝ) (hσ : Function.Injective σ) (i : ι) : ∀ (l : List (Fin m)) (acc : ι → ℝ), l.Nodup →
    l.foldl (fun acc k => Function.update acc (σ k) (g k)) acc i = if h : ∃ k ∈ l, σ k = i then g h.choose else acc i := by
  intro l
  induction l with
  | nil => intro acc _; simp
  | cons k l ih =>
    intro acc hn
    rw [List.foldl_cons, ih _ (List.nodup_cons.1 hn).2]
    by_cases hk : σ k = i
    · have hex : ∃ k' ∈ k :: l, σ k' = i := ⟨k, by simp, hk⟩
      have h1 : hex.choose = k := hσ (hex.choose_spec.2.trans hk.symm)
      have h2 : ¬∃ k' ∈ l, σ k' = i := by
        rintro ⟨k', hk', e⟩
        have : k' = k := hσ (e.trans hk.symm)
        exact (List.nodup_cons.1 hn).1 (this ▸ hk')
      rw [dif_neg h2, dif_pos hex, h1, ← hk, Function.update_self]
    · by_cases hl : ∃ k' ∈ l, σ k' = i
      · have hex : ∃ k' ∈ k :: l, σ k' = i := by
          obtain ⟨k', h1, h2⟩ := hl
          exact ⟨k', by simp [h1], h2⟩
        rw [dif_pos hl, dif_pos hex]
        exact congrArg g (hσ (hl.choose_spec.2.trans hex.choose_spec.2.symm))
      · have hex : ¬∃ k' ∈ k :: l, σ k' = i := by
          rintro ⟨k', h1, h2⟩
          rcases List.mem_cons.1 h1 with rfl | h1
          · exact hk h2
          · exact hl ⟨k', h1, h2⟩
        rw [dif_neg hl, dif_neg hex, Function.update_of_ne (Ne.symm hk)]

/-- **C43** for indexing and for `take` without a dimension, if no entry is taken twice. -/
theorem C43_getitem_partial {m : ℕ} (σ : Fin m → ι) (hσ : Function.Injective σ) (x : ι → ℝ) : IsVJP (copyF σ) x (copyAssignB σ) := by
  refine isVJP_gather fun g i => ?_
  unfold copyAssignB
  rw [foldl_update σ g hσ i _ _ (List.nodup_finRange m)]
  by_cases h : ∃ k, σ k = i
  · have hex : ∃ k ∈ List.finRange m, σ k = i := by obtain ⟨k, hk⟩ := h; exact ⟨k, List.mem_finRange k, hk⟩
    rw [dif_pos hex, Finset.sum_eq_single hex.choose]
    · intro b hb hne
      exact absurd (hσ ((Finset.mem_filter.1 hb).2.trans hex.choose_spec.2.symm)) hne
    · intro hn
      exact absurd (show hex.choose ∈ Finset.univ.filter (fun k => σ k = i) from Finset.mem_filter.2 ⟨Finset.mem_univ _, hex.choose_spec.2⟩) hn
  · rw [dif_neg fun hex => h ⟨hex.choose, hex.choose_spec.2⟩, Finset.filter_false_of_mem fun k _ e => h ⟨k, e⟩, Finset.sum_empty]

/-- **C43 fails for indexing with a repeated index** (`x[[0, 0]]`, and `take(index)` without a dimension): the gradient of the two copies is 2, the gradient function returns 1. -/
theorem C43_getitem_wrong (x : Fin 1 → ℝ) : ¬IsVJP (copyF (fun _ : Fin 2 => (0 : Fin 1))) x (copyAssignB fun _ : Fin 2 => (0 : Fin 1)) := by
  intro h
  have h1 := h fun _ => 1
  have h2 := C43_index_select (fun _ : Fin 2 => (0 : Fin 1)) x fun _ => 1
  have h3 := congrArg (fun L => L fun _ => 1) (h1.unique h2)
  simp only [linearFn_apply] at h3
  rw [show copyAssignB (fun _ : Fin 2 => (0 : Fin 1)) (fun _ => 1) = fun _ => 1 from by
    funext i; simp [copyAssignB, List.finRange_succ, Function.update, Subsingleton.elim i 0]] at h3
  simp [copyAddB] at h3

theorem C43_scatter (τ : κ → ι) (hτ : Function.Injective τ) (x : ι → ℝ) (src : κ → ℝ) : IsVJP2 (scatterF τ) x src (scatterB τ) := by
  classical
  unfold IsVJP2
  refine isVJP_linear (A := fun i => Sum.elim (fun j => if j = i ∧ ¬∃ k, τ k = i then 1 else 0) fun k => if τ k = i then 1 else 0) (fun z i => ?_) fun g j => ?_
  · rw [Fintype.sum_sum_type]
    simp only [Sum.elim_inl, Sum.elim_inr, scatterF, ite_mul, one_mul, zero_mul]
    by_cases h : ∃ k, τ k = i
    · have hc := h.choose_spec
      rw [dif_pos h, Finset.sum_eq_single h.choose (fun b _ hb => if_neg fun e => hb (hτ (e.trans hc.symm))) (by simp), if_pos hc]
      simp [h]
    · rw [dif_neg h, Finset.sum_eq_zero (fun k _ => if_neg fun e => h ⟨k, e⟩)]
      simp [h]
  · cases j with
    | inl j =>
      simp only [scatterB, Sum.elim_inl, mul_ite, mul_one, mul_zero]
      rw [Finset.sum_eq_single j (fun b _ hb => if_neg fun e => hb e.1.symm) (by simp)]
      by_cases h : ∃ k, τ k = j <;> simp [h]
    | inr k => simp [scatterB]

theorem C43_cosine_similarity (x y : ι → ℝ) (hx : ∃ i, x i ≠ 0) (hy : ∃ i, y i ≠ 0) :
    IsVJP2 cosSimF x y (cosSimB x y (Real.sqrt (∑ i, x i ^ 2))⁻¹ (Real.sqrt (∑ i, y i ^ 2))⁻¹) := by
  have hpx : 0 < ∑ i, x i ^ 2 := by
    obtain ⟨i, hi⟩ := hx
    exact Finset.sum_pos' (fun j _ => sq_nonneg _) ⟨i, Finset.mem_univ i, by positivity⟩
  have hpy : 0 < ∑ i, y i ^ 2 := by
    obtain ⟨i, hi⟩ := hy
    exact Finset.sum_pos' (fun j _ => sq_nonneg _) ⟨i, Finset.mem_univ i, by positivity⟩
  have hsx := Real.sqrt_pos.2 hpx
  have hsy := Real.sqrt_pos.2 hpy
  unfold IsVJP2
  refine isVJP_of_jacobian (fun _ => Sum.elim (cosSimB x y (Real.sqrt (∑ i, x i ^ 2))⁻¹ (Real.sqrt (∑ i, y i ^ 2))⁻¹ fun _ => 1).1 (cosSimB x y (Real.sqrt (∑ i, x i ^ 2))⁻¹ (Real.sqrt (∑ i, y i ^ 2))⁻¹ fun _ => 1).2)
    (fun _ => ?_) fun g i => ?_
  · have hd : HasFDerivAt (fun z : ι ⊕ ι → ℝ => ∑ i, z (.inl i) * z (.inr i)) (∑ i, (x i • (proj (.inr i) : (ι ⊕ ι → ℝ) →L[ℝ] ℝ) + y i • (proj (.inl i) : (ι ⊕ ι → ℝ) →L[ℝ] ℝ))) (Sum.elim x y) :=
      HasFDerivAt.fun_sum fun i _ => by
        have a := hasFDerivAt_apply (𝕜 := ℝ) (Sum.inl i) (Sum.elim x y)
        have b := hasFDerivAt_apply (𝕜 := ℝ) (Sum.inr i) (Sum.elim x y)
        simpa using a.fun_mul b
    have hnx : HasFDerivAt (fun z : ι ⊕ ι → ℝ => (Real.sqrt (∑ i, z (.inl i) ^ 2))⁻¹) _ (Sum.elim x y) :=
      (hasDerivAt_inv (x := Real.sqrt (∑ i, x i ^ 2)) hsx.ne').comp_hasFDerivAt (Sum.elim x y)
        (HasFDerivAt.sqrt (f := fun z : ι ⊕ ι → ℝ => ∑ i, z (.inl i) ^ 2) (f' := ∑ i, (2 * x i) • (proj (.inl i) : (ι ⊕ ι → ℝ) →L[ℝ] ℝ))
          (HasFDerivAt.fun_sum fun i _ => by simpa using (hasFDerivAt_apply (𝕜 := ℝ) (Sum.inl i) (Sum.elim x y)).pow 2) hpx.ne')
    have hny : HasFDerivAt (fun z : ι ⊕ ι → ℝ => (Real.sqrt (∑ i, z (.inr i) ^ 2))⁻¹) _ (Sum.elim x y) :=
      (hasDerivAt_inv (x := Real.sqrt (∑ i, y i ^ 2)) hsy.ne').comp_hasFDerivAt (Sum.elim x y)
        (HasFDerivAt.sqrt (f := fun z : ι ⊕ ι → ℝ => ∑ i, z (.inr i) ^ 2) (f' := ∑ i, (2 * y i) • (proj (.inr i) : (ι ⊕ ι → ℝ) →L[ℝ] ℝ))
          (HasFDerivAt.fun_sum fun i _ => by simpa using (hasFDerivAt_apply (𝕜 := ℝ) (Sum.inr i) (Sum.elim x y)).pow 2) hpy.ne')
    refine HasFDerivAt.congr_fderiv (hd.fun_mul (hnx.fun_mul hny)) ?_
    ext z
    simp only [linearFn_apply, Fintype.sum_sum_type, Sum.elim_inl, Sum.elim_inr, add_apply, smul_apply, sum_apply, proj_apply, smul_eq_mul, cosSimB, mul_one]
    have key : ∀ (u v w : ι → ℝ) (D n m : ℝ), ∑ i, (v i - D * (u i * n ^ 2)) * (n * m) * w i = n * m * ∑ i, v i * w i - D * n ^ 3 * m * ∑ i, u i * w i := by
      intro u v w D n m
      rw [Finset.mul_sum, Finset.mul_sum, ← Finset.sum_sub_distrib]
      exact Finset.sum_congr rfl fun i _ => by ring
    have key2 : ∀ (u w : ι → ℝ), ∑ i, 2 * u i * w i = 2 * ∑ i, u i * w i := by
      intro u w
      rw [Finset.mul_sum]
      exact Finset.sum_congr rfl fun i _ => by ring
    have e1 := key x y (fun i => z (.inl i)) (∑ i, x i * y i) (Real.sqrt (∑ i, x i ^ 2))⁻¹ (Real.sqrt (∑ i, y i ^ 2))⁻¹
    have e2 := key y x (fun i => z (.inr i)) (∑ i, x i * y i) (Real.sqrt (∑ i, y i ^ 2))⁻¹ (Real.sqrt (∑ i, x i ^ 2))⁻¹
    have e3 := key2 x fun i => z (.inl i)
    have e4 := key2 y fun i => z (.inr i)
    rw [mul_comm (Real.sqrt (∑ i, y i ^ 2))⁻¹ (Real.sqrt (∑ i, x i ^ 2))⁻¹] at e2
    rw [e1, e2, e3, e4, Finset.sum_add_distrib]
    generalize Real.sqrt (∑ i, x i ^ 2) = a at hsx
    generalize Real.sqrt (∑ i, y i ^ 2) = b at hsy
    have := hsx.ne'
    have := hsy.ne'
    field_simp
    ring
  · cases i <;> simp only [cosSimB, Sum.elim_inl, Sum.elim_inr, Finset.univ_unique, Finset.sum_singleton] <;> simp <;> ring

/-- **C43 fails for the coefficients of `polynomial`.** The backward pass changes the caller's tensor of coefficients: after it the same call evaluates x + 2x² where it evaluated x + x². -/
theorem C43_polynomial_coeffs_wrong : polynomialF (polynomialScaled [1, 1]) (fun _ : Unit => 1) () = 3 ∧ polynomialF [1, 1] (fun _ : Unit => 1) () = 2 := by
  constructor <;> norm_num [polynomialF, polyVal, polynomialScaled, List.mapIdx_cons, List.range_succ]

/-- **C43 fails for products of a vector with a batch of matrices**: the backward function raises for every batch of two or more. -/
theorem C43_matmul_vector_batch_wrong (b n m : ℕ) (hb : 2 ≤ b) : matmulBackwardShapes [n] [b, n, m] [b, m] = none := by
  have : ¬(1 = b) := by omega
  simp [matmulBackwardShapes, unsqueezeShape, matmulRev, transposeRev, this]

/-- **C43 fails for products of a batch of matrices with a vector**: the backward function raises unless the matrices have one row. -/
theorem C43_matmul_batch_vector_wrong (b n m : ℕ) (hm : m ≠ 1) : matmulBackwardShapes [b, m, n] [n] [b, m] = none := by
  simp [matmulBackwardShapes, unsqueezeShape, matmulRev, transposeRev, hm]

/-- The shapes of the two products are right for two matrices, a matrix and a vector, a vector and a matrix, and for batches of matrices. -/
theorem C43_matmul_shapes (a : List ℕ) (n k m : ℕ) :
    matmulBackwardShapes [n, k] [k, m] [n, m] = some ([n, k], [k, m]) ∧ matmulBackwardShapes [n, k] [k] [n] = some ([n, k], [k, 1]) ∧ matmulBackwardShapes [k] [k, m] [m] = some ([1, k], [k, m])
      ∧ matmulBackwardShapes (a ++ [n, k]) (a ++ [k, m]) (a ++ [n, m]) = some (a ++ [n, k], a ++ [k, m]) := by
  have hb : ∀ l : List ℕ, broadcastRev l l = some l := by
    intro l
    induction l with
    | nil => rfl
    | cons x l ih => simp [broadcastRev, ih]
  refine ⟨?_, ?_, ?_, ?_⟩
  · simp [matmulBackwardShapes, matmulRev, transposeRev, hb]
  · simp [matmulBackwardShapes, unsqueezeShape, matmulRev, transposeRev, hb]
  · simp [matmulBackwardShapes, unsqueezeShape, matmulRev, transposeRev, hb]
  · have h1 : ¬(a ++ [n, k]).length < 2 := by simp
    have h2 : ¬(a ++ [k, m]).length < 2 := by simp
    simp only [matmulBackwardShapes, if_neg h1, if_neg h2]
    simp [matmulRev, transposeRev, hb]

/-! ## Concrete cases that meet the hypotheses -/

example : IsVJP maxF (fun p : Fin 1 × Fin 2 => ![3, 5] p.2) (maxB fun p => if p.2 = 1 then 1 else 0) := by
  refine C43_max _ (fun _ => 1) fun o d hd => ?_
  have : d = 0 := by fin_cases d <;> simp_all
  subst this
  norm_num

example : IsVJP (bceF fun _ : Fin 2 => 1) (fun _ => 1 / 4) (bceB (fun _ => 1) fun _ => 1 / 4) := C43_bce _ _ (fun _ => by norm_num) fun _ => by norm_num

example : IsVJP normF (fun i : Fin 2 => ![3, 4] i) (normB (fun i => ![3, 4] i) (normF fun i => ![3, 4] i)) := C43_norm _ ⟨0, by norm_num⟩

example (x : Fin 1 × Fin 2 → ℝ) : IsVJP (crossEntropyF fun p : Fin 1 × Fin 2 => ![0, 1] p.2) x (crossEntropyB (fun p => ![0, 1] p.2) (softmaxF x)) := C43_cross_entropy _ x fun o => by simp

example (x : Fin 4 → ℝ) : IsVJP (copyF ![2, 0]) x (copyAssignB ![2, 0]) := C43_getitem_partial _ (by decide) x

example : IsVJP (rapporF (3 / 4) fun _ : Fin 2 => 1) (fun _ => 2) (rapporB (3 / 4) (fun _ => 1) (rapporPred (3 / 4) fun _ => 2) (rapporCorrection (3 / 4) fun _ => 2)) :=
  C43_rappor _ (by norm_num) (by norm_num) _ _

end CrypTen

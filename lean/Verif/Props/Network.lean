import Verif.Spec.Network
import Verif.Props.Program
import Verif.Props.CosSin
import Verif.Props.LogUses
import Verif.Props.Lipschitz

/-!
# Programs with activation functions are right up to a computable error
-/

namespace CrypTen.Network
open Program
variable {sh : ℕ → Type} {ι : Type}

/-- The exponential of non-positive numbers on shares, compared with the true exponential. -/
theorem exp_default (method : MaxMethod) (x : AST 2 ι) (hx : x.scale = 2 ^ 16) (h : ∀ i, -256 ≤ x.value i ∧ x.value i ≤ 0) :
    Sat ((mpcOps 2 16 method).exp 8 x) fun z => z.scale = 2 ^ 16 ∧ ∀ i, |(z.value i : ℝ) - Real.exp (x.value i)| ≤ 1 / 50 := by
  have h256 : (2 : ℚ) ^ 8 = 256 := by norm_num
  have hw0 : ∀ i, 0 ≤ 1 + x.value i / 2 ^ 8 := fun i => by rw [h256]; linarith [(h i).1]
  have hw1 : ∀ i, 1 + x.value i / 2 ^ 8 ≤ 1 := fun i => by rw [h256]; linarith [(h i).2]
  refine (C53_exp_encrypted_entries (n := 2) (k := 16) (by norm_num) 16 method (by norm_num) 8 (by norm_num) x hx (fun i => 1 + x.value i / 2 ^ 8)
    (fun i => (abs_of_nonneg (hw0 i)).le) (fun i => ?_) fun i => squareFits_default _ (hw0 i) (hw1 i)).mono fun z hz => ⟨hz.1, fun i => ?_⟩
  · refine lt_of_le_of_lt (mul_le_mul_of_nonneg_left (add_le_add (hw1 i) le_rfl) (by positivity)) (by norm_num)
  obtain ⟨P, hP⟩ : ∃ P : ℚ, P = (1 + x.value i / 2 ^ 8) ^ 2 ^ 8 := ⟨_, rfl⟩
  have h1 := (hz.2 i).trans (squareErr_default _ (hw0 i) (hw1 i))
  have h2 : P ≤ 1 := by rw [hP]; exact pow_le_one₀ (hw0 i) (hw1 i)
  rw [← hP] at h1
  have h3 : |z.value i - P| ≤ 163 / 10000 := h1.trans (by linarith)
  have a0 : ((x.value i : ℚ) : ℝ) ≤ 0 := by exact_mod_cast (h i).2
  have a1 : -2 ^ 8 ≤ ((x.value i : ℚ) : ℝ) := by
    have := (Rat.cast_le (K := ℝ)).2 (h i).1
    push_cast at this
    norm_num
    exact this
  have hb := exp_below 8 _ a0 a1
  have e : (P : ℝ) = (1 + ((x.value i : ℚ) : ℝ) / 2 ^ 8) ^ 2 ^ 8 := by rw [hP, Rat.cast_pow, Rat.cast_add, Rat.cast_div, Rat.cast_pow]; simp only [Rat.cast_one, Rat.cast_ofNat]
  rw [← e] at hb
  obtain ⟨-, b1, b2⟩ := hb
  clear e hP h1 hz
  have h4 := (Rat.cast_le (K := ℝ)).2 h3
  push_cast at h4
  obtain ⟨c1, c2⟩ := abs_le.1 h4
  have b3 : (56 : ℝ) / 100 / 2 ^ 8 ≤ 3 / 1000 := by norm_num
  exact abs_le.2 ⟨by linarith, by linarith⟩

theorem defaultRecipErr_mono {x h : ℚ} (h0 : 0 ≤ x) (hh : x ≤ h) : defaultRecipErr x ≤ defaultRecipErr h := by
  unfold defaultRecipErr
  rw [abs_of_nonneg h0, abs_of_nonneg (h0.trans hh)]
  split_ifs <;> first | (exfalso; linarith) | norm_num

theorem near_of_cast {a b : ℝ} {e f : ℝ} {c : ℝ} (h : |a - b| ≤ e) (g : |b - c| ≤ f) : |a - c| ≤ e + f := by
  have := abs_add_le (a - b) (b - c)
  rw [sub_add_sub_cancel] at this
  linarith

/-- One function. -/
theorem sat_fn (method : MaxMethod) (coeffs : ℕ → ℚ) (f : Fn) (c : NetInfo) (x : AST 2 ι) (hx : x.scale = 2 ^ 16) (v : ι → ℝ) (e : ℚ) (he : 0 ≤ e) (hv : ∀ i, |(x.value i : ℝ) - v i| ≤ e)
    (hc : f.Bounds c) (hin : ∀ i, f.Inside c e (v i)) : Sat (f.run method coeffs x) fun z => z.scale = 2 ^ 16 ∧ ∀ i, |(z.value i : ℝ) - f.exact (v i)| ≤ (f.err c e : ℚ) := by
  have heR : (0 : ℝ) ≤ e := by exact_mod_cast he
  have cR : ∀ {p q : ℚ}, (p : ℝ) ≤ (q : ℝ) → p ≤ q := fun h => (Rat.cast_le (K := ℝ)).1 h
  have rC : ∀ {p q : ℚ}, p ≤ q → (p : ℝ) ≤ (q : ℝ) := fun h => (Rat.cast_le (K := ℝ)).2 h
  have hlow : ∀ i, v i - e ≤ x.value i := fun i => by linarith [(abs_le.1 (hv i)).1]
  have hupp : ∀ i, (x.value i : ℝ) ≤ v i + e := fun i => by linarith [(abs_le.1 (hv i)).2]
  have habs : ∀ i, |(x.value i : ℝ)| ≤ |v i| + e := fun i => by
    have := abs_add_le ((x.value i : ℝ) - v i) (v i)
    rw [sub_add_cancel] at this
    linarith [hv i]
  cases f with
  | exp =>
    refine (exp_default method x hx fun i => ⟨?_, ?_⟩).mono fun z hz => ⟨hz.1, fun i => ?_⟩
    · have := (hin i).1; refine cR ?_; push_cast; linarith [hlow i]
    · have := (hin i).2; refine cR ?_; push_cast; linarith [hupp i]
    · have hi := hin i
      have := near_of_cast (hz.2 i) (lip_exp (x := (x.value i : ℝ)) (y := v i) (by linarith [hi.2, hupp i]) (by linarith [hi.2]))
      show |_ - Real.exp (v i)| ≤ ((1 / 50 + e : ℚ) : ℝ)
      push_cast
      linarith [hv i]
  | log =>
    have hl : ∀ i, (c.lo : ℝ) ≤ x.value i := fun i => by have := (hin i).1; linarith [hlow i]
    refine (C53_log_default_encrypted 16 method {} rfl rfl rfl rfl x hx fun i => ⟨le_trans hc (cR (hl i)), ?_⟩).mono fun z hz => ⟨hz.1, fun i => ?_⟩
    · have := (hin i).2; refine cR ?_; push_cast; linarith [hupp i]
    · have hi := hin i
      have hl0 : (0 : ℝ) < c.lo := by have := rC hc; push_cast at this; linarith
      have := near_of_cast (hz.2 i).1 (lip_log hl0 (hl i) (by linarith [hi.1] : (c.lo : ℝ) ≤ v i))
      show |_ - Real.log (v i)| ≤ ((1 / 10 + e / c.lo : ℚ) : ℝ)
      push_cast
      have h2 : |(x.value i : ℝ) - v i| / c.lo ≤ e / c.lo := div_le_div_of_nonneg_right (hv i) hl0.le
      linarith
  | reciprocal =>
    have hl : ∀ i, (c.lo : ℝ) ≤ x.value i := fun i => by have := (hin i).1; linarith [hlow i]
    have hu : ∀ i, (x.value i : ℝ) ≤ c.hi := fun i => by have := (hin i).2; linarith [hupp i]
    have hx0 : ∀ i, 0 < x.value i := fun i => by have := cR (hl i); linarith [hc.1]
    refine (C53_reciprocal_default_encrypted method x hx fun i => ?_).mono fun z hz => ⟨hz.1, fun i => ?_⟩
    · rw [abs_of_pos (hx0 i)]
      exact ⟨hc.1.trans (cR (hl i)), (cR (hu i)).trans hc.2⟩
    · have hi := hin i
      have hl0 : (0 : ℝ) < c.lo := by have := rC hc.1; push_cast at this; linarith
      have hxR : (0 : ℝ) < x.value i := by exact_mod_cast hx0 i
      have h1 := rC ((hz.2 i).trans (defaultRecipErr_mono (hx0 i).le (cR (hu i))))
      push_cast at h1
      have h0 : (0 : ℝ) ≤ (defaultRecipErr c.hi : ℚ) := (abs_nonneg _).trans h1
      have h2 : |(z.value i : ℝ) - 1 / x.value i| ≤ (defaultRecipErr c.hi : ℚ) / c.lo := by
        have e1 : (z.value i : ℝ) - 1 / x.value i = -(1 - (x.value i : ℝ) * z.value i) / x.value i := by field_simp; ring
        rw [e1, abs_div, abs_neg, abs_of_pos hxR]
        exact div_le_div₀ h0 h1 hl0 (hl i)
      have := near_of_cast h2 (lip_recip hl0 (hl i) (by linarith [hi.1] : (c.lo : ℝ) ≤ v i))
      show |_ - 1 / v i| ≤ ((defaultRecipErr c.hi / c.lo + e / c.lo ^ 2 : ℚ) : ℝ)
      push_cast
      have h3 : |(x.value i : ℝ) - v i| / (c.lo : ℝ) ^ 2 ≤ e / (c.lo : ℝ) ^ 2 := div_le_div_of_nonneg_right (hv i) (by positivity)
      linarith
  | sqrt =>
    have hl : ∀ i, (1 / 10 : ℝ) ≤ x.value i := fun i => by have := (hin i).1; linarith [hlow i]
    refine (C53_sqrt_default_encrypted 16 method {} rfl rfl x hx fun i => ⟨?_, ?_⟩).mono fun z hz => ⟨hz.1, fun i => ?_⟩
    · refine cR ?_; push_cast; exact hl i
    · have := (hin i).2.1; refine cR ?_; push_cast; linarith [hupp i]
    · have hi := hin i
      have hr0 : (0 : ℝ) ≤ c.root := by exact_mod_cast hc
      have hs : Real.sqrt (x.value i : ℝ) ≤ c.root := Real.sqrt_le_iff.2 ⟨hr0, by linarith [hi.2.2, hupp i]⟩
      have := near_of_cast (hz.2 i) (lip_sqrt (hl i) (by linarith [hi.1] : (1 / 10 : ℝ) ≤ v i))
      show |_ - Real.sqrt (v i)| ≤ ((2 / 25 * c.root + 2 / 2 ^ 16 + 5 / 3 * e : ℚ) : ℝ)
      push_cast
      have := hv i
      linarith
  | invSqrt =>
    have hl : ∀ i, (c.lo : ℝ) ≤ x.value i := fun i => by have := (hin i).1; linarith [hlow i]
    refine (C53_inv_sqrt_default_encrypted 16 method {} rfl rfl x hx fun i => ⟨hc.1.trans (cR (hl i)), ?_⟩).mono fun z hz => ⟨hz.1, fun i => ?_⟩
    · have := (hin i).2; refine cR ?_; push_cast; linarith [hupp i]
    · have hi := hin i
      have hl0 : (0 : ℝ) < c.lo := by have := rC hc.1; push_cast at this; linarith
      have hr0 : (0 : ℝ) ≤ c.root := by exact_mod_cast hc.2.1
      have hr1 : (1 : ℝ) ≤ (c.root : ℝ) ^ 2 * c.lo := by have := rC hc.2.2; push_cast at this; exact this
      have h1 := inv_sqrt_le hl0 hr0 hr1 (hl i)
      have h3 := near_of_cast (hz.2 i).2 (lip_inv_sqrt hl0 hr0 hr1 (hl i) (by linarith [hi.1] : (c.lo : ℝ) ≤ v i))
      show |_ - 1 / Real.sqrt (v i)| ≤ ((2 / 25 * c.root + c.root ^ 3 / 2 * e : ℚ) : ℝ)
      push_cast
      have h2 : (c.root : ℝ) ^ 3 / 2 * |(x.value i : ℝ) - v i| ≤ (c.root : ℝ) ^ 3 / 2 * e := mul_le_mul_of_nonneg_left (hv i) (by positivity)
      linarith
  | sigmoid =>
    refine (C53_sigmoid_default_encrypted method coeffs x hx fun i => ?_).mono fun z hz => ⟨hz.1, fun i => ?_⟩
    · have := hin i; refine cR ?_; push_cast; linarith [habs i, show |v i| + e ≤ 128 from hin i]
    · have := near_of_cast (hz.2 i) (lip_sigmoid (x.value i : ℝ) (v i))
      show |_ - 1 / (1 + Real.exp (-v i))| ≤ ((1 / 30 + e / 4 : ℚ) : ℝ)
      push_cast
      linarith [hv i]
  | tanh =>
    refine (C53_tanh_default_encrypted method coeffs x hx fun i => ?_).mono fun z hz => ⟨hz.1, fun i => ?_⟩
    · refine cR ?_; push_cast; linarith [habs i, show |v i| + e ≤ 64 from hin i]
    · have := near_of_cast (hz.2 i) (lip_tanh (x.value i : ℝ) (v i))
      show |_ - Real.tanh (v i)| ≤ ((1 / 15 + e : ℚ) : ℝ)
      push_cast
      linarith [hv i]
  | cos =>
    refine Sat.bind (C53_cos_sin_default_encrypted method x hx fun i => ?_) fun z hz => Sat.pure ⟨hz.1.1, fun i => ?_⟩
    · refine cR ?_; push_cast; linarith [habs i, show |v i| + e ≤ 13 / 2 from hin i]
    · have := near_of_cast (hz.2 i).1 (Real.abs_cos_sub_cos_le (x.value i : ℝ) (v i))
      show |_ - Real.cos (v i)| ≤ ((3 / 20 + e : ℚ) : ℝ)
      push_cast
      linarith [hv i]
  | sin =>
    refine Sat.bind (C53_cos_sin_default_encrypted method x hx fun i => ?_) fun z hz => Sat.pure ⟨hz.1.2, fun i => ?_⟩
    · refine cR ?_; push_cast; linarith [habs i, show |v i| + e ≤ 13 / 2 from hin i]
    · have := near_of_cast (hz.2 i).2 (Real.abs_sin_sub_sin_le (x.value i : ℝ) (v i))
      show |_ - Real.sin (v i)| ≤ ((3 / 20 + e : ℚ) : ℝ)
      push_cast
      linarith [hv i]

/-! ## Softmax -/

theorem softmax_ratio {m : ℕ} (v w : Fin m → ℝ) (e : ℝ) (h : ∀ j, |v j - w j| ≤ e) (j : Fin m) :
    Real.exp (v j) / ∑ k, Real.exp (v k) ≤ Real.exp (2 * e) * (Real.exp (w j) / ∑ k, Real.exp (w k)) := by
  have hv : 0 < ∑ k, Real.exp (v k) := Finset.sum_pos (fun k _ => Real.exp_pos _) ⟨j, Finset.mem_univ j⟩
  have hw : 0 < ∑ k, Real.exp (w k) := Finset.sum_pos (fun k _ => Real.exp_pos _) ⟨j, Finset.mem_univ j⟩
  have h1 : Real.exp (v j) ≤ Real.exp e * Real.exp (w j) := by
    rw [← Real.exp_add]; exact Real.exp_le_exp.2 (by linarith [(abs_le.1 (h j)).2])
  have h2 : ∑ k, Real.exp (w k) ≤ Real.exp e * ∑ k, Real.exp (v k) := by
    rw [Finset.mul_sum]
    refine Finset.sum_le_sum fun k _ => ?_
    rw [← Real.exp_add]; exact Real.exp_le_exp.2 (by linarith [(abs_le.1 (h k)).1])
  have h3 : Real.exp (2 * e) = Real.exp e * Real.exp e := by rw [← Real.exp_add]; congr 1; ring
  rw [h3, div_le_iff₀ hv]
  have h4 : 1 ≤ Real.exp e * (∑ k, Real.exp (v k)) / ∑ k, Real.exp (w k) := by rw [le_div_iff₀ hw]; linarith
  calc Real.exp (v j) ≤ Real.exp e * Real.exp (w j) * 1 := by rw [mul_one]; exact h1
    _ ≤ Real.exp e * Real.exp (w j) * (Real.exp e * (∑ k, Real.exp (v k)) / ∑ k, Real.exp (w k)) := mul_le_mul_of_nonneg_left h4 (by positivity)
    _ = Real.exp e * Real.exp e * (Real.exp (w j) / ∑ k, Real.exp (w k)) * ∑ k, Real.exp (v k) := by ring

theorem softmax_le_one {m : ℕ} (v : Fin m → ℝ) (j : Fin m) : Real.exp (v j) / ∑ k, Real.exp (v k) ≤ 1 := by
  have hv : 0 < ∑ k, Real.exp (v k) := Finset.sum_pos (fun k _ => Real.exp_pos _) ⟨j, Finset.mem_univ j⟩
  rw [div_le_one hv]
  exact Finset.single_le_sum (f := fun k => Real.exp (v k)) (fun k _ => (Real.exp_pos _).le) (Finset.mem_univ j)

theorem lip_softmax {m : ℕ} (v w : Fin m → ℝ) (e : ℝ) (he : 2 * e < 1) (h : ∀ j, |v j - w j| ≤ e) (j : Fin m) :
    |Real.exp (v j) / ∑ k, Real.exp (v k) - Real.exp (w j) / ∑ k, Real.exp (w k)| ≤ 2 * e / (1 - 2 * e) := by
  have h1 := softmax_ratio v w e h j
  have h2 := softmax_ratio w v e (fun j => by rw [abs_sub_comm]; exact h j) j
  have a1 := softmax_le_one v j
  have a2 := softmax_le_one w j
  have b1 : 0 ≤ Real.exp (v j) / ∑ k, Real.exp (v k) := div_nonneg (Real.exp_pos _).le (Finset.sum_nonneg fun k _ => (Real.exp_pos _).le)
  have b2 : 0 ≤ Real.exp (w j) / ∑ k, Real.exp (w k) := div_nonneg (Real.exp_pos _).le (Finset.sum_nonneg fun k _ => (Real.exp_pos _).le)
  have he0 : 0 ≤ e := (abs_nonneg _).trans (h j)
  have hx : Real.exp (2 * e) - 1 ≤ 2 * e / (1 - 2 * e) := by
    have h3 := Real.add_one_le_exp (-(2 * e))
    have h4 : Real.exp (2 * e) * Real.exp (-(2 * e)) = 1 := by rw [← Real.exp_add, add_neg_cancel, Real.exp_zero]
    rw [le_div_iff₀ (by linarith)]
    have := Real.exp_pos (2 * e)
    nlinarith
  have h5 : 1 ≤ Real.exp (2 * e) := Real.one_le_exp (by linarith)
  generalize Real.exp (v j) / ∑ k, Real.exp (v k) = p at *
  generalize Real.exp (w j) / ∑ k, Real.exp (w k) = q at *
  generalize Real.exp (2 * e) = t at *
  rw [abs_le]
  constructor <;> nlinarith

theorem lip_logSoftmax {m : ℕ} (v w : Fin m → ℝ) (e : ℝ) (h : ∀ j, |v j - w j| ≤ e) (j : Fin m) :
    |Real.log (Real.exp (v j) / ∑ k, Real.exp (v k)) - Real.log (Real.exp (w j) / ∑ k, Real.exp (w k))| ≤ 2 * e := by
  have key : ∀ v w : Fin m → ℝ, (∀ j, |v j - w j| ≤ e) → Real.log (Real.exp (v j) / ∑ k, Real.exp (v k)) ≤ 2 * e + Real.log (Real.exp (w j) / ∑ k, Real.exp (w k)) := fun v w h => by
    have hv : 0 < ∑ k, Real.exp (v k) := Finset.sum_pos (fun k _ => Real.exp_pos _) ⟨j, Finset.mem_univ j⟩
    have hw : 0 < ∑ k, Real.exp (w k) := Finset.sum_pos (fun k _ => Real.exp_pos _) ⟨j, Finset.mem_univ j⟩
    have h2 := Real.log_le_log (div_pos (Real.exp_pos _) hv) (softmax_ratio v w e h j)
    rwa [Real.log_mul (Real.exp_pos _).ne' (div_pos (Real.exp_pos _) hw).ne', Real.log_exp] at h2
  have h1 := key v w h
  have h2 := key w v fun j => by rw [abs_sub_comm]; exact h j
  rw [abs_le]
  constructor <;> linarith

/-! ## Lines of arithmetic -/

theorem largestR_cast {m : ℕ} (hm : 0 < m) (v : Fin m → ℚ) : ((largest v : ℚ) : ℝ) = largestR fun j => (v j : ℝ) := by
  obtain ⟨⟨l, hl⟩, h⟩ := largest_isGreatest hm v
  have : IsGreatest (Set.range fun j => (v j : ℝ)) ((largest v : ℚ) : ℝ) := ⟨⟨l, by rw [← hl]⟩, by
    rintro _ ⟨j, rfl⟩
    exact (Rat.cast_le (K := ℝ)).2 (h ⟨j, rfl⟩)⟩
  exact this.csSup_eq.symm

theorem lip_largest {m : ℕ} (hm : 0 < m) (v w : Fin m → ℝ) (e : ℝ) (h : ∀ j, |v j - w j| ≤ e) : |largestR v - largestR w| ≤ e := by
  haveI : Nonempty (Fin m) := ⟨⟨0, hm⟩⟩
  have key : ∀ v w : Fin m → ℝ, (∀ j, |v j - w j| ≤ e) → largestR v ≤ largestR w + e := fun v w h =>
    ciSup_le fun j => by
      have := le_ciSup (Set.finite_range w).bddAbove j
      unfold largestR
      linarith [(abs_le.1 (h j)).2]
  have h1 := key v w h
  have h2 := key w v fun j => by rw [abs_sub_comm]; exact h j
  rw [abs_le]
  constructor <;> linarith

theorem bilinearR_cast {ι ι' κ : Type} (B : BilinearOp ι ι' κ) (x : ι → ℚ) (y : ι' → ℚ) (i : κ) : ((bilinearQ B x y i : ℚ) : ℝ) = bilinearR B (fun j => (x j : ℝ)) (fun j => (y j : ℝ)) i := by
  unfold bilinearQ bilinearR
  generalize B i = l
  induction l with
  | nil => simp
  | cons a l ih => rw [List.map_cons, List.map_cons, List.sum_cons, List.sum_cons, ← ih]; push_cast; rfl

theorem lip_bilinear {ι ι' κ : Type} (B : BilinearOp ι ι' κ) {a v : ι → ℝ} {b w : ι' → ℝ} {e f A C : ℝ} {L : ℕ} (j : κ) (hL : (B j).length ≤ L)
    (he : 0 ≤ e) (hf : 0 ≤ f) (hA : 0 ≤ A) (hC : 0 ≤ C) (ha : ∀ i, |a i - v i| ≤ e) (hb : ∀ i, |b i - w i| ≤ f) (hv : ∀ i, |v i| ≤ A) (hw : ∀ i, |w i| ≤ C) :
    |bilinearR B a b j - bilinearR B v w j| ≤ L * (e * C + A * f + e * f) := by
  have hc : 0 ≤ e * C + A * f + e * f := by positivity
  have hl : ((B j).length : ℝ) ≤ L := by exact_mod_cast hL
  refine le_trans ?_ (mul_le_mul_of_nonneg_right hl hc)
  unfold bilinearR
  generalize B j = l
  induction l with
  | nil => simp
  | cons x l ih =>
    rw [List.map_cons, List.map_cons, List.sum_cons, List.sum_cons, List.length_cons]
    have e1 : a x.1 * b x.2 - v x.1 * w x.2 = (a x.1 - v x.1) * w x.2 + v x.1 * (b x.2 - w x.2) + (a x.1 - v x.1) * (b x.2 - w x.2) := by ring
    have h1 : |a x.1 * b x.2 - v x.1 * w x.2| ≤ e * C + A * f + e * f := by
      rw [e1]
      refine (abs_add_le _ _).trans (add_le_add ((abs_add_le _ _).trans (add_le_add ?_ ?_)) ?_) <;> rw [abs_mul]
      · exact mul_le_mul (ha _) (hw _) (abs_nonneg _) he
      · exact mul_le_mul (hv _) (hb _) (abs_nonneg _) hA
      · exact mul_le_mul (ha _) (hb _) (abs_nonneg _) he
    have h2 := abs_add_le (a x.1 * b x.2 - v x.1 * w x.2) ((l.map fun p => a p.1 * b p.2).sum - (l.map fun p => v p.1 * w p.2).sum)
    have e2 : a x.1 * b x.2 - v x.1 * w x.2 + ((l.map fun p => a p.1 * b p.2).sum - (l.map fun p => v p.1 * w p.2).sum)
        = a x.1 * b x.2 + (l.map fun p => a p.1 * b p.2).sum - (v x.1 * w x.2 + (l.map fun p => v p.1 * w p.2).sum) := by ring
    rw [e2] at h2
    push_cast
    linarith

theorem opExact_cast (V : Nums sh) {d : ℕ} (op : Op 2 sh d) (c : Info) {M E : ℕ → ℚ} (hs : op.Safe 16 M E c) (i : sh d) :
    ((op.exact V i : ℚ) : ℝ) = opExact (fun r i => (V r i : ℝ)) op i := by
  cases op with
  | input src x => rfl
  | add a b f g => show ((V a (f i) + V b (g i) : ℚ) : ℝ) = _; push_cast; rfl
  | sub a b f g => show ((V a (f i) - V b (g i) : ℚ) : ℝ) = _; push_cast; rfl
  | neg a f => show ((-V a (f i) : ℚ) : ℝ) = _; push_cast; rfl
  | addPub a f y => show ((V a (f i) + y i : ℚ) : ℝ) = _; push_cast; rfl
  | mulInt a f z => show ((V a (f i) * z : ℚ) : ℝ) = _; push_cast; rfl
  | mul a b B => exact bilinearR_cast _ _ _ _
  | mulPub a m B y => exact bilinearR_cast _ _ _ _
  | square a f => show ((V a (f i) ^ 2 : ℚ) : ℝ) = _; push_cast; rfl
  | divInt a f z => show ((V a (f i) / z : ℚ) : ℝ) = _; push_cast; rfl
  | reindex a f => rfl
  | sum a m f => show ((∑ j, V a (f (j, i)) : ℚ) : ℝ) = _; push_cast; rfl
  | relu a f => show ((Max.max (V a (f i)) 0 : ℚ) : ℝ) = _; push_cast; rfl
  | max a m f method =>
    have hs' : 0 < m ∧ _ := hs
    exact largestR_cast hs'.1 _

theorem passed_le (V W : Reals sh) {d : ℕ} (op : Op 2 sh d) (c : Info) {M E M' E' : ℕ → ℚ} (hM : ∀ r, 0 ≤ M r) (hE : ∀ r, 0 ≤ E r) (hs : op.Safe 16 M' E' c)
    (hV : ∀ r i, |V r i| ≤ M r) (h : ∀ r i, |W r i - V r i| ≤ E r) (i : sh d) : |opExact W op i - opExact V op i| ≤ (passed M E c op : ℚ) := by
  have hMR : ∀ r, (0 : ℝ) ≤ M r := fun r => by exact_mod_cast hM r
  have hER : ∀ r, (0 : ℝ) ≤ E r := fun r => by exact_mod_cast hE r
  cases op with
  | input src x => show |((x i : ℚ) : ℝ) - x i| ≤ ((0 : ℚ) : ℝ); simp
  | add a b f g =>
    show |W a (f i) + W b (g i) - (V a (f i) + V b (g i))| ≤ ((E a + E b : ℚ) : ℝ)
    have := abs_add_le (W a (f i) - V a (f i)) (W b (g i) - V b (g i))
    rw [add_sub_add_comm]; push_cast
    linarith [h a (f i), h b (g i)]
  | sub a b f g =>
    show |W a (f i) - W b (g i) - (V a (f i) - V b (g i))| ≤ ((E a + E b : ℚ) : ℝ)
    have := abs_sub (W a (f i) - V a (f i)) (W b (g i) - V b (g i))
    rw [sub_sub_sub_comm]; push_cast
    linarith [h a (f i), h b (g i)]
  | neg a f =>
    show |-W a (f i) - -V a (f i)| ≤ ((E a : ℚ) : ℝ)
    rw [neg_sub_neg, abs_sub_comm]; exact h a _
  | addPub a f y =>
    show |W a (f i) + y i - (V a (f i) + y i)| ≤ ((E a : ℚ) : ℝ)
    rw [add_sub_add_right_eq_sub]; exact h a _
  | mulInt a f z =>
    show |W a (f i) * z - V a (f i) * z| ≤ ((E a * |(z : ℚ)| : ℚ) : ℝ)
    rw [← sub_mul, abs_mul]; push_cast
    exact mul_le_mul_of_nonneg_right (h a _) (abs_nonneg _)
  | mul a b B =>
    have := lip_bilinear B (L := c.terms) i (hs.1 i) (hER a) (hER b) (hMR a) (hMR b) (h a) (h b) (hV a) (hV b)
    show |bilinearR B (W a) (W b) i - bilinearR B (V a) (V b) i| ≤ ((c.terms * (E a * M b + M a * E b + E a * E b) : ℚ) : ℝ)
    push_cast; exact this
  | mulPub a m B y =>
    have hp : (0 : ℝ) ≤ c.pub := by exact_mod_cast hs.2.1
    have := lip_bilinear B (L := c.terms) (f := 0) (b := fun j => (y j : ℝ)) (w := fun j => (y j : ℝ)) i (hs.1 i) (hER a) le_rfl (hMR a) hp (h a) (fun j => by simp) (hV a)
      (fun j => by have := (Rat.cast_le (K := ℝ)).2 (hs.2.2.1 j); push_cast at this; exact this)
    show |bilinearR B (W a) (fun j => (y j : ℝ)) i - bilinearR B (V a) (fun j => (y j : ℝ)) i| ≤ ((c.terms * (E a * c.pub) : ℚ) : ℝ)
    push_cast
    simpa using this
  | square a f =>
    show |W a (f i) ^ 2 - V a (f i) ^ 2| ≤ ((E a * (2 * M a + E a) : ℚ) : ℝ)
    have e1 : W a (f i) ^ 2 - V a (f i) ^ 2 = (W a (f i) - V a (f i)) * (2 * V a (f i) + (W a (f i) - V a (f i))) := by ring
    rw [e1, abs_mul]; push_cast
    refine mul_le_mul (h a _) ((abs_add_le _ _).trans (add_le_add ?_ (h a _))) (abs_nonneg _) (hER a)
    rw [abs_mul, abs_two]
    exact mul_le_mul_of_nonneg_left (hV a _) (by norm_num)
  | divInt a f z =>
    have hz : (0 : ℝ) < z := by exact_mod_cast hs.1
    show |W a (f i) / z - V a (f i) / z| ≤ ((E a / z : ℚ) : ℝ)
    rw [← sub_div, abs_div, abs_of_pos hz]; push_cast
    exact div_le_div_of_nonneg_right (h a _) hz.le
  | reindex a f => exact h a _
  | sum a m f =>
    show |∑ j, W a (f (j, i)) - ∑ j, V a (f (j, i))| ≤ ((m * E a : ℚ) : ℝ)
    rw [← Finset.sum_sub_distrib]
    refine (Finset.abs_sum_le_sum_abs _ _).trans ((Finset.sum_le_card_nsmul _ _ (E a : ℝ) fun j _ => h a _).trans ?_)
    simp
  | relu a f =>
    exact (abs_max_sub_max_le_abs _ _ _).trans (h a _)
  | max a m f method =>
    have hs' : 0 < m ∧ _ := hs
    exact lip_largest hs'.1 _ _ _ fun j => h a _

theorem passed_nonneg {d : ℕ} (op : Op 2 sh d) (c : Info) {M E M' E' : ℕ → ℚ} (hM : ∀ r, 0 ≤ M r) (hE : ∀ r, 0 ≤ E r) (hs : op.Safe 16 M' E' c) : 0 ≤ passed M E c op := by
  cases op with
  | input => exact le_rfl
  | add a b => exact add_nonneg (hE a) (hE b)
  | sub a b => exact add_nonneg (hE a) (hE b)
  | neg a => exact hE a
  | addPub a => exact hE a
  | mulInt a f z => exact mul_nonneg (hE a) (abs_nonneg _)
  | mul a b B =>
    have := hE a; have := hE b; have := hM a; have := hM b
    show 0 ≤ (c.terms : ℚ) * (E a * M b + M a * E b + E a * E b)
    positivity
  | mulPub a m B y =>
    have := hE a; have := hs.2.1
    show 0 ≤ (c.terms : ℚ) * (E a * c.pub)
    positivity
  | square a f =>
    have := hE a; have := hM a
    show 0 ≤ E a * (2 * M a + E a)
    positivity
  | divInt a f z =>
    have := hE a
    have : (0 : ℚ) < z := by exact_mod_cast hs.1
    show 0 ≤ E a / z
    positivity
  | reindex a => exact hE a
  | sum a m f => exact mul_nonneg (Nat.cast_nonneg m) (hE a)
  | relu a => exact hE a
  | max a => exact hE a

theorem sizes_nonneg {d : ℕ} (op : Op 2 sh d) (c : Info) {M E M' E' : ℕ → ℚ} (hM : ∀ r, 0 ≤ M r) (hE : ∀ r, 0 ≤ E r) (hs : op.Safe 16 M' E' c) (r : ℕ) : 0 ≤ sizes M E c op r := by
  unfold sizes
  have := passed_nonneg op c hM hE hs
  have := hM r; have := hE r
  split <;> positivity

/-! ## Programs -/

/-- One line. -/
theorem sat_line (method : MaxMethod) (coeffs : ℕ → ℚ) {d : ℕ} (l : Line sh d) (c : NetInfo) {R : Regs 2 sh} {V : Reals sh} {M E : ℕ → ℚ} (hM : ∀ r, 0 ≤ M r) (hE : ∀ r, 0 ≤ E r)
    (hV : ∀ r i, |V r i| ≤ M r) (h : Holds R V E) (hw : ∀ i, |l.exact V i| ≤ M d) (hs : l.Safe M E c V) :
    Sat (l.run method coeffs R) fun z => z.scale = 2 ^ 16 ∧ ∀ i, |(z.value i : ℝ) - l.exact V i| ≤ (l.err M E c : ℚ) := by
  cases l with
  | basic op =>
    have hp : ∀ i, |opExact (fun r i => ((R r).value i : ℝ)) op i - opExact V op i| ≤ (passed M E c.info op : ℚ) := passed_le V _ op c.info hM hE hs hV fun r => (h r).2
    have hcast := opExact_cast (fun r i => (R r).value i) op c.info hs
    have hw' : ∀ i, |op.exact (fun r i => (R r).value i) i| ≤ sizes M E c.info op d := fun i => by
      have h1 := hp i
      rw [← hcast] at h1
      have h2 := abs_add_le (((op.exact (fun r i => (R r).value i) i : ℚ) : ℝ) - opExact V op i) (opExact V op i)
      rw [sub_add_cancel] at h2
      have h3 : |opExact V op i| ≤ M d := hw i
      have h4 : (0 : ℝ) ≤ E d := by exact_mod_cast hE d
      refine (Rat.cast_le (K := ℝ)).1 ?_
      unfold sizes
      rw [if_pos rfl]; push_cast
      linarith
    refine (sat_op (k := 16) (by norm_num) (by norm_num) (by norm_num) op c.info (V := fun r i => (R r).value i) (M := sizes M E c.info op) (E := fun _ => 0) (sizes_nonneg op c.info hM hE hs) (fun _ => le_rfl)
      (fun r i => ?_) (fun r => ⟨(h r).1, fun i => by simp⟩) hw' hs).mono fun z hz => ⟨hz.1, fun i => ?_⟩
    · have h1 := (h r).2 i
      have h2 := abs_add_le (((R r).value i : ℝ) - V r i) (V r i)
      rw [sub_add_cancel] at h2
      have h3 : (0 : ℚ) ≤ if r = d then passed M E c.info op else 0 := by split; exacts [passed_nonneg op c.info hM hE hs, le_rfl]
      have h4 : |(R r).value i| ≤ M r + E r := by
        refine (Rat.cast_le (K := ℝ)).1 ?_
        push_cast
        linarith [hV r i]
      unfold sizes
      linarith
    · have h1 := (Rat.cast_le (K := ℝ)).2 (hz.2 i)
      push_cast at h1
      rw [hcast] at h1
      have := near_of_cast h1 (hp i)
      show |_ - opExact V op i| ≤ ((op.err 2 16 (sizes M E c.info op) (fun _ => 0) c.info + passed M E c.info op : ℚ) : ℝ)
      push_cast
      exact this
  | fn f a g =>
    exact sat_fn method coeffs f c ((R a).reindex g) (h a).1 (fun i => V a (g i)) (E a) (hE a) (fun i => by rw [value_reindex]; exact (h a).2 _) hs.1 hs.2
  | softmax a m p f g =>
    obtain ⟨h2, h31, hE1, hr⟩ := hs
    have hE1' : 2 * (E a : ℝ) < 1 := by exact_mod_cast hE1
    have hv : ∀ q, |(((R a).reindex f).value q : ℝ) - V a (f q)| ≤ E a := fun q => by rw [value_reindex]; exact (h a).2 _
    refine Sat.bind (C53_softmax_default_encrypted method h2 h31 ((R a).reindex f) (h a).1 fun i j j' => ?_) fun z hz => Sat.pure ⟨hz.1, fun i => ?_⟩
    · have h1 := hr j j' i
      refine (Rat.cast_le (K := ℝ)).1 ?_
      push_cast
      linarith [(abs_le.1 (hv (j, i))).2, (abs_le.1 (hv (j', i))).1]
    · have h1 := (hz.2 (g i).2).1 (g i).1
      have h3 := lip_softmax (fun j => (((R a).reindex f).value (j, (g i).2) : ℝ)) (fun j => V a (f (j, (g i).2))) (E a) hE1' (fun j => hv _) (g i).1
      have := near_of_cast h1 h3
      rw [value_reindex]
      show |_ - Real.exp (V a (f (g i))) / ∑ j, Real.exp (V a (f (j, (g i).2)))| ≤ ((softmaxErr m + 2 * E a / (1 - 2 * E a) : ℚ) : ℝ)
      push_cast
      exact this
  | logSoftmax a m p f g =>
    obtain ⟨h2, h98, hr⟩ := hs
    have hv : ∀ q, |(((R a).reindex f).value q : ℝ) - V a (f q)| ≤ E a := fun q => by rw [value_reindex]; exact (h a).2 _
    refine Sat.bind (C53_log_softmax_default_encrypted method h2 h98 ((R a).reindex f) (h a).1 fun i j j' => ?_) fun z hz => Sat.pure ⟨hz.1, fun i => ?_⟩
    · have h1 := hr j j' i
      refine (Rat.cast_le (K := ℝ)).1 ?_
      push_cast
      linarith [(abs_le.1 (hv (j, i))).2, (abs_le.1 (hv (j', i))).1]
    · have h1 := hz.2 (g i).2 (g i).1
      have h3 := lip_logSoftmax (fun j => (((R a).reindex f).value (j, (g i).2) : ℝ)) (fun j => V a (f (j, (g i).2))) (E a) (fun j => hv _) (g i).1
      have := near_of_cast h1 h3
      rw [value_reindex]
      show |_ - Real.log (Real.exp (V a (f (g i))) / ∑ j, Real.exp (V a (f (j, (g i).2))))| ≤ ((1 / 10 + (16 / 1000 + m / 400) / (1 - (16 / 1000 + m / 400)) + 2 * E a : ℚ) : ℝ)
      push_cast
      exact this

theorem fn_err_nonneg (f : Fn) (c : NetInfo) {e : ℚ} (he : 0 ≤ e) (hc : f.Bounds c) : 0 ≤ f.err c e := by
  cases f with
  | exp => show 0 ≤ 1 / 50 + e; positivity
  | log =>
    have : 0 < c.lo := lt_of_lt_of_le (by norm_num) (show 1 / 100 ≤ c.lo from hc)
    show 0 ≤ 1 / 10 + e / c.lo; positivity
  | reciprocal =>
    have : 0 < c.lo := lt_of_lt_of_le (by norm_num) hc.1
    have : 0 ≤ defaultRecipErr c.hi := by unfold defaultRecipErr; split_ifs <;> norm_num
    show 0 ≤ defaultRecipErr c.hi / c.lo + e / c.lo ^ 2; positivity
  | sqrt =>
    have : 0 ≤ c.root := hc
    show 0 ≤ 2 / 25 * c.root + 2 / 2 ^ 16 + 5 / 3 * e; positivity
  | invSqrt =>
    have := hc.2.1
    show 0 ≤ 2 / 25 * c.root + c.root ^ 3 / 2 * e; positivity
  | sigmoid => show 0 ≤ 1 / 30 + e / 4; positivity
  | tanh => show 0 ≤ 1 / 15 + e; positivity
  | cos => show 0 ≤ 3 / 20 + e; positivity
  | sin => show 0 ≤ 3 / 20 + e; positivity

theorem line_err_nonneg {d : ℕ} (l : Line sh d) (c : NetInfo) {V : Reals sh} {M E : ℕ → ℚ} (hM : ∀ r, 0 ≤ M r) (hE : ∀ r, 0 ≤ E r) (hs : l.Safe M E c V) : 0 ≤ l.err M E c := by
  cases l with
  | basic op => exact add_nonneg (err_nonneg op c.info (sizes_nonneg op c.info hM hE hs) (fun _ => le_rfl) hs) (passed_nonneg op c.info hM hE hs)
  | fn f a g => exact fn_err_nonneg f c (hE a) hs.1
  | softmax a m p f g =>
    have h1 : 0 < 1 - 2 * E a := by linarith [hs.2.2.1]
    have := hE a
    have : 0 ≤ softmaxErr m := by unfold softmaxErr softmaxRecipErr; split_ifs <;> positivity
    show 0 ≤ softmaxErr m + 2 * E a / (1 - 2 * E a)
    positivity
  | logSoftmax a m p f g =>
    have h1 : (m : ℚ) ≤ 98 := by exact_mod_cast hs.2.1
    have h2 : (0 : ℚ) < 1 - (16 / 1000 + m / 400) := by linarith
    have := hE a
    show 0 ≤ 1 / 10 + (16 / 1000 + (m : ℚ) / 400) / (1 - (16 / 1000 + m / 400)) + 2 * E a
    positivity

/-- **C93.** A program of arithmetic, comparisons and activation functions, run by two parties with the default configuration on registers that hold real numbers `V` up to `E`, leaves
in every register the number that the program text means, up to an error that is computed from the program. -/
theorem C93_network (method : MaxMethod) (coeffs : ℕ → ℚ) (net : Net sh) (cs : List NetInfo) (R : Regs 2 sh) (V : Reals sh) (M E : ℕ → ℚ)
    (hM : ∀ r, 0 ≤ M r) (hE : ∀ r, 0 ≤ E r) (hV : ∀ r i, |V r i| ≤ M r) (h : Holds R V E) (hs : Safe M cs net E V) :
    Sat (run method coeffs net R) fun R' => Holds R' (exact net V) (errs M cs net E) := by
  induction net generalizing cs R V E with
  | nil => cases cs <;> exact Sat.pure h
  | cons l rest ih =>
    obtain ⟨d, l⟩ := l
    cases cs with
    | nil => exact hs.elim
    | cons c cs =>
      obtain ⟨hw, hl, hrest⟩ := hs
      refine Sat.bind (sat_line method coeffs l c hM hE hV h hw hl) fun x hx => ?_
      refine ih cs _ _ _ (fun r => ?_) (fun r i => ?_) (fun r => ?_) hrest
      · by_cases hr : r = d
        · subst hr; rw [Function.update_self]; exact line_err_nonneg l c hM hE hl
        · rw [Function.update_of_ne hr]; exact hE r
      · by_cases hr : r = d
        · subst hr; rw [set_self]; exact hw i
        · rw [set_ne _ _ hr]; exact hV r i
      · by_cases hr : r = d
        · subst hr; rw [set_self, set_self, Function.update_self]; exact hx
        · rw [set_ne _ _ hr, set_ne _ _ hr, Function.update_of_ne hr]; exact h r

/-- **C93 (decisions).** Two results that are further apart than twice the error are in the right order: a class that leads by that much is also predicted by the encrypted model. -/
theorem C93_decision (method : MaxMethod) (coeffs : ℕ → ℚ) (net : Net sh) (cs : List NetInfo) (R : Regs 2 sh) (V : Reals sh) (M E : ℕ → ℚ)
    (hM : ∀ r, 0 ≤ M r) (hE : ∀ r, 0 ≤ E r) (hV : ∀ r i, |V r i| ≤ M r) (h : Holds R V E) (hs : Safe M cs net E V) (r : ℕ) (i j : sh r)
    (hgap : exact net V r j + 2 * (errs M cs net E r : ℚ) < exact net V r i) :
    Sat (run method coeffs net R) fun R' => (R' r).value j < (R' r).value i := by
  refine (C93_network method coeffs net cs R V M E hM hE hV h hs).mono fun R' h' => ?_
  have h1 := (abs_le.1 ((h' r).2 i)).1
  have h2 := (abs_le.1 ((h' r).2 j)).2
  exact (Rat.cast_lt (K := ℝ)).1 (by linarith)

/-! ## There are such programs -/

/-- Index sets of the sample network. -/
def netShape : ℕ → Type
  | 1 => Fin 2 × Fin 2
  | _ => Fin 2

/-- The product of a 2 × 2 matrix and a vector. -/
def matVec : BilinearOp (Fin 2) (Fin 2 × Fin 2) (Fin 2) := fun i => [(0, (i, 0)), (1, (i, 1))]

/-- A network with one hidden layer: data of party 0, weights of party 1, linear layer, `sigmoid`, `softmax`. -/
def sampleNet : Net netShape :=
  [⟨0, .basic (.input 0 ![3 / 2, -1 / 4])⟩, ⟨1, .basic (.input 1 fun p => if p.1 = 0 then 2 else -1)⟩, ⟨2, .basic (.mul 0 1 matVec)⟩, ⟨3, .fn .sigmoid 2 id⟩,
    ⟨4, .softmax 3 2 1 Prod.fst fun i => (i, 0)⟩]

/-- Its side information. -/
def sampleInfo : List NetInfo := [{}, {}, { info := { terms := 2 } }, {}, {}]

theorem sigmoid_abs_le (x : ℝ) : |1 / (1 + Real.exp (-x))| ≤ 1 := by
  have := Real.exp_pos (-x)
  rw [abs_of_pos (by positivity), div_le_one (by positivity)]
  linarith

theorem sampleNet_e3 : errs (fun _ => 4) (sampleInfo.take 4) (sampleNet.take 4) (fun _ => 0) 3 = 1 / 30 + (18 / 2 ^ 16 + 2 / 2 ^ 32) / 4 := by
  show 1 / 30 + ((((2 : ℕ) : ℚ) * (0 * (4 + (1 / 2 ^ 16 + 0) + 0) + (4 + (1 / 2 ^ 16 + 0) + 0) * 0 + 0 * 0) + ((2 : ℕ) : ℚ) / 2 ^ 16
      + ((2 : ℕ) : ℚ) * ((1 / 2 ^ 16 + 0) * 4 + 4 * (1 / 2 ^ 16 + 0) + (1 / 2 ^ 16 + 0) * (1 / 2 ^ 16 + 0)))) / 4 = _
  norm_num

theorem sampleNet_safe : Safe (fun _ => 4) sampleInfo sampleNet (fun _ => 0) fun _ _ => 0 := by
  have hv : ∀ i : Fin 2, |bilinearR matVec (fun j => ((![3 / 2, -1 / 4] : Fin 2 → ℚ) j : ℝ)) (fun p => (((if p.1 = 0 then 2 else -1 : ℚ)) : ℝ)) i| ≤ 4 := fun i => by
    match i with
    | 0 => norm_num [bilinearR, matVec, abs_le]
    | 1 => norm_num [bilinearR, matVec, abs_le]
  refine ⟨?_, ?_, ?_, ?_, ?_, ⟨?_, ?_⟩, ?_, ⟨trivial, ?_⟩, ?_, ⟨le_rfl, by norm_num, ?_, ?_⟩, trivial⟩
  · show ∀ i : Fin 2, |((![3 / 2, -1 / 4] : Fin 2 → ℚ) i : ℝ)| ≤ ((4 : ℚ) : ℝ)
    intro i
    match i with
    | 0 => norm_num
    | 1 => norm_num [abs_le]
  · show (2 : ℚ) ^ 16 * (4 + 0 + (if (0 : ℕ) = 0 then 0 else 0) + 1 / 2 ^ 16) < 2 ^ 63; norm_num
  · show ∀ p : Fin 2 × Fin 2, |(((if p.1 = 0 then 2 else -1 : ℚ)) : ℝ)| ≤ ((4 : ℚ) : ℝ)
    intro p
    split <;> norm_num
  · show (2 : ℚ) ^ 16 * (4 + 0 + (if (1 : ℕ) = 1 then 0 else 0) + 1 / 2 ^ 16) < 2 ^ 63; norm_num
  · intro i; exact (hv i).trans (by norm_num)
  · intro i; rfl
  · show (2 : ℚ) ^ 16 * 2 ^ 16 * (((2 : ℕ) : ℚ) * ((4 + (1 / 2 ^ 16 + 0) + 0 + 0) * (4 + (1 / 2 ^ 16 + 0) + 0 + 0))) < 2 ^ 63; norm_num
  · intro i; exact (sigmoid_abs_le _).trans (by norm_num)
  · intro i
    show |bilinearR matVec _ _ i| + (((((2 : ℕ) : ℚ) * (0 * (4 + (1 / 2 ^ 16 + 0) + 0) + (4 + (1 / 2 ^ 16 + 0) + 0) * 0 + 0 * 0) + ((2 : ℕ) : ℚ) / 2 ^ 16
      + ((2 : ℕ) : ℚ) * ((1 / 2 ^ 16 + 0) * 4 + 4 * (1 / 2 ^ 16 + 0) + (1 / 2 ^ 16 + 0) * (1 / 2 ^ 16 + 0))) : ℚ) : ℝ) ≤ 128
    exact (add_le_add (hv i) le_rfl).trans (by norm_num)
  · intro i
    refine le_trans ?_ (show (1 : ℝ) ≤ ((4 : ℚ) : ℝ) by norm_num)
    refine abs_le.2 ⟨?_, softmax_le_one (m := 2) _ _⟩
    exact le_trans (by norm_num) (div_nonneg (Real.exp_pos _).le (Finset.sum_nonneg fun k _ => (Real.exp_pos _).le))
  · show 2 * errs (fun _ => 4) (sampleInfo.take 4) (sampleNet.take 4) (fun _ => 0) 3 < 1
    rw [sampleNet_e3]; norm_num
  · intro j j' i
    show _ - _ + 2 * ((errs (fun _ => 4) (sampleInfo.take 4) (sampleNet.take 4) (fun _ => 0) 3 : ℚ) : ℝ) ≤ 256
    rw [sampleNet_e3]
    have h1 := abs_le.1 (sigmoid_abs_le (bilinearR matVec (fun j => ((![3 / 2, -1 / 4] : Fin 2 → ℚ) j : ℝ)) (fun p => (((if p.1 = 0 then 2 else -1 : ℚ)) : ℝ)) j))
    have h2 := abs_le.1 (sigmoid_abs_le (bilinearR matVec (fun j => ((![3 / 2, -1 / 4] : Fin 2 → ℚ) j : ℝ)) (fun p => (((if p.1 = 0 then 2 else -1 : ℚ)) : ℝ)) j'))
    refine le_trans (add_le_add (sub_le_sub h1.2 h2.1) le_rfl) ?_
    norm_num

/-- Registers before the program. -/
def netZeros : Regs 2 netShape := fun _ => ⟨0, 2 ^ 16⟩

theorem netZeros_holds : Holds netZeros (fun _ _ => 0) fun _ => 0 := by
  intro r
  refine ⟨rfl, fun i => ?_⟩
  have : reveal (netZeros r).share i = 0 := by rw [reveal_apply]; simp [netZeros]
  rw [AST.value, this]; simp

/-- The hypotheses are met by the sample network: the class probabilities that the parties compute are right up to 0.09. -/
example (method : MaxMethod) (coeffs : ℕ → ℚ) :
    Sat (run method coeffs sampleNet netZeros) fun R => ∀ i : Fin 2, |((R 4).value i : ℝ) -
      Real.exp (1 / (1 + Real.exp (-(if i = 0 then 5 / 2 else -5 / 4)))) / (Real.exp (1 / (1 + Real.exp (-(5 / 2)))) + Real.exp (1 / (1 + Real.exp (5 / 4))))| ≤ 9 / 100 := by
  refine (C93_network method coeffs sampleNet sampleInfo netZeros (fun _ _ => 0) (fun _ => 4) (fun _ => 0) (fun _ => by norm_num) (fun _ => le_rfl) (fun _ _ => by norm_num) netZeros_holds
    sampleNet_safe).mono fun R hR i => ?_
  have h1 := (hR 4).2 i
  have he : errs (fun _ => 4) sampleInfo sampleNet (fun _ => 0) 4 ≤ 9 / 100 := by
    show softmaxErr 2 + 2 * errs (fun _ => 4) (sampleInfo.take 4) (sampleNet.take 4) (fun _ => 0) 3 / (1 - 2 * errs (fun _ => 4) (sampleInfo.take 4) (sampleNet.take 4) (fun _ => 0) 3) ≤ 9 / 100
    rw [sampleNet_e3]; norm_num [softmaxErr, softmaxRecipErr]
  have hb : ∀ j : Fin 2, bilinearR matVec (fun j => ((![3 / 2, -1 / 4] : Fin 2 → ℚ) j : ℝ)) (fun p => (((if p.1 = 0 then 2 else -1 : ℚ)) : ℝ)) j = if j = 0 then 5 / 2 else -5 / 4 := fun j => by
    match j with
    | 0 => norm_num [bilinearR, matVec]
    | 1 => norm_num [bilinearR, matVec]
  have hx : exact sampleNet (fun _ _ => 0) 4 i = Real.exp (1 / (1 + Real.exp (-(if i = 0 then 5 / 2 else -5 / 4)))) / ∑ j : Fin 2, Real.exp (1 / (1 + Real.exp (-(if j = 0 then 5 / 2 else -5 / 4)))) := by
    simp only [← hb]; rfl
  rw [hx, Fin.sum_univ_two] at h1
  have h2 := h1.trans ((Rat.cast_le (K := ℝ)).2 he)
  rw [if_pos rfl, if_neg (by decide : (1 : Fin 2) ≠ 0), neg_div, neg_neg] at h2
  push_cast at h2
  rw [neg_div]
  exact h2

end CrypTen.Network

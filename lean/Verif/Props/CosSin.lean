import Verif.Props.Softmax
import Mathlib.Analysis.Complex.Exponential
import Mathlib.Analysis.SpecialFunctions.Trigonometric.Basic

/-!
# Cosine and sine as they are computed on shares

`_eix` squares a complex number, given by two encrypted tensors, again and again. Every squaring doubles the error and adds that of three truncated products.
-/

namespace CrypTen
variable {n : ℕ} {ι : Type} {k : ℕ}

/-- One squaring of a complex number on shares. -/
theorem sat_eixStep [NeZero n] (hn : n < 2 ^ 60) (q : ℕ) (method : MaxMethod) (hk0 : 0 < k) (hk : k ≤ 62) (hnk : 2 * (n : ℚ) ≤ 2 ^ k) (a b : AST n ι) (ha : a.scale = 2 ^ k)
    (hb : b.scale = 2 ^ k) (R : ι → ℚ) (hR1 : ∀ i, 1 ≤ R i) (hR : ∀ i, a.value i * a.value i + b.value i * b.value i ≤ R i) (hfit : ∀ i, 2 ^ k * 2 ^ k * R i < 2 ^ 63) :
    Sat ((mpcOps n q method).eixStep (a, b)) fun z => (z.1.scale = 2 ^ k ∧ z.2.scale = 2 ^ k) ∧
      ∀ i, |z.1.value i - (a.value i * a.value i - b.value i * b.value i)| ≤ 2 * (n / 2 ^ k) ∧ |z.2.value i - 2 * (a.value i * b.value i)| ≤ 2 * (n / 2 ^ k) := by
  have haq := scaleQ_of ha
  have hbq := scaleQ_of hb
  have hp : (0 : ℚ) < 2 ^ k := by positivity
  have hp2 : (2 : ℚ) ≤ 2 ^ k := by
    calc (2 : ℚ) = 2 ^ 1 := by norm_num
      _ ≤ 2 ^ k := pow_le_pow_right₀ (by norm_num) hk0
  have hδ1 : 2 * ((n : ℚ) / 2 ^ k) ≤ 1 := by rw [← mul_div_assoc, div_le_one hp]; exact hnk
  have hδ0 : (0 : ℚ) ≤ n / 2 ^ k := by positivity
  have hbig : ∀ i, (2 : ℚ) ^ k * (R i + 1) < 2 ^ 63 := fun i => by
    refine lt_of_le_of_lt ?_ (hfit i)
    have h1 := hR1 i
    rw [mul_assoc]
    refine mul_le_mul_of_nonneg_left ?_ hp.le
    nlinarith
  have haa : ∀ i, |a.value i * a.value i| ≤ R i := fun i => by
    rw [abs_of_nonneg (mul_self_nonneg _)]; have := mul_self_nonneg (b.value i); linarith [hR i]
  have hbb : ∀ i, |b.value i * b.value i| ≤ R i := fun i => by
    rw [abs_of_nonneg (mul_self_nonneg _)]; have := mul_self_nonneg (a.value i); linarith [hR i]
  have hba : ∀ i, |2 * (a.value i * b.value i)| ≤ R i := fun i => by
    have h1 := hR i
    rw [abs_le]; constructor
    · have := mul_self_nonneg (a.value i + b.value i); nlinarith
    · have := mul_self_nonneg (a.value i - b.value i); nlinarith
  have hdiff : ∀ i, |a.value i * a.value i - b.value i * b.value i| ≤ R i := fun i => by
    have h1 := hR i; have h2 := mul_self_nonneg (a.value i); have h3 := mul_self_nonneg (b.value i)
    rw [abs_le]; constructor <;> linarith
  refine Sat.bind (C56_square hn a k hk ha fun i => ?_) fun a2 ha2 => ?_
  · rw [haq]; exact fits_scaled (haa i) (by positivity) (hfit i)
  refine Sat.bind (C56_square hn b k hk hb fun i => ?_) fun b2 hb2 => ?_
  · rw [hbq]; exact fits_scaled (hbb i) (by positivity) (hfit i)
  refine Sat.bind (C56_mul_equal_scales hn (elementwise ι) b a k hk0 hk hb ha fun i => ?_) fun ab hab => ?_
  · rw [hbq, haq, bilinearQ_elementwise]
    refine fits_scaled (b := R i) ?_ (by positivity) (hfit i)
    have h1 := hba i
    rw [abs_mul] at h1
    rw [mul_comm (b.value i)]
    have := abs_nonneg (a.value i * b.value i)
    rw [abs_of_pos (by norm_num : (0 : ℚ) < 2)] at h1
    linarith
  have h1 : ∀ i, |a2.value i - a.value i * a.value i| ≤ n / 2 ^ k := fun i => by have := ha2.2 i; rw [haq] at this; exact this.le
  have h2 : ∀ i, |b2.value i - b.value i * b.value i| ≤ n / 2 ^ k := fun i => by have := hb2.2 i; rw [hbq] at this; exact this.le
  have h3 : ∀ i, |ab.value i - a.value i * b.value i| ≤ n / 2 ^ k := fun i => by
    have := hab.2 i; rw [hbq, bilinearQ_elementwise, mul_comm (b.value i)] at this; exact this.le
  have hs1 : a2.scale = 2 ^ k := ha2.1.trans ha
  have hs2 : b2.scale = 2 ^ k := hb2.1.trans hb
  have hs3 : ab.scale = 2 ^ k := hab.1.trans hb
  have hre : ∀ i, |a2.value i - b2.value i - (a.value i * a.value i - b.value i * b.value i)| ≤ 2 * (n / 2 ^ k) := fun i => by
    have e1 := abs_le.1 (h1 i); have e2 := abs_le.1 (h2 i)
    rw [abs_le]; constructor <;> linarith
  have him : ∀ i, |ab.value i * (2 : ℤ) - 2 * (a.value i * b.value i)| ≤ 2 * (n / 2 ^ k) := fun i => by
    have e1 := abs_le.1 (h3 i)
    push_cast
    rw [abs_le]; constructor <;> linarith
  have hmax : max a2.scale b2.scale = 2 ^ k := by rw [hs1, hs2, max_self]
  refine Sat.bind (C56_sub a2 b2 ⟨by rw [hs1]; exact Nat.two_pow_pos k, by rw [hs2]; exact Nat.two_pow_pos k, Or.inl (by rw [hs1, hs2])⟩ fun i => ?_).sat fun re hre' => ?_
  · rw [hmax]
    push_cast
    exact fits_scaled ((abs_near (hre i) (hdiff i)).trans (by linarith)) hp (hbig i)
  refine Sat.pure ⟨⟨hre'.1.trans hmax, hs3⟩, fun i => ⟨?_, ?_⟩⟩
  · show |re.value i - _| ≤ _
    rw [hre'.2]; exact hre i
  · have : (ab.mulInt 2).value i = ab.value i * (2 : ℤ) := by
      refine mulInt_value ab 2 (by rw [hs3]; exact Nat.two_pow_pos k) i ?_
      rw [scaleQ_of hs3]
      exact fits_scaled ((abs_near (him i) (hba i)).trans (by linarith)) hp (hbig i)
    show |(ab.mulInt 2).value i - _| ≤ _
    rw [this]; exact him i

/-- The complex number with these parts. -/
noncomputable def cx (u v : ℚ) : ℂ := ⟨u, v⟩

theorem cx_re_le (u v : ℚ) : |(u : ℝ)| ≤ ‖cx u v‖ := Complex.abs_re_le_norm (cx u v)

theorem cx_norm_sq (u v : ℚ) : ‖cx u v‖ ^ 2 = ((u * u + v * v : ℚ) : ℝ) := by
  rw [← Complex.normSq_eq_norm_sq, Complex.normSq_apply]; push_cast; rfl

/-- Two parts, each known up to `e`: the complex number is known up to `3 / 2 * e`. -/
theorem cx_near {u v : ℚ} {z : ℂ} {e : ℝ} (h1 : |(u : ℝ) - z.re| ≤ e) (h2 : |(v : ℝ) - z.im| ≤ e) : ‖cx u v - z‖ ≤ 3 / 2 * e := by
  have he : 0 ≤ e := (abs_nonneg _).trans h1
  have h : ‖cx u v - z‖ ^ 2 ≤ (3 / 2 * e) ^ 2 := by
    rw [← Complex.normSq_eq_norm_sq, Complex.normSq_apply]
    have e1 : (cx u v - z).re = u - z.re := rfl
    have e2 : (cx u v - z).im = v - z.im := rfl
    have a1 := sq_le_sq' (abs_le.1 h1).1 (abs_le.1 h1).2
    have a2 := sq_le_sq' (abs_le.1 h2).1 (abs_le.1 h2).2
    rw [e1, e2]
    nlinarith
  exact le_of_sq_le_sq₀ h (by positivity)
where
  le_of_sq_le_sq₀ {a b : ℝ} (h : a ^ 2 ≤ b ^ 2) (hb : 0 ≤ b) : a ≤ b := by
    by_contra hc
    exact absurd h (not_le.2 (by nlinarith))

theorem squareFits_step {k d : ℕ} {δ w e : ℚ} (h : SquareFits k δ (d + 1) w e) : 2 ^ k * 2 ^ k * (w + e) ^ 2 < 2 ^ 63 ∧ SquareFits k δ d (w * w) (e * (2 * w + e) + δ) := h

/-- The squarings of `_eix`. -/
theorem sat_eixLoop [NeZero n] (hn : n < 2 ^ 60) (q : ℕ) (method : MaxMethod) (hk0 : 0 < k) (hk : k ≤ 62) (hnk : 2 * (n : ℚ) ≤ 2 ^ k) : ∀ (d : ℕ) (a b : AST n ι) (z : ι → ℂ)
    (w e : ι → ℚ), a.scale = 2 ^ k → b.scale = 2 ^ k → (∀ i, 1 ≤ w i) → (∀ i, 0 ≤ e i) → (∀ i, ‖cx (a.value i) (b.value i) - z i‖ ≤ e i) → (∀ i, ‖z i‖ ≤ w i) →
    (∀ i, SquareFits k (3 * (n / 2 ^ k)) d (w i) (e i)) →
    Sat (iterM (mpcOps n q method).eixStep d (a, b)) fun r => (r.1.scale = 2 ^ k ∧ r.2.scale = 2 ^ k) ∧
      ∀ i, ‖cx (r.1.value i) (r.2.value i) - z i ^ 2 ^ d‖ ≤ (squareErr (3 * (n / 2 ^ k)) d (w i) (e i) : ℚ) := by
  intro d
  induction d with
  | zero =>
    intro a b z w e ha hb _ _ h _ _
    refine Sat.pure ⟨⟨ha, hb⟩, fun i => ?_⟩
    rw [pow_zero, pow_one]; exact h i
  | succ d ih =>
    intro a b z w e ha hb hw1 he0 h hz hf
    have hn1 : ∀ i, ‖cx (a.value i) (b.value i)‖ ≤ w i + e i := fun i => by
      have := norm_add_le (cx (a.value i) (b.value i) - z i) (z i)
      rw [sub_add_cancel] at this
      linarith [h i, hz i]
    have hR : ∀ i, a.value i * a.value i + b.value i * b.value i ≤ (w i + e i) ^ 2 := fun i => by
      have h1 := pow_le_pow_left₀ (norm_nonneg _) (hn1 i) 2
      rw [cx_norm_sq] at h1
      exact_mod_cast h1
    refine Sat.bind (sat_eixStep hn q method hk0 hk hnk a b ha hb (fun i => (w i + e i) ^ 2) (fun i => ?_) hR fun i => (squareFits_step (hf i)).1) fun r hr => ?_
    · exact one_le_pow₀ (by linarith [hw1 i, he0 i])
    have hδ : (0 : ℚ) ≤ n / 2 ^ k := by positivity
    have hstep : ∀ i, ‖cx (r.1.value i) (r.2.value i) - z i * z i‖ ≤ ((e i * (2 * w i + e i) + 3 * (n / 2 ^ k) : ℚ) : ℝ) := fun i => by
      have h1 : ‖cx (r.1.value i) (r.2.value i) - cx (a.value i) (b.value i) * cx (a.value i) (b.value i)‖ ≤ 3 / 2 * ((2 * (n / 2 ^ k) : ℚ) : ℝ) := by
        refine cx_near ?_ ?_
        · have := (hr.2 i).1
          have e1 : (cx (a.value i) (b.value i) * cx (a.value i) (b.value i)).re = ((a.value i * a.value i - b.value i * b.value i : ℚ) : ℝ) := by
            rw [Complex.mul_re]; push_cast; rfl
          rw [e1]; exact_mod_cast this
        · have := (hr.2 i).2
          have e1 : (cx (a.value i) (b.value i) * cx (a.value i) (b.value i)).im = ((2 * (a.value i * b.value i) : ℚ) : ℝ) := by
            rw [Complex.mul_im]; push_cast; show (a.value i : ℝ) * b.value i + b.value i * a.value i = _; ring
          rw [e1]; exact_mod_cast this
      have h2 : ‖cx (a.value i) (b.value i) * cx (a.value i) (b.value i) - z i * z i‖ ≤ e i * (2 * w i + e i) := by
        have e1 : cx (a.value i) (b.value i) * cx (a.value i) (b.value i) - z i * z i = (cx (a.value i) (b.value i) - z i) * (cx (a.value i) (b.value i) + z i) := by ring
        rw [e1, norm_mul]
        have h3 := norm_add_le (cx (a.value i) (b.value i)) (z i)
        have he : (0 : ℝ) ≤ e i := by exact_mod_cast he0 i
        refine mul_le_mul (h i) (by linarith [hn1 i, hz i]) (norm_nonneg _) he
      have h4 := norm_add_le (cx (r.1.value i) (r.2.value i) - cx (a.value i) (b.value i) * cx (a.value i) (b.value i)) (cx (a.value i) (b.value i) * cx (a.value i) (b.value i) - z i * z i)
      rw [sub_add_sub_cancel] at h4
      push_cast at h1 ⊢
      linarith
    refine (ih r.1 r.2 (fun i => z i * z i) (fun i => w i * w i) (fun i => e i * (2 * w i + e i) + 3 * (n / 2 ^ k)) hr.1.1 hr.1.2 (fun i => ?_) (fun i => ?_) hstep (fun i => ?_)
      fun i => (squareFits_step (hf i)).2).mono fun t ht => ⟨ht.1, fun i => ?_⟩
    · nlinarith [hw1 i]
    · have := he0 i; have := hw1 i; positivity
    · rw [norm_mul]
      push_cast
      exact mul_le_mul (hz i) (hz i) (norm_nonneg _) ((norm_nonneg _).trans (hz i))
    · have := ht.2 i
      rw [← sq, ← pow_mul, ← pow_succ'] at this
      exact this

/-- **C53, `_eix` on shares**, the two results of which are `cos` and `sin`: with `d ≥ 1` iterations they are the real and imaginary part of `(1 + i x / 2 ^ d) ^ (2 ^ d)` up to the
error that `d - 1` squarings accumulate, each of which adds `3 n` units in the last place. -/
theorem C53_eix_encrypted [NeZero n] (hn : n < 2 ^ 60) (q : ℕ) (method : MaxMethod) (hk0 : 0 < k) (hk : k ≤ 31) (hnk : 4 * (n : ℚ) ≤ 2 ^ k) (d : ℕ) (hd : d + 1 ≤ 62) (x : AST n ι)
    (hx : x.scale = 2 ^ k) (hx4 : ∀ i, |x.value i| ≤ 2 ^ (d + 1) / 8)
    (hf : ∀ i, SquareFits k (3 * (n / 2 ^ k)) d (1 + (x.value i / 2 ^ (d + 1)) ^ 2) (3 * (n / 2 ^ k))) :
    Sat ((mpcOps n q method).eix (d + 1) x) fun z => (z.1.scale = 2 ^ k ∧ z.2.scale = 2 ^ k) ∧
      ∀ i, ‖(⟨(z.1.value i : ℝ), (z.2.value i : ℝ)⟩ : ℂ) - (1 + Complex.I * ((x.value i : ℝ) / 2 ^ (d + 1))) ^ 2 ^ (d + 1)‖
        ≤ (squareErr (3 * (n / 2 ^ k)) d (1 + (x.value i / 2 ^ (d + 1)) ^ 2) (3 * (n / 2 ^ k)) : ℚ) := by
  have hp : (0 : ℚ) < 2 ^ k := by positivity
  have hδ0 : (0 : ℚ) ≤ n / 2 ^ k := by positivity
  have hδ1 : 4 * ((n : ℚ) / 2 ^ k) ≤ 1 := by rw [← mul_div_assoc, div_le_one hp]; exact hnk
  have hq : (0 : ℚ) < 2 ^ (d + 1) := by positivity
  obtain ⟨t, ht⟩ : ∃ t : ι → ℚ, ∀ i, t i = x.value i / 2 ^ (d + 1) := ⟨_, fun i => rfl⟩
  have ht4 : ∀ i, |t i| ≤ 1 / 8 := fun i => by
    rw [ht, abs_div, abs_of_pos hq, div_le_iff₀ hq]; linarith [hx4 i]
  have hkb : (2 : ℚ) ^ k ≤ 2 ^ 31 := pow_le_pow_right₀ (by norm_num) hk
  have hone : ∀ b : ℚ, b ≤ 3 / 2 → (2 : ℚ) ^ k * b < 2 ^ 63 := fun b hb => by
    calc (2 : ℚ) ^ k * b ≤ 2 ^ k * (3 / 2) := mul_le_mul_of_nonneg_left hb hp.le
      _ ≤ 2 ^ 31 * (3 / 2) := mul_le_mul_of_nonneg_right hkb (by norm_num)
      _ < 2 ^ 63 := by norm_num
  unfold Ops.eix
  have e2 : ((2 : ℤ) ^ (d + 1)) = ((2 ^ (d + 1) : ℕ) : ℤ) := by push_cast; rfl
  refine Sat.bind (show Sat (x.divInt fun _ => (2 : ℤ) ^ (d + 1)) fun z => Near k z t (n / 2 ^ k) from ?_) fun im him => ?_
  · rw [e2]
    refine (near_divPow hn (Near.self hx) (d + 1) hd).mono fun z hz => (hz.mono (by rw [zero_div, zero_add])).congr fun i => (ht i).symm
  have hims := him.scaleQ
  have ha : ∀ i, |im.value i| ≤ 1 / 2 := fun i => by have := him.abs_le (ht4 i); linarith
  have hfit1 : ∀ i, Fits (im.scale * im.scale * (im.value i * im.value i)) := fun i => by
    rw [hims]
    refine fits_scaled (b := 1 / 4) ?_ (by positivity) ?_
    · rw [abs_mul]; have := ha i; have := abs_nonneg (im.value i); nlinarith
    · have := mul_le_mul hkb hkb hp.le (by positivity)
      linarith
  refine Sat.bind (C56_square hn im k (by omega) him.1 hfit1) fun sq hsq => ?_
  have hsqs : sq.scale = 2 ^ k := hsq.1.trans him.1
  have hsq2 : ∀ i, |sq.value i - t i * t i| ≤ 2 * (n / 2 ^ k) := fun i => by
    have h1 := (hsq.2 i).le
    rw [hims] at h1
    have h2 := him.2 i
    have h3 : |im.value i * im.value i - t i * t i| ≤ n / 2 ^ k * (5 / 8) := by
      have e1 : im.value i * im.value i - t i * t i = (im.value i - t i) * (im.value i + t i) := by ring
      rw [e1, abs_mul]
      refine mul_le_mul h2 ((abs_add_le _ _).trans ?_) (abs_nonneg _) hδ0
      linarith [ha i, ht4 i]
    have h4 := abs_add_le (sq.value i - im.value i * im.value i) (im.value i * im.value i - t i * t i)
    rw [sub_add_sub_cancel] at h4
    linarith
  have htt : ∀ i, |t i * t i| ≤ 1 / 64 := fun i => by
    rw [abs_mul]; have := ht4 i; have := abs_nonneg (t i); nlinarith
  have hnsq : Near k sq (fun i => t i * t i) (2 * (n / 2 ^ k)) := ⟨hsqs, hsq2⟩
  have hre : Near k (sq.neg.addPub fun _ => ((1 : ℤ) : ℚ)) (fun i => -(t i * t i) + ((1 : ℤ) : ℚ)) (2 * (n / 2 ^ k)) := by
    refine near_addInt (near_neg hnsq htt (hone _ (by linarith))) 1 (B := 1) (fun i => ?_) (hone _ (by linarith))
    have := abs_le.1 (htt i)
    have := mul_self_nonneg (t i)
    push_cast
    rw [abs_le]; constructor <;> linarith
  have him2 : Near k (im.mulInt 2) (fun i => t i * ((2 : ℤ) : ℚ)) (n / 2 ^ k * |((2 : ℤ) : ℚ)|) := by
    refine near_mulInt him 2 (B := 1 / 4) (fun i => ?_) (hone _ ?_)
    · push_cast
      rw [abs_mul, abs_of_pos (by norm_num : (0 : ℚ) < 2)]; linarith [ht4 i]
    · push_cast
      rw [abs_of_pos (by norm_num : (0 : ℚ) < 2)]; linarith
  have e1 : (fun _ : ι => ((1 : ℤ) : ℚ)) = fun _ => 1 := by funext; norm_num
  rw [e1] at hre
  have hz : ∀ i, (1 + Complex.I * ((x.value i : ℝ) / 2 ^ (d + 1))) ^ 2 ^ (d + 1) = ((⟨((-(t i * t i) + 1 : ℚ) : ℝ), ((t i * 2 : ℚ) : ℝ)⟩ : ℂ)) ^ 2 ^ d := fun i => by
    have ep : (2 : ℕ) ^ (d + 1) = 2 * 2 ^ d := by ring
    rw [ep, pow_mul]
    congr 1
    have h : (((x.value i : ℚ) : ℝ) : ℂ) / 2 ^ (d + 1) = ((((t i : ℚ) : ℝ)) : ℂ) := by rw [ht]; push_cast; rfl
    rw [h]
    apply Complex.ext
    · simp [_root_.sq]; ring
    · simp [_root_.sq]; ring
  refine (sat_eixLoop hn q method hk0 (by omega) (by linarith) d _ _ (fun i => ⟨((-(t i * t i) + 1 : ℚ) : ℝ), ((t i * 2 : ℚ) : ℝ)⟩) (fun i => 1 + (x.value i / 2 ^ (d + 1)) ^ 2)
    (fun _ => 3 * (n / 2 ^ k)) hre.1 him2.1 (fun i => ?_) (fun i => by positivity) (fun i => ?_) (fun i => ?_) hf).mono fun r hr => ⟨hr.1, fun i => ?_⟩
  · have := sq_nonneg (x.value i / 2 ^ (d + 1)); linarith
  · have e3 : (((3 * (n / 2 ^ k) : ℚ)) : ℝ) = 3 / 2 * ((2 * (n / 2 ^ k) : ℚ) : ℝ) := by push_cast; ring
    rw [e3]
    refine cx_near ?_ ?_
    · have := hre.2 i
      push_cast at this
      show |(_ : ℝ) - ((-(t i * t i) + 1 : ℚ) : ℝ)| ≤ _
      exact_mod_cast this
    · have := him2.2 i
      push_cast at this
      rw [abs_of_pos (by norm_num : (0 : ℚ) < 2), mul_comm (_ / _)] at this
      show |(_ : ℝ) - ((t i * 2 : ℚ) : ℝ)| ≤ _
      exact_mod_cast this
  · have h1 : ‖(⟨((-(t i * t i) + 1 : ℚ) : ℝ), ((t i * 2 : ℚ) : ℝ)⟩ : ℂ)‖ ^ 2 = ((1 + t i ^ 2 : ℚ) : ℝ) ^ 2 := by
      have := cx_norm_sq (-(t i * t i) + 1) (t i * 2)
      unfold cx at this
      rw [this]; push_cast; ring
    have h2 : (0 : ℝ) ≤ ((1 + t i ^ 2 : ℚ) : ℝ) := by exact_mod_cast (by positivity : (0 : ℚ) ≤ 1 + t i ^ 2)
    rw [← ht]
    exact le_of_eq ((pow_left_inj₀ (norm_nonneg _) h2 (by norm_num)).1 h1)
  · rw [hz]; exact hr.2 i

/-! ## The default configuration -/

theorem squareErr_nonneg (δ : ℚ) (hδ : 0 ≤ δ) : ∀ (d : ℕ) (w e : ℚ), 0 ≤ w → 0 ≤ e → 0 ≤ squareErr δ d w e
  | 0, _, _, _, he => he
  | d + 1, w, e, hw, he => squareErr_nonneg δ hδ d (w * w) _ (by positivity) (by positivity)

theorem squareErr_mono (δ : ℚ) (hδ : 0 ≤ δ) : ∀ (d : ℕ) (w w' e e' : ℚ), 0 ≤ w → w ≤ w' → 0 ≤ e → e ≤ e' → squareErr δ d w e ≤ squareErr δ d w' e'
  | 0, _, _, _, _, _, _, _, h => h
  | d + 1, w, w', e, e', hw, hww, he, hee => by
    refine squareErr_mono δ hδ d _ _ _ _ (by positivity) (mul_le_mul hww hww hw (hw.trans hww)) (by positivity) ?_
    have : e * (2 * w + e) ≤ e' * (2 * w' + e') := mul_le_mul hee (by linarith) (by positivity) (he.trans hee)
    linarith

theorem norm_pow_sub_pow {a b : ℂ} {M : ℝ} (ha : ‖a‖ ≤ M) (hb : ‖b‖ ≤ M) (hM : 1 ≤ M) : ∀ N : ℕ, ‖a ^ N - b ^ N‖ ≤ N * M ^ N * ‖a - b‖
  | 0 => by simp
  | N + 1 => by
    have h := norm_pow_sub_pow ha hb hM N
    have e : a ^ (N + 1) - b ^ (N + 1) = (a ^ N - b ^ N) * a + b ^ N * (a - b) := by ring
    have h2 : ‖b ^ N‖ ≤ M ^ N := by rw [norm_pow]; exact pow_le_pow_left₀ (norm_nonneg _) hb N
    have h3 : M ^ N ≤ M ^ (N + 1) := pow_le_pow_right₀ hM (Nat.le_succ N)
    have h0 : 0 ≤ ‖a - b‖ := norm_nonneg _
    rw [e]
    refine (norm_add_le _ _).trans ?_
    rw [norm_mul, norm_mul]
    have h4 : ‖a ^ N - b ^ N‖ * ‖a‖ ≤ N * M ^ N * ‖a - b‖ * M := mul_le_mul h ha (norm_nonneg _) ((norm_nonneg _).trans h)
    have h5 : ‖b ^ N‖ * ‖a - b‖ ≤ M ^ (N + 1) * ‖a - b‖ := mul_le_mul_of_nonneg_right (h2.trans h3) h0
    have h6 : ((N + 1 : ℕ) : ℝ) * M ^ (N + 1) * ‖a - b‖ = N * M ^ N * ‖a - b‖ * M + M ^ (N + 1) * ‖a - b‖ := by push_cast; ring
    rw [h6]; exact add_le_add h4 h5

/-- The approximation itself, in exact arithmetic: `(1 + i x / N) ^ N` is close to `exp (i x)`. -/
theorem eix_accuracy (x : ℝ) (N : ℕ) (hN : 0 < N) (hx : x ^ 2 < N) (hx1 : |x| ≤ N) :
    ‖(1 + Complex.I * ((x : ℂ) / N)) ^ N - Complex.exp (Complex.I * x)‖ ≤ x ^ 2 / N / (1 - x ^ 2 / N) := by
  have hN' : (0 : ℝ) < N := by exact_mod_cast hN
  obtain ⟨t, ht⟩ : ∃ t : ℝ, t = x / N := ⟨_, rfl⟩
  have hxt : x = t * N := by rw [ht]; field_simp
  have hNc : (N : ℂ) ≠ 0 := by exact_mod_cast hN.ne'
  have e1 : (x : ℂ) / N = (t : ℂ) := by rw [ht]; push_cast; rfl
  have e2 : Complex.exp (Complex.I * x) = Complex.exp (Complex.I * t) ^ N := by
    rw [← Complex.exp_nat_mul, hxt]; congr 1; push_cast; ring
  have ht1 : |t| ≤ 1 := by rw [ht, abs_div, abs_of_pos hN', div_le_one hN']; exact hx1
  have hn : ‖Complex.I * (t : ℂ)‖ = |t| := by rw [norm_mul, Complex.norm_I, one_mul, Complex.norm_real, Real.norm_eq_abs]
  have hd : ‖(1 + Complex.I * t) - Complex.exp (Complex.I * t)‖ ≤ t ^ 2 := by
    have h := Complex.norm_exp_sub_one_sub_id_le (x := Complex.I * t) (by rw [hn]; exact ht1)
    rw [hn, sq_abs] at h
    rw [norm_sub_rev]
    have e : Complex.exp (Complex.I * t) - (1 + Complex.I * t) = Complex.exp (Complex.I * t) - 1 - Complex.I * t := by ring
    rw [e]; exact h
  have hb : ‖Complex.exp (Complex.I * t)‖ ≤ 1 + t ^ 2 := by
    rw [mul_comm, Complex.norm_exp_ofReal_mul_I]; nlinarith [sq_nonneg t]
  have ha : ‖(1 + Complex.I * (t : ℂ))‖ ≤ 1 + t ^ 2 := by
    have h1 : ‖(1 + Complex.I * (t : ℂ))‖ ^ 2 = 1 + t ^ 2 := by
      rw [← Complex.normSq_eq_norm_sq, Complex.normSq_apply]; simp; ring
    have h2 := norm_nonneg (1 + Complex.I * (t : ℂ))
    nlinarith [sq_nonneg t, sq_nonneg (t ^ 2)]
  have hu : x ^ 2 / N = N * t ^ 2 := by rw [hxt]; field_simp
  have hlt : N * t ^ 2 < 1 := by rw [← hu, div_lt_one hN']; exact hx
  have hpow : (1 + t ^ 2) ^ N ≤ 1 / (1 - N * t ^ 2) := by
    have h1 : (1 + t ^ 2) ^ N ≤ Real.exp (t ^ 2) ^ N := pow_le_pow_left₀ (by positivity) (by linarith [Real.add_one_le_exp (t ^ 2)]) N
    rw [← Real.exp_nat_mul] at h1
    exact h1.trans (Real.exp_bound_div_one_sub_of_interval (by positivity) hlt)
  rw [e1, e2]
  refine (norm_pow_sub_pow ha hb (by nlinarith [sq_nonneg t]) N).trans ?_
  rw [hu]
  have h1 : (N : ℝ) * (1 + t ^ 2) ^ N * ‖(1 + Complex.I * t) - Complex.exp (Complex.I * t)‖ ≤ N * (1 / (1 - N * t ^ 2)) * t ^ 2 := by
    refine mul_le_mul (mul_le_mul_of_nonneg_left hpow hN'.le) hd (norm_nonneg _) ?_
    have : 0 < 1 - N * t ^ 2 := by linarith
    positivity
  refine h1.trans (le_of_eq ?_)
  ring

/-- **C53, cosine and sine with the default configuration (10 iterations), two parties and 16 bits**: up to 6.5 in absolute value, a little more than a full turn either way, the
decrypted results are within 0.15 of the true cosine and sine. -/
theorem C53_cos_sin_default_encrypted (method : MaxMethod) (x : AST 2 ι) (hx : x.scale = 2 ^ 16) (h : ∀ i, |x.value i| ≤ 13 / 2) :
    Sat ((mpcOps 2 16 method).eix ({} : FunCfg).trigIterations x) fun z => (z.1.scale = 2 ^ 16 ∧ z.2.scale = 2 ^ 16) ∧
      ∀ i, |(z.1.value i : ℝ) - Real.cos (x.value i)| ≤ 3 / 20 ∧ |(z.2.value i : ℝ) - Real.sin (x.value i)| ≤ 3 / 20 := by
  have hw : ∀ i, 1 + (x.value i / 2 ^ (9 + 1)) ^ 2 ≤ 1 + 1 / 24000 := fun i => by
    have h1 := sq_le_sq' (abs_le.1 (h i)).1 (abs_le.1 (h i)).2
    rw [div_pow]
    have : x.value i ^ 2 / (2 ^ (9 + 1)) ^ 2 ≤ 1 / 24000 := by rw [div_le_iff₀ (by norm_num)]; refine h1.trans ?_; norm_num
    linarith
  have hw0 : ∀ i, 0 ≤ 1 + (x.value i / 2 ^ (9 + 1)) ^ 2 := fun i => by positivity
  refine (C53_eix_encrypted (n := 2) (k := 16) (by norm_num) 16 method (by norm_num) (by norm_num) (by norm_num) 9 (by norm_num) x hx (fun i => (h i).trans (by norm_num)) fun i =>
    squareFits_mono 16 _ (by positivity) 9 _ _ _ _ (hw0 i) (hw i) (by positivity) le_rfl (by norm_num [SquareFits])).mono fun z hz => ⟨hz.1, fun i => ?_⟩
  have h1 := hz.2 i
  have h2 : squareErr (3 * ((2 : ℕ) / 2 ^ 16)) 9 (1 + (x.value i / 2 ^ (9 + 1)) ^ 2) (3 * ((2 : ℕ) / 2 ^ 16)) ≤ 106 / 1000 :=
    (squareErr_mono _ (by positivity) 9 _ _ _ _ (hw0 i) (hw i) (by positivity) le_rfl).trans (by norm_num [squareErr])
  have h2' : ((squareErr (3 * ((2 : ℕ) / 2 ^ 16)) 9 (1 + (x.value i / 2 ^ (9 + 1)) ^ 2) (3 * ((2 : ℕ) / 2 ^ 16)) : ℚ) : ℝ) ≤ 106 / 1000 := (Rat.cast_le.2 h2).trans (by norm_num)
  have hxr : |((x.value i : ℚ) : ℝ)| ≤ 13 / 2 := by rw [← Rat.cast_abs]; exact (Rat.cast_le.2 (h i)).trans (by norm_num)
  have hx2 : ((x.value i : ℚ) : ℝ) ^ 2 ≤ 169 / 4 := by
    have := sq_le_sq' (abs_le.1 hxr).1 (abs_le.1 hxr).2; linarith
  have h3 := eix_accuracy ((x.value i : ℚ) : ℝ) 1024 (by norm_num) (by push_cast; linarith) (by push_cast; linarith)
  have h4 : ((x.value i : ℚ) : ℝ) ^ 2 / (1024 : ℕ) / (1 - ((x.value i : ℚ) : ℝ) ^ 2 / (1024 : ℕ)) ≤ 44 / 1000 := by
    push_cast
    rw [div_le_iff₀ (by linarith)]
    linarith
  have e1 : (1 + Complex.I * ((((x.value i : ℚ) : ℝ) : ℂ) / 2 ^ (9 + 1))) ^ 2 ^ (9 + 1) = (1 + Complex.I * ((((x.value i : ℚ) : ℝ) : ℂ) / (1024 : ℕ))) ^ 1024 := by norm_num
  rw [e1] at h1
  have h5 := norm_add_le ((⟨(z.1.value i : ℝ), (z.2.value i : ℝ)⟩ : ℂ) - (1 + Complex.I * ((((x.value i : ℚ) : ℝ) : ℂ) / (1024 : ℕ))) ^ 1024)
    ((1 + Complex.I * ((((x.value i : ℚ) : ℝ) : ℂ) / (1024 : ℕ))) ^ 1024 - Complex.exp (Complex.I * (((x.value i : ℚ) : ℝ) : ℂ)))
  rw [sub_add_sub_cancel] at h5
  have h6 : ‖(⟨(z.1.value i : ℝ), (z.2.value i : ℝ)⟩ : ℂ) - Complex.exp (Complex.I * (((x.value i : ℚ) : ℝ) : ℂ))‖ ≤ 3 / 20 := by linarith
  rw [mul_comm] at h6
  constructor
  · have := (Complex.abs_re_le_norm _).trans h6
    rwa [Complex.sub_re, Complex.exp_ofReal_mul_I_re] at this
  · have := (Complex.abs_im_le_norm _).trans h6
    rwa [Complex.sub_im, Complex.exp_ofReal_mul_I_im] at this

/-- An input of the theorem: the number 3. -/
example : ∃ x : AST 2 Unit, x.scale = 2 ^ 16 ∧ (∀ i, |x.value i| ≤ 13 / 2) ∧ x.value () = 3 := by
  have e : ∀ i, (holder 2 Unit 196608 (2 ^ 16)).value i = 3 := fun i => by
    rw [holder_value (z := 196608) (hz := by decide)]; norm_num
  exact ⟨holder 2 Unit 196608 (2 ^ 16), rfl, fun i => by rw [e]; norm_num [abs_le], e ()⟩

end CrypTen

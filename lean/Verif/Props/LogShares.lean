import Verif.Spec.LogShares
import Verif.Props.PolyShares
import Verif.Props.InvSqrt

/-!
# The logarithm as it is computed on shares
-/

namespace CrypTen
variable {n : ℕ} {ι : Type} {k : ℕ}

theorem logSum_eq (order : ℕ) (h : ℚ) : ∑ j : Fin (logCoeffs order).length, (logCoeffs order).getD j 0 * h ^ ((j : ℕ) + 1) = logSum order h := by
  have hl : (logCoeffs order).length = order := by simp [logCoeffs]
  rw [Fin.sum_univ_eq_sum_range (fun j => (logCoeffs order).getD j 0 * h ^ (j + 1)), hl, logSum]
  refine Finset.sum_congr rfl fun j hj => ?_
  have hj' : j < order := Finset.mem_range.1 hj
  have : (logCoeffs order).getD j 0 = 1 / ((j : ℚ) + 1) := by
    rw [List.getD_eq_getElem?_getD, List.getElem?_eq_getElem (by rw [hl]; exact hj')]
    simp [logCoeffs]
  rw [this]
  ring

theorem neg_value_of [NeZero n] {x : AST n ι} (hx : x.scale = 2 ^ k) {i : ι} {B : ℚ} (hB : |x.value i| ≤ B) (hfit : 2 ^ k * B < 2 ^ 63) : x.neg.value i = -x.value i := by
  have hp : (0 : ℚ) < 2 ^ k := by positivity
  refine neg_value (by rw [hx]; exact Nat.two_pow_pos k) i ?_
  rw [scaleQ_of hx]
  intro h'
  have h2 : |(2 : ℚ) ^ k * x.value i| < 2 ^ 63 := by
    rw [abs_mul, abs_of_pos hp]
    exact lt_of_le_of_lt (mul_le_mul_of_nonneg_left hB hp.le) hfit
  rw [h', abs_neg, abs_of_pos (by positivity)] at h2
  exact lt_irrefl _ h2

theorem addInt_value [NeZero n] {x : AST n ι} (hx : x.scale = 2 ^ k) (c : ℤ) {i : ι} {B : ℚ} (hB : |x.value i + c| ≤ B) (hfit : 2 ^ k * B < 2 ^ 63) :
    (x.addPub fun _ => (c : ℚ)).value i = x.value i + c := by
  have hp : (0 : ℚ) < 2 ^ k := by positivity
  have htr : (truncQ ((2 : ℚ) ^ k * c) : ℚ) / 2 ^ k = c := by
    have : (2 : ℚ) ^ k * c = ((2 ^ k * c : ℤ) : ℚ) := by push_cast; ring
    rw [this, truncQ_intCast]
    push_cast
    field_simp
  rw [addPub_value x _ (by rw [hx]; exact Nat.two_pow_pos k) i, scaleQ_of hx, htr]
  rw [scaleQ_of hx, htr]
  exact fits_scaled hB hp hfit

theorem pow_abs_le_of {a b : ℚ} (h : |a| ≤ b) (m : ℕ) : |a ^ m| ≤ b ^ m := by rw [abs_pow]; exact pow_le_pow_left₀ (abs_nonneg _) h m

/-- **C53, one Householder iteration of the logarithm on shares**: `y - ∑ h ^ j / j` with `h = 1 - v`, where `v` is `x exp(-y)` up to the error of the exponential and one truncation. -/
theorem C53_log_step_encrypted [NeZero n] (hn : n < 2 ^ 60) (q : ℕ) (method : MaxMethod) (hk0 : 0 < k) (hk : k ≤ 62) (d order r : ℕ) (hd : d ≤ 62) (X Y M : ℚ)
    (hf : LogFits n k d order r X Y M) (x y : AST n ι) (hx : x.scale = 2 ^ k) (hy : y.scale = 2 ^ k) (hx0 : ∀ i, 0 ≤ x.value i) (hX : ∀ i, x.value i ≤ X) (hY : ∀ i, |y.value i| ≤ Y)
    (hM : ∀ i v, |v - x.value i * (1 - y.value i / 2 ^ d) ^ 2 ^ d| ≤ x.value i * squareErr (n / 2 ^ k) d |1 - y.value i / 2 ^ d| (n / 2 ^ k) + n / 2 ^ k → |1 - v| ≤ M) :
    Sat ((mpcOps n q method).logStep d order x y) fun z => z.scale = 2 ^ k ∧ ∀ i, ∃ v,
      |v - x.value i * (1 - y.value i / 2 ^ d) ^ 2 ^ d| ≤ x.value i * squareErr (n / 2 ^ k) d |1 - y.value i / 2 ^ d| (n / 2 ^ k) + n / 2 ^ k ∧
      |z.value i - (y.value i - logSum order (1 - v))| ≤ polyErr n k (r + 1) M (logCoeffs order) := by
  have hp : (0 : ℚ) < 2 ^ k := by positivity
  have hδ0 : (0 : ℚ) ≤ n / 2 ^ k := by positivity
  have hd0 : (0 : ℚ) < 2 ^ d := by positivity
  have hxq := scaleQ_of hx
  have hyq := scaleQ_of hy
  have hneg : ∀ i, y.neg.value i = -y.value i := fun i => neg_value_of hy (hY i) hf.iterate
  have hbase : ∀ i, 1 + y.neg.value i / 2 ^ d = 1 - y.value i / 2 ^ d := fun i => by rw [hneg]; ring
  have hw : ∀ i, |1 - y.value i / 2 ^ d| ≤ 1 + Y / 2 ^ d := fun i => by
    refine (abs_sub _ _).trans ?_
    rw [abs_one, abs_div, abs_of_pos hd0]
    have := div_le_div_of_nonneg_right (hY i) hd0.le
    linarith
  obtain ⟨W, hW⟩ : ∃ W : ℚ, (1 + Y / 2 ^ d) = W := ⟨_, rfl⟩
  -- the exponential
  refine Sat.bind (C53_exp_encrypted_entries hn q method hk d hd y.neg hy (fun i => |1 - y.value i / 2 ^ d|) (fun i => by rw [hbase]) (fun i => ?_) fun i => ?_) fun e he => ?_
  · exact lt_of_le_of_lt (mul_le_mul_of_nonneg_left (add_le_add (hw i) le_rfl) hp.le) hf.base
  · exact squareFits_mono k _ hδ0 d _ _ _ _ (abs_nonneg _) (hw i) hδ0 le_rfl hf.squares
  obtain ⟨hes, hev⟩ := he
  have heq := scaleQ_of hes
  have hev' : ∀ i, |e.value i - (1 - y.value i / 2 ^ d) ^ 2 ^ d| ≤ squareErr (n / 2 ^ k) d |1 - y.value i / 2 ^ d| (n / 2 ^ k) := fun i => by have := hev i; rwa [hbase] at this
  have hea : ∀ i, |e.value i| ≤ (1 + Y / 2 ^ d) ^ 2 ^ d + squareErr (n / 2 ^ k) d (1 + Y / 2 ^ d) (n / 2 ^ k) := fun i =>
    (abs_near (hev' i) (pow_abs_le_of (hw i) _)).trans (add_le_add le_rfl (squareErr_mono _ hδ0 d _ _ _ _ (abs_nonneg _) (hw i) hδ0 le_rfl))
  -- the product
  refine Sat.bind (C56_mul_equal_scales hn (elementwise ι) x e k hk0 hk hx hes fun i => ?_) fun t ht => ?_
  · rw [heq, hxq, bilinearQ_elementwise]
    refine fits_scaled (b := X * ((1 + Y / 2 ^ d) ^ 2 ^ d + squareErr (n / 2 ^ k) d (1 + Y / 2 ^ d) (n / 2 ^ k))) ?_ (by positivity) hf.product
    rw [abs_mul, abs_of_nonneg (hx0 i)]
    exact mul_le_mul (hX i) (hea i) (abs_nonneg _) ((hx0 i).trans (hX i))
  have hts : t.scale = 2 ^ k := ht.1.trans hx
  have htv : ∀ i, |t.value i - x.value i * (1 - y.value i / 2 ^ d) ^ 2 ^ d| ≤ x.value i * squareErr (n / 2 ^ k) d |1 - y.value i / 2 ^ d| (n / 2 ^ k) + n / 2 ^ k := fun i => by
    have h1 := (ht.2 i).le
    rw [hxq, bilinearQ_elementwise] at h1
    have h2 := abs_add_le (t.value i - x.value i * e.value i) (x.value i * e.value i - x.value i * (1 - y.value i / 2 ^ d) ^ 2 ^ d)
    rw [sub_add_sub_cancel] at h2
    have h3 : |x.value i * e.value i - x.value i * (1 - y.value i / 2 ^ d) ^ 2 ^ d| ≤ x.value i * squareErr (n / 2 ^ k) d |1 - y.value i / 2 ^ d| (n / 2 ^ k) := by
      rw [← mul_sub, abs_mul, abs_of_nonneg (hx0 i)]
      exact mul_le_mul_of_nonneg_left (hev' i) (hx0 i)
    linarith
  have hMt : ∀ i, |1 - t.value i| ≤ M := fun i => hM i _ (htv i)
  have hYn : 0 ≤ Y := hf.nonneg
  have hE0 : 0 ≤ squareErr ((n : ℚ) / 2 ^ k) (r + 1) M 0 := squareErr_nonneg _ hδ0 _ _ _ (by linarith [hf.one]) le_rfl
  have hM0 : 0 ≤ M := by linarith [hf.one]
  have hbig0 : (0 : ℚ) ≤ order * ((M ^ 2 ^ (r + 1) + squareErr (n / 2 ^ k) (r + 1) M 0) * (1 + 1 / 2 ^ k) + n / 2 ^ k) := by positivity
  have hpe0 : (0 : ℚ) ≤ polyErr n k (r + 1) M (logCoeffs order) := by
    unfold polyErr
    have : 0 ≤ ((logCoeffs order).map fun c => |c|).sum := List.sum_nonneg fun c hc => by
      obtain ⟨c', _, rfl⟩ := List.mem_map.1 hc
      exact abs_nonneg _
    positivity
  have hM1 : 2 ^ k * (M + 1) < (2 : ℚ) ^ 63 := by
    refine lt_of_le_of_lt (mul_le_mul_of_nonneg_left ?_ hp.le) hf.total
    linarith
  have htneg : ∀ i, t.neg.value i = -t.value i := fun i => by
    refine neg_value_of hts (B := M + 1) ?_ hM1
    have h1 := hMt i
    have h2 : t.value i = 1 - (1 - t.value i) := by ring
    rw [h2]
    refine (abs_sub _ _).trans ?_
    rw [abs_one]; linarith
  have hh : ∀ i, ((mpcOps n q method).rsubNum 1 t).value i = 1 - t.value i := fun i => by
    have h1 : |t.neg.value i + ((1 : ℤ) : ℚ)| ≤ M + 1 := by
      rw [htneg]
      have h2 : -t.value i + ((1 : ℤ) : ℚ) = 1 - t.value i := by push_cast; ring
      rw [h2]; linarith [hMt i]
    have h3 := addInt_value (x := t.neg) (k := k) hts 1 h1 hM1
    have e1 : ((mpcOps n q method).rsubNum 1 t) = t.neg.addPub fun _ => ((1 : ℤ) : ℚ) := by
      show t.neg.addPub (fun _ => 1) = _
      norm_num
    rw [e1, h3, htneg]
    push_cast; ring
  -- the polynomial
  have hlen : (logCoeffs order).length = order := by simp [logCoeffs]
  have hC : ∀ c ∈ logCoeffs order, |c| ≤ 1 := fun c hc => by
    simp only [logCoeffs, List.mem_map] at hc
    obtain ⟨i, _, rfl⟩ := hc
    rw [abs_of_pos (by positivity), div_le_one (by positivity)]
    have : (0 : ℚ) ≤ i := Nat.cast_nonneg i
    linarith
  refine Sat.bind (P := fun z => z.scale = 2 ^ k ∧ ∀ i, |z.value i - logSum order (1 - t.value i)| ≤ polyErr n k (r + 1) M (logCoeffs order)) ?_ fun z hz => ?_
  · refine (C27_polynomial_shares hn q method hk0 hk ((mpcOps n q method).rsubNum 1 t) hts M hf.one (fun i => by rw [hh]; exact hMt i) (logCoeffs order) (by rw [hlen]; exact hf.terms.1) r
      (by rw [hlen]; exact hf.terms.2) hf.powers 1 hC ?_ hf.coeff ?_).mono fun z hz => ⟨hz.1, fun i => ?_⟩
    · refine lt_of_le_of_lt (mul_le_mul_of_nonneg_left ?_ hp.le) hM1
      linarith
    · rw [hlen]
      refine lt_of_le_of_lt (mul_le_mul_of_nonneg_left ?_ hp.le) hf.total
      linarith
    · have := hz.2 i
      rwa [hh, logSum_eq] at this
  have hzs := scaleQ_of hz.1
  have hmax : max y.scale z.scale = 2 ^ k := by rw [hy, hz.1, max_self]
  refine (C56_sub y z ⟨by rw [hy]; exact Nat.two_pow_pos k, by rw [hz.1]; exact Nat.two_pow_pos k, Or.inl (by rw [hy, hz.1])⟩ fun i => ?_).sat.mono fun w hw => ⟨hw.1.trans hmax, fun i => ⟨t.value i, htv i, ?_⟩⟩
  · rw [hmax]
    push_cast
    refine fits_scaled (b := Y + (M + 1) + order * ((M ^ 2 ^ (r + 1) + squareErr (n / 2 ^ k) (r + 1) M 0) * (1 + 1 / 2 ^ k) + n / 2 ^ k) + polyErr n k (r + 1) M (logCoeffs order)) ?_ hp hf.total
    have h1 : |logSum order (1 - t.value i)| ≤ order * ((M ^ 2 ^ (r + 1) + squareErr (n / 2 ^ k) (r + 1) M 0) * (1 + 1 / 2 ^ k) + n / 2 ^ k) := by
      unfold logSum
      refine (Finset.abs_sum_le_sum_abs _ _).trans ?_
      have h2 : ∀ j ∈ Finset.range order, |(1 - t.value i) ^ (j + 1) / ((j : ℚ) + 1)| ≤ M ^ 2 ^ (r + 1) := fun j hj => by
        rw [abs_div, abs_of_pos (by positivity : (0 : ℚ) < (j : ℚ) + 1)]
        refine (div_le_self (abs_nonneg _) (by linarith [Nat.cast_nonneg (α := ℚ) j])).trans ((pow_abs_le_of (hMt i) _).trans (pow_le_pow_right₀ hf.one ?_))
        have := Finset.mem_range.1 hj
        have := hf.terms.2
        omega
      refine (Finset.sum_le_sum h2).trans ?_
      rw [Finset.sum_const, Finset.card_range, nsmul_eq_mul]
      refine mul_le_mul_of_nonneg_left ?_ (Nat.cast_nonneg _)
      have h3 : 0 ≤ (1 : ℚ) / 2 ^ k := by positivity
      have h4 : 0 ≤ M ^ 2 ^ (r + 1) := by positivity
      nlinarith [mul_nonneg (add_nonneg h4 hE0) h3]
    have h2 := abs_near (hz.2 i) h1
    refine (abs_sub _ _).trans ?_
    linarith [hY i]
  · rw [hw.2]
    have e1 : y.value i - z.value i - (y.value i - logSum order (1 - t.value i)) = -(z.value i - logSum order (1 - t.value i)) := by ring
    rw [e1, abs_neg]
    exact hz.2 i

/-- The initial value of the logarithm on shares: `x / 120 - 20 exp(-(2 x + 1)) + 3`. -/
theorem sat_logInit [NeZero n] (hn : n < 2 ^ 60) (q : ℕ) (method : MaxMethod) (hk : k ≤ 62) (c : FunCfg) (hd : c.expIterations ≤ 62)
    (hsmall : squareErr (n / 2 ^ k) c.expIterations 1 (n / 2 ^ k) ≤ 1) (hsq : SquareFits k (n / 2 ^ k) c.expIterations 1 (n / 2 ^ k)) (X : ℚ) (hbig : 2 ^ k * (2 * X + 50) < 2 ^ 63)
    (hone : ((3 : ℚ) * n + 2) / 2 ^ k ≤ 1) (x : AST n ι) (hx : x.scale = 2 ^ k) (hx0 : ∀ i, 0 ≤ x.value i) (hX : ∀ i, x.value i ≤ X) (hrange : ∀ i, 2 * x.value i + 1 ≤ 2 ^ c.expIterations) :
    Sat ((mpcOps n q method).logInit c x) fun y => y.scale = 2 ^ k ∧ ∀ i,
      |y.value i - (x.value i / 120 - 20 * (1 - (2 * x.value i + 1) / 2 ^ c.expIterations) ^ 2 ^ c.expIterations + 3)| ≤
        20 * squareErr (n / 2 ^ k) c.expIterations (1 - (2 * x.value i + 1) / 2 ^ c.expIterations) (n / 2 ^ k) + (3 * n + 2) / 2 ^ k := by
  unfold Ops.logInit
  generalize c.expIterations = d at *
  have hp : (0 : ℚ) < 2 ^ k := by positivity
  have hδ0 : (0 : ℚ) ≤ n / 2 ^ k := by positivity
  have hd0 : (0 : ℚ) < 2 ^ d := by positivity
  have hδ1 : (n : ℚ) / 2 ^ k ≤ 1 := by
    refine le_trans ?_ hone
    refine div_le_div_of_nonneg_right ?_ hp.le
    have : (0 : ℚ) ≤ n := Nat.cast_nonneg n
    linarith
  have hfit : ∀ (i : ι) (b : ℚ), b ≤ 2 * x.value i + 50 → 2 ^ k * b < (2 : ℚ) ^ 63 := fun i b hb =>
    lt_of_le_of_lt (mul_le_mul_of_nonneg_left (hb.trans (by linarith [hX i])) hp.le) hbig
  refine Sat.bind (near_divInt hn (Near.self hx) 120 (by norm_num) (by norm_num)) fun t1 ht1 => ?_
  have ht1v : ∀ i, |t1.value i - x.value i / 120| ≤ (3 * n + 2) / 2 ^ k := fun i => by
    have := ht1.2 i
    rw [zero_div, zero_add] at this
    exact_mod_cast this
  have h2 : ∀ i, (x.mulInt 2).value i = 2 * x.value i := fun i => by
    rw [mulInt_value x 2 (by rw [hx]; exact Nat.two_pow_pos k) i, mul_comm]
    · norm_num
    · rw [scaleQ_of hx]
      refine fits_scaled (b := 2 * x.value i) ?_ hp (hfit i _ (by linarith))
      push_cast
      rw [abs_of_nonneg (by have := hx0 i; positivity)]; linarith
  have h3 : ∀ i, ((x.mulInt 2).addPub fun _ => ((1 : ℤ) : ℚ)).value i = 2 * x.value i + 1 := fun i => by
    rw [addInt_value (x := x.mulInt 2) (k := k) hx 1 (B := 2 * x.value i + 1) (by rw [h2, abs_of_nonneg (by push_cast; linarith [hx0 i])]; push_cast; rfl) (hfit i _ (by linarith)), h2]
    norm_num
  have e1 : (mpcOps n q method).addNum ((mpcOps n q method).mulInt x 2) 1 = (x.mulInt 2).addPub fun _ => ((1 : ℤ) : ℚ) := by
    show (x.mulInt 2).addPub (fun _ => 1) = _
    norm_num
  rw [e1]
  have h4 : ∀ i, ((x.mulInt 2).addPub fun _ => ((1 : ℤ) : ℚ)).neg.value i = -(2 * x.value i + 1) := fun i => by
    rw [neg_value_of (x := (x.mulInt 2).addPub fun _ => ((1 : ℤ) : ℚ)) (k := k) hx (B := 2 * x.value i + 1) (by rw [h3, abs_of_nonneg (by linarith [hx0 i])]) (hfit i _ (by linarith)), h3]
  have hb : ∀ i, 1 + ((x.mulInt 2).addPub fun _ => ((1 : ℤ) : ℚ)).neg.value i / 2 ^ d = 1 - (2 * x.value i + 1) / 2 ^ d := fun i => by rw [h4]; ring
  have hw0 : ∀ i, 0 ≤ 1 - (2 * x.value i + 1) / 2 ^ d := fun i => by
    have : (2 * x.value i + 1) / 2 ^ d ≤ 1 := by rw [div_le_one hd0]; exact hrange i
    linarith
  have hw1 : ∀ i, 1 - (2 * x.value i + 1) / 2 ^ d ≤ 1 := fun i => by
    have : 0 ≤ (2 * x.value i + 1) / 2 ^ d := div_nonneg (by linarith [hx0 i]) hd0.le
    linarith
  refine Sat.bind (C53_exp_encrypted_entries hn q method hk d hd ((x.mulInt 2).addPub fun _ => ((1 : ℤ) : ℚ)).neg hx (fun i => 1 - (2 * x.value i + 1) / 2 ^ d)
    (fun i => by rw [hb, abs_of_nonneg (hw0 i)]) (fun i => hfit i _ (by linarith [hw1 i, hx0 i]))
    fun i => squareFits_mono k _ hδ0 d _ 1 _ _ (hw0 i) (hw1 i) hδ0 le_rfl hsq) fun e he => ?_
  obtain ⟨hes, hev⟩ := he
  have hev' : ∀ i, |e.value i - (1 - (2 * x.value i + 1) / 2 ^ d) ^ 2 ^ d| ≤ squareErr (n / 2 ^ k) d (1 - (2 * x.value i + 1) / 2 ^ d) (n / 2 ^ k) := fun i => by
    have := hev i; rwa [hb] at this
  have hea : ∀ i, |e.value i| ≤ 2 := fun i => by
    have h5 := abs_near (hev' i) (B := 1) (by rw [abs_of_nonneg (pow_nonneg (hw0 i) _)]; exact pow_le_one₀ (hw0 i) (hw1 i))
    have h6 := (squareErr_mono _ hδ0 d _ _ _ _ (hw0 i) (hw1 i) hδ0 le_rfl).trans hsmall
    linarith
  have h5 : ∀ i, (e.mulInt 20).value i = 20 * e.value i := fun i => by
    rw [mulInt_value e 20 (by rw [hes]; exact Nat.two_pow_pos k) i, mul_comm]
    · norm_num
    · rw [scaleQ_of hes]
      refine fits_scaled (b := 40) ?_ hp (hfit i _ (by linarith [hx0 i]))
      push_cast
      rw [abs_mul, abs_of_pos (by norm_num : (0 : ℚ) < 20)]
      linarith [hea i]
  have ht1a : ∀ i, |t1.value i| ≤ x.value i + 1 := fun i => by
    have h6 := abs_near (ht1v i) (abs_of_nonneg (div_nonneg (hx0 i) (by norm_num))).le
    have := hx0 i
    linarith
  have hmax : max t1.scale (e.mulInt 20).scale = 2 ^ k := by show max t1.scale e.scale = _; rw [ht1.1, hes, max_self]
  refine Sat.bind (P := fun z => z.scale = 2 ^ k ∧ ∀ i, z.value i = t1.value i - 20 * e.value i) ?_ fun z hz => ?_
  · refine (C56_sub t1 (e.mulInt 20) ⟨by rw [ht1.1]; exact Nat.two_pow_pos k, by show 0 < e.scale; rw [hes]; exact Nat.two_pow_pos k, Or.inl (by show t1.scale ∣ e.scale; rw [ht1.1, hes])⟩
      fun i => ?_).sat.mono fun z hz => ⟨hz.1.trans hmax, fun i => by rw [hz.2, h5]⟩
    rw [hmax, h5]
    push_cast
    refine fits_scaled (b := x.value i + 1 + 40) ?_ hp (hfit i _ (by linarith [hx0 i]))
    refine (abs_sub _ _).trans ?_
    rw [abs_mul, abs_of_pos (by norm_num : (0 : ℚ) < 20)]
    linarith [hea i, ht1a i]
  have e3 : (mpcOps n q method).addNum z 3 = z.addPub fun _ => ((3 : ℤ) : ℚ) := by
    show z.addPub (fun _ => 3) = _
    norm_num
  rw [e3]
  refine Sat.pure ⟨hz.1, fun i => ?_⟩
  rw [addInt_value (k := k) hz.1 3 (B := x.value i + 1 + 40 + 3) ?_ (hfit i _ (by linarith [hx0 i])), hz.2]
  · have e4 : t1.value i - 20 * e.value i + ((3 : ℤ) : ℚ) - (x.value i / 120 - 20 * (1 - (2 * x.value i + 1) / 2 ^ d) ^ 2 ^ d + 3) =
        (t1.value i - x.value i / 120) - 20 * (e.value i - (1 - (2 * x.value i + 1) / 2 ^ d) ^ 2 ^ d) := by push_cast; ring
    rw [e4]
    refine (abs_sub _ _).trans ?_
    rw [abs_mul, abs_of_pos (by norm_num : (0 : ℚ) < 20)]
    linarith [hev' i, ht1v i]
  · rw [hz.2]
    refine (abs_add_le _ _).trans (add_le_add ((abs_sub _ _).trans ?_) (by norm_num))
    rw [abs_mul, abs_of_pos (by norm_num : (0 : ℚ) < 20)]
    linarith [hea i, ht1a i]

/-! ## Real analysis -/

/-- The remainder `-ln v - ∑ (1 - v) ^ j / j`. -/
noncomputable def logRest (v : ℝ) : ℝ := -Real.log v - ∑ j ∈ Finset.range 8, (1 - v) ^ (j + 1) / (j + 1)

theorem logRest_deriv {v : ℝ} (hv : 0 < v) : HasDerivAt logRest (-((1 - v) ^ 8 / v)) v := by
  have h1 : HasDerivAt (fun v : ℝ => -Real.log v) (-(v⁻¹)) v := (Real.hasDerivAt_log hv.ne').neg
  have h2 : HasDerivAt (fun v : ℝ => ∑ j ∈ Finset.range 8, (1 - v) ^ (j + 1) / ((j : ℝ) + 1)) (∑ j ∈ Finset.range 8, -(1 - v) ^ j) v := by
    refine HasDerivAt.fun_sum fun j _ => ?_
    have h3 : HasDerivAt (fun v : ℝ => (1 - v) ^ (j + 1) / ((j : ℝ) + 1)) (((j + 1 : ℕ) : ℝ) * (1 - v) ^ (j + 1 - 1) * (-1) / ((j : ℝ) + 1)) v :=
      (((hasDerivAt_id v).const_sub 1).pow (j + 1)).div_const _
    refine h3.congr_deriv ?_
    have : (j : ℝ) + 1 ≠ 0 := by positivity
    rw [Nat.add_sub_cancel]
    push_cast
    field_simp
  have h4 := h1.sub h2
  refine h4.congr_deriv ?_
  simp only [Finset.sum_range_succ, Finset.sum_range_zero]
  field_simp
  ring

theorem logRest_one : logRest 1 = 0 := by simp [logRest]

theorem logRest_anti : AntitoneOn logRest (Set.Ioi 0) := by
  refine antitoneOn_of_deriv_nonpos (convex_Ioi 0) (fun v hv => (logRest_deriv hv).continuousAt.continuousWithinAt) (fun v hv => ?_) fun v hv => ?_
  · rw [interior_Ioi] at hv
    exact (logRest_deriv hv).differentiableAt.differentiableWithinAt
  · rw [interior_Ioi] at hv
    rw [(logRest_deriv hv).deriv]
    have : 0 ≤ (1 - v) ^ 8 / v := div_nonneg (Even.pow_nonneg (by decide) _) (le_of_lt hv)
    linarith

/-- Below 1. -/
theorem logRest_le {a : ℝ} (ha : 0 < a) (h1 : a ≤ 1) : logRest a ≤ (1 - a) ^ 9 / (9 * a) := by
  have hd : ∀ v : ℝ, 0 < v → HasDerivAt (fun v => (1 - v) ^ 9 / (9 * v) - logRest v) (-((1 - v) ^ 9 / (9 * v ^ 2))) v := fun v hv => by
    have h2 : HasDerivAt (fun v : ℝ => (1 - v) ^ 9) (((9 : ℕ) : ℝ) * (1 - v) ^ (9 - 1) * (-1)) v := ((hasDerivAt_id v).const_sub 1).pow 9
    have h3 : HasDerivAt (fun v : ℝ => 9 * v) 9 v := by simpa using (hasDerivAt_id v).const_mul (9 : ℝ)
    have h4 := (h2.div h3 (by positivity)).sub (logRest_deriv hv)
    refine h4.congr_deriv ?_
    push_cast
    field_simp
    ring
  have hanti : AntitoneOn (fun v => (1 - v) ^ 9 / (9 * v) - logRest v) (Set.Icc a 1) := by
    refine antitoneOn_of_deriv_nonpos (convex_Icc a 1) (fun v hv => (hd v (lt_of_lt_of_le ha hv.1)).continuousAt.continuousWithinAt) (fun v hv => ?_) fun v hv => ?_
    · rw [interior_Icc] at hv
      exact (hd v (ha.trans hv.1)).differentiableAt.differentiableWithinAt
    · rw [interior_Icc] at hv
      rw [(hd v (ha.trans hv.1)).deriv]
      have : 0 ≤ (1 - v) ^ 9 / (9 * v ^ 2) := div_nonneg (pow_nonneg (by linarith [hv.2]) _) (by positivity)
      linarith
  have := hanti (Set.left_mem_Icc.2 h1) (Set.right_mem_Icc.2 h1) h1
  simp only [logRest_one, sub_self] at this
  norm_num at this
  linarith

/-- Above 1. -/
theorem le_logRest {b : ℝ} (h1 : 1 ≤ b) : -((b - 1) ^ 9 / (8 * b)) ≤ logRest b := by
  have hd : ∀ v : ℝ, 0 < v → HasDerivAt (fun v => (v - 1) ^ 9 / (8 * v) + logRest v) ((v - 1) ^ 8 / (8 * v ^ 2)) v := fun v hv => by
    have h2 : HasDerivAt (fun v : ℝ => (v - 1) ^ 9) (((9 : ℕ) : ℝ) * (v - 1) ^ (9 - 1) * 1) v := ((hasDerivAt_id v).sub_const 1).pow 9
    have h3 : HasDerivAt (fun v : ℝ => 8 * v) 8 v := by simpa using (hasDerivAt_id v).const_mul (8 : ℝ)
    have h4 := (h2.div h3 (by positivity)).add (logRest_deriv hv)
    refine h4.congr_deriv ?_
    push_cast
    field_simp
    ring
  have hmono : MonotoneOn (fun v => (v - 1) ^ 9 / (8 * v) + logRest v) (Set.Icc 1 b) := by
    refine monotoneOn_of_deriv_nonneg (convex_Icc 1 b) (fun v hv => (hd v (lt_of_lt_of_le one_pos hv.1)).continuousAt.continuousWithinAt) (fun v hv => ?_) fun v hv => ?_
    · rw [interior_Icc] at hv
      exact (hd v (one_pos.trans hv.1)).differentiableAt.differentiableWithinAt
    · rw [interior_Icc] at hv
      rw [(hd v (one_pos.trans hv.1)).deriv]
      exact div_nonneg (Even.pow_nonneg (by decide) _) (by positivity)
  have := hmono (Set.left_mem_Icc.2 h1) (Set.right_mem_Icc.2 h1) h1
  simp only [logRest_one, sub_self] at this
  norm_num at this
  linarith

/-- `256 ln (1 - y / 256)` is `-y`, up to `y ^ 2 / 488`. -/
theorem log_base {y : ℝ} (hy : |y| ≤ 6) : 256 * Real.log (1 - y / 256) ≤ -y ∧ -y - y ^ 2 / 488 ≤ 256 * Real.log (1 - y / 256) := by
  obtain ⟨y1, y2⟩ := abs_le.1 hy
  have hu : |y / 256| ≤ 6 / 256 := by rw [abs_div, abs_of_pos (by norm_num : (0 : ℝ) < 256)]; linarith
  have hpos : 0 < 1 - y / 256 := by linarith [(abs_le.1 hu).2]
  constructor
  · have := Real.log_le_sub_one_of_pos hpos
    linarith
  · have h1 := Real.abs_log_sub_add_sum_range_le (x := y / 256) (by linarith) 2
    simp only [Finset.sum_range_succ, Finset.sum_range_zero, zero_add] at h1
    have h2 := (abs_le.1 h1).1
    have h3 : |y / 256| ^ 3 / (1 - |y / 256|) ≤ (6 / 250) * (y / 256) ^ 2 := by
      have h4 : |y / 256| ^ 3 = |y / 256| * (y / 256) ^ 2 := by rw [pow_succ, sq_abs]; ring
      rw [h4, div_le_iff₀ (by linarith)]
      have h5 : |y / 256| ≤ 6 / 250 * (1 - |y / 256|) := by linarith
      nlinarith [sq_nonneg (y / 256)]
    norm_num at h2 h3
    nlinarith [sq_nonneg y]

/-- One iteration in real numbers: if `v` is `x (1 - y / 256) ^ 256` up to a factor of `1 ± μ`, and `z` is `y - ∑ (1 - v) ^ j / j` up to `ε`, then `z` is close to `ln x`. -/
theorem log_step_real {x y v z μ ε a b : ℝ} (hx : 0 < x) (hy : |y| ≤ 6) (hμ : |v - x * (1 - y / 256) ^ 256| ≤ μ * (x * (1 - y / 256) ^ 256)) (hμ1 : μ ≤ 1 / 20)
    (ha : 0 < a) (ha1 : a ≤ 1) (hb1 : 1 ≤ b) (hav : a ≤ v) (hvb : v ≤ b) (hz : |z - (y - ∑ j ∈ Finset.range 8, (1 - v) ^ (j + 1) / ((j : ℝ) + 1))| ≤ ε) :
    z - Real.log x ≤ 20 / 19 * μ + (1 - a) ^ 9 / (9 * a) + ε ∧ -(y ^ 2 / 488 + 20 / 19 * μ + (b - 1) ^ 9 / (8 * b) + ε) ≤ z - Real.log x := by
  have hbase : 0 < 1 - y / 256 := by have := (abs_le.1 hy).2; linarith
  obtain ⟨Q, hQ⟩ : ∃ Q, x * (1 - y / 256) ^ 256 = Q := ⟨_, rfl⟩
  have hlogQ : Real.log Q = Real.log x + 256 * Real.log (1 - y / 256) := by
    rw [← hQ, Real.log_mul hx.ne' (pow_pos hbase _).ne', Real.log_pow]; norm_num
  have hQ0 : 0 < Q := by rw [← hQ]; exact mul_pos hx (pow_pos hbase _)
  rw [hQ] at hμ
  clear hQ
  obtain ⟨g1, g2⟩ := log_base hy
  have hv : 0 < v := lt_of_lt_of_le ha hav
  obtain ⟨m1, m2⟩ := abs_le.1 hμ
  -- the logarithm of v
  have hμ0 : 0 ≤ μ := by
    by_contra h
    have : μ * Q < 0 := mul_neg_of_neg_of_pos (by linarith) hQ0
    linarith [abs_nonneg (v - Q)]
  have hup : Real.log v ≤ Real.log Q + μ := by
    have h1 := Real.log_le_sub_one_of_pos (div_pos hv hQ0)
    rw [Real.log_div hv.ne' hQ0.ne'] at h1
    have h2 : v / Q ≤ 1 + μ := by rw [div_le_iff₀ hQ0]; linarith
    linarith
  have hdn : Real.log Q - 20 / 19 * μ ≤ Real.log v := by
    have h1 := Real.log_le_sub_one_of_pos (div_pos hQ0 hv)
    rw [Real.log_div hQ0.ne' hv.ne'] at h1
    have h2 : Q / v ≤ 1 + 20 / 19 * μ := by
      rw [div_le_iff₀ hv]
      have h3 : (1 - μ) * Q ≤ v := by linarith
      have h4 : 1 ≤ (1 + 20 / 19 * μ) * (1 - μ) := by nlinarith
      calc Q ≤ (1 + 20 / 19 * μ) * (1 - μ) * Q := le_mul_of_one_le_left hQ0.le h4
        _ = (1 + 20 / 19 * μ) * ((1 - μ) * Q) := by ring
        _ ≤ (1 + 20 / 19 * μ) * v := mul_le_mul_of_nonneg_left h3 (by positivity)
    linarith
  have r1 : logRest v ≤ (1 - a) ^ 9 / (9 * a) := (logRest_anti ha hv hav).trans (logRest_le ha ha1)
  have r2 : -((b - 1) ^ 9 / (8 * b)) ≤ logRest v := (le_logRest hb1).trans (logRest_anti hv (lt_of_lt_of_le one_pos hb1) hvb)
  have hs : ∑ j ∈ Finset.range 8, (1 - v) ^ (j + 1) / ((j : ℝ) + 1) = -Real.log v - logRest v := by unfold logRest; ring
  rw [hs] at hz
  obtain ⟨z1, z2⟩ := abs_le.1 hz
  constructor <;> linarith

/-- The relative error of the exponential is the smaller the larger the base. -/
theorem squareErr_relative (δ : ℚ) (hδ : 0 ≤ δ) : ∀ (d : ℕ) (w w' e e' : ℚ), 0 ≤ w' → w' ≤ w → 0 ≤ e → 0 ≤ e' → e * w' ≤ e' * w →
    squareErr δ d w e * w' ^ 2 ^ d ≤ squareErr δ d w' e' * w ^ 2 ^ d
  | 0, w, w', e, e', _, _, _, _, h => by simpa [squareErr] using h
  | d + 1, w, w', e, e', h0, hw, he, he', h => by
    have hw0 : 0 ≤ w := h0.trans hw
    have := squareErr_relative δ hδ d (w * w) (w' * w') (e * (2 * w + e) + δ) (e' * (2 * w' + e') + δ) (by positivity) (mul_le_mul hw hw h0 hw0) (by positivity) (by positivity) (by
      have h1 : (e * w') * (w * w') ≤ (e' * w) * (w * w') := mul_le_mul_of_nonneg_right h (by positivity)
      have h2 : (e * w') * (e * w') ≤ (e' * w) * (e' * w) := mul_le_mul h h (by positivity) (by positivity)
      have h3 : δ * (w' * w') ≤ δ * (w * w) := mul_le_mul_of_nonneg_left (mul_le_mul hw hw h0 hw0) hδ
      nlinarith)
    have e1 : ∀ a : ℚ, a ^ 2 ^ (d + 1) = (a * a) ^ 2 ^ d := fun a => by rw [← sq, ← pow_mul, pow_succ, mul_comm]
    rw [e1, e1]
    exact this

end CrypTen

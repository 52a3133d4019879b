import Verif.Props.Reciprocal
import Verif.Props.Activation

/-!
# sigmoid and tanh as they are computed on shares

The method "reciprocal" (the default): `1 / (1 + exp(-|x|))` by three iterations of Newton's method from 0.75, with the losses of every truncation.
-/

namespace CrypTen
variable {n : ℕ} {ι : Type} {k : ℕ}

/-- Newton's method from a number: the first iteration is `2 q - q² x`, with a public product. -/
theorem C53_reciprocal_from_number_encrypted [NeZero n] (hn : n < 2 ^ 60) (q : ℕ) (method : MaxMethod) (hk0 : 0 < k) (hk : k ≤ 62) (hnk : (n : ℚ) ≤ 2 ^ k) (T : ℕ) (x : AST n ι)
    (hx : x.scale = 2 ^ k) (v : ℚ) (ρ : ι → ℚ) (hx0 : ∀ i, 0 < x.value i) (hfit : ∀ i, RecipFits k (x.value i)) (hv : ∀ i, |1 - x.value i * v| ≤ 1)
    (hρ : ∀ i, (1 - x.value i * v) ^ 2 + x.value i * ((n + 1 + x.value i) / 2 ^ k) ≤ ρ i) (hT : ∀ i, ∀ t < T, newtonErr (recipLoss n k (x.value i)) (ρ i) t ≤ 1) :
    Sat ((mpcOps n q method).recipFromNum (T + 1) x v) fun z => z.scale = 2 ^ k ∧
      ∀ i, |1 - x.value i * z.value i| ≤ newtonErr (recipLoss n k (x.value i)) (ρ i) T := by
  have hxq := scaleQ_of hx
  have hp : (0 : ℚ) < 2 ^ k := by positivity
  have hp1 : (1 : ℚ) ≤ 2 ^ k := one_le_pow₀ (by norm_num)
  have hδ1 : (n : ℚ) / 2 ^ k ≤ 1 := by rw [div_le_one hp]; exact hnk
  have hu1 : (1 : ℚ) / 2 ^ k ≤ 1 := by rw [div_le_one hp]; exact hp1
  have hA : ∀ i, 0 ≤ 4 / x.value i ^ 2 := fun i => by positivity
  have hv2 : ∀ i, |v| ≤ 2 / x.value i := fun i => by
    rw [le_div_iff₀ (hx0 i)]
    have h1 : |v| * x.value i = |x.value i * v| := by rw [abs_mul, abs_of_pos (hx0 i), mul_comm]
    have h2 := abs_near (a := x.value i * v) (b := 1) (e := 1) (by rw [abs_sub_comm]; exact hv i) (abs_one.le : |(1 : ℚ)| ≤ 1)
    rw [h1]; linarith
  have hvv : ∀ i, |v * v| ≤ 4 / x.value i ^ 2 := fun i => by
    have : (4 : ℚ) / x.value i ^ 2 = 2 / x.value i * (2 / x.value i) := by rw [div_mul_div_comm, sq]; norm_num
    rw [abs_mul, this]
    exact mul_le_mul (hv2 i) (hv2 i) (abs_nonneg _) ((abs_nonneg _).trans (hv2 i))
  have h4 : ∀ i, 4 / x.value i ≤ 4 / x.value i ^ 2 + 1 := fun i => by
    have e : 4 / x.value i ^ 2 + 1 - 4 / x.value i = (2 / x.value i - 1) ^ 2 := by
      have := (hx0 i).ne'
      field_simp
      ring
    have := sq_nonneg (2 / x.value i - 1)
    linarith
  have hbig : ∀ i, (2 : ℚ) ^ k * ((4 / x.value i ^ 2 + 1) * (x.value i + 2)) < 2 ^ 63 := fun i => by
    refine lt_of_le_of_lt ?_ (hfit i)
    rw [mul_assoc]
    have := hA i; have := hx0 i
    exact le_mul_of_one_le_left (by positivity) hp1
  have hbig2 : ∀ i, 2 * (2 : ℚ) ^ k * ((4 / x.value i ^ 2 + 1) * (x.value i + 2)) < 2 ^ 63 := fun i => by
    have hp2 : (2 : ℚ) ≤ 2 ^ k := by
      calc (2 : ℚ) = 2 ^ 1 := by norm_num
        _ ≤ 2 ^ k := pow_le_pow_right₀ (by norm_num) hk0
    have := hx0 i
    exact lt_of_le_of_lt (mul_le_mul_of_nonneg_right (mul_le_mul_of_nonneg_right hp2 hp.le) (by positivity)) (hfit i)
  obtain ⟨c, hc⟩ : ∃ c, (truncQ (2 ^ k * (v * v)) : ℚ) / 2 ^ k = c := ⟨_, rfl⟩
  have hcn : |c - v * v| ≤ 1 / 2 ^ k := by rw [← hc]; exact trunc_any k (v * v)
  have hca : ∀ i, |c| ≤ 4 / x.value i ^ 2 + 1 := fun i => (abs_near hcn (hvv i)).trans (by linarith)
  have hxc : ∀ i, |x.value i * c| ≤ (4 / x.value i ^ 2 + 1) * x.value i := fun i => by
    rw [abs_mul, abs_of_pos (hx0 i), mul_comm]; exact mul_le_mul_of_nonneg_right (hca i) (hx0 i).le
  refine Sat.bind (C56_mul_public hn (elementwise ι) x (fun _ => v * v) k hk0 hk hx (fun i => ?_) fun i => ?_) fun t ht => ?_
  · rw [hxq, abs_mul, abs_of_pos hp]
    refine lt_of_le_of_lt (mul_le_mul_of_nonneg_left ?_ hp.le) (hbig i)
    have h1 := hvv i; have h2 := hA i; have h3 := hx0 i
    nlinarith
  · rw [bilinearQ_elementwise, hxq, hc]
    refine fits_scaled (hxc i) (by positivity) (lt_of_le_of_lt (mul_le_mul_of_nonneg_left ?_ (by positivity)) (hfit i))
    have := hA i; have := hx0 i
    nlinarith
  have ht1 : t.scale = 2 ^ k := ht.1.trans hx
  have htq := scaleQ_of ht1
  have ht2 : ∀ i, |t.value i - x.value i * c| ≤ n / 2 ^ k := fun i => by
    have := ht.2 i; rw [bilinearQ_elementwise, hxq, hc] at this; exact this.le
  have hta : ∀ i, |t.value i| ≤ (4 / x.value i ^ 2 + 1) * x.value i + 1 := fun i => (abs_near (ht2 i) (hxc i)).trans (by linarith)
  have hts : 0 < t.scale := by rw [ht1]; exact Nat.two_pow_pos k
  have hneg : ∀ i, t.neg.value i = -t.value i := fun i => by
    refine neg_value hts i fun h' => ?_
    rw [htq] at h'
    have h1 : |(2 : ℚ) ^ k * t.value i| < 2 ^ 63 := by
      rw [abs_mul, abs_of_pos hp]
      refine lt_of_le_of_lt (mul_le_mul_of_nonneg_left ((hta i).trans ?_) hp.le) (hbig i)
      have h2 := hA i; have h3 := hx0 i
      nlinarith
    rw [h', abs_neg, abs_of_pos (by positivity)] at h1
    exact lt_irrefl _ h1
  obtain ⟨b, hb⟩ : ∃ b, (truncQ (2 ^ k * (2 * v)) : ℚ) / 2 ^ k = b := ⟨_, rfl⟩
  have hbn : |b - 2 * v| ≤ 1 / 2 ^ k := by rw [← hb]; exact trunc_any k (2 * v)
  have hval : ∀ i, (t.neg.addPub fun _ => 2 * v).value i = b - t.value i := fun i => by
    have hq : ((t.neg).scale : ℚ) = 2 ^ k := htq
    rw [addPub_value t.neg _ hts i, hq, hb, hneg]; · ring
    rw [hq, hb, hneg]
    refine fits_scaled (b := 2 * ((4 / x.value i ^ 2 + 1) * (x.value i + 2))) ?_ hp (lt_of_le_of_lt (by linarith) (hbig2 i))
    have h1 := hta i
    have h2 := abs_near hbn (B := 4 / x.value i) (by
      rw [abs_mul, abs_two]; have := hv2 i
      have e : 4 / x.value i = 2 * (2 / x.value i) := by ring
      rw [e]; linarith)
    have h3 := abs_add_le (-t.value i) b
    rw [abs_neg] at h3
    have h5 := h4 i; have h6 := hA i; have h7 := hx0 i
    nlinarith
  refine sat_recipLoop hn q method hk0 hk hnk x hx hx0 hfit T (t.neg.addPub fun _ => 2 * v) ρ ht1 (fun i => ?_) hT
  rw [hval]
  refine le_trans ?_ (hρ i)
  have e : 1 - x.value i * (b - t.value i) = (1 - x.value i * v) ^ 2 + x.value i * ((t.value i - x.value i * c) + x.value i * (c - v * v) - (b - 2 * v)) := by ring
  rw [e]
  have h1 : |x.value i * (c - v * v)| ≤ x.value i * (1 / 2 ^ k) := by
    rw [abs_mul, abs_of_pos (hx0 i)]; exact mul_le_mul_of_nonneg_left hcn (hx0 i).le
  refine (abs_add_le _ _).trans (add_le_add (abs_of_nonneg (sq_nonneg _)).le ?_)
  rw [abs_mul, abs_of_pos (hx0 i)]
  refine mul_le_mul_of_nonneg_left ((abs_sub _ _).trans ((add_le_add ((abs_add_le _ _).trans (add_le_add (ht2 i) h1)) hbn).trans (le_of_eq (by ring)))) (hx0 i).le

theorem exp_unit {d : ℕ} (hd : 0 < d) {y : ℚ} (hy : |y| ≤ 2 ^ (d + 1)) : 0 ≤ (1 - |y| / 2 ^ d) ^ 2 ^ d ∧ (1 - |y| / 2 ^ d) ^ 2 ^ d ≤ 1 ∧ |1 - |y| / 2 ^ d| ≤ 1 := by
  have hp : (0 : ℚ) < 2 ^ d := by positivity
  have h1 : |1 - |y| / 2 ^ d| ≤ 1 := by
    have h2 : 0 ≤ |y| / 2 ^ d := by positivity
    have h3 : |y| / 2 ^ d ≤ 2 := by rw [div_le_iff₀ hp]; rw [pow_succ] at hy; linarith
    rw [abs_le]; constructor <;> linarith
  refine ⟨Even.pow_nonneg (even_two_pow hd) _, ?_, h1⟩
  have : |(1 - |y| / 2 ^ d) ^ 2 ^ d| ≤ 1 := by rw [abs_pow]; exact pow_le_one₀ (abs_nonneg _) h1
  exact (le_abs_self _).trans this

theorem newtonErr_mono2 {η η' ρ ρ' : ℚ} (hη0 : 0 ≤ η) (h : η ≤ η') (hρ : 0 ≤ ρ) (hρ' : ρ ≤ ρ') (t : ℕ) : newtonErr η ρ t ≤ newtonErr η' ρ' t := by
  induction t with
  | zero => exact hρ'
  | succ t ih => exact add_le_add (pow_le_pow_left₀ (newtonErr_nonneg hη0 hρ t) ih 2) h

/-- **C53, sigmoid on shares** (method "reciprocal"): up to the error that the squarings of `exp` and three iterations of Newton's method accumulate, the result is the logistic
function with `exp` replaced by its approximation. -/
theorem C53_sigmoid_encrypted [NeZero n] (hn : n < 2 ^ 60) (method : MaxMethod) (hk : k ≤ 29) (hnk : 100 * (n : ℚ) ≤ 2 ^ k) (c : FunCfg)
    (hm : c.recipMethod = .nr) (hd0 : 0 < c.expIterations) (hd : c.expIterations ≤ 62) (x : AST n ι) (hx : x.scale = 2 ^ k) (hx1 : ∀ i, |x.value i| ≤ 2 ^ (c.expIterations + 1))
    (η : ℚ) (hη : squareErr (n / 2 ^ k) c.expIterations 1 (n / 2 ^ k) ≤ η) (hη1 : η ≤ 1 / 8) (hsq : SquareFits k (n / 2 ^ k) c.expIterations 1 (n / 2 ^ k))
    (hfit : 2 ^ k * (2 : ℚ) ^ (c.expIterations + 1) < 2 ^ 63) :
    Sat ((mpcOps n k method).sigmoidReciprocal c x) fun z => z.scale = 2 ^ k ∧ ∀ i, |z.value i - logisticApprox c.expIterations (x.value i)| ≤ sigmoidErr (n / 2 ^ k) η := by
  have hp : (0 : ℚ) < 2 ^ k := by positivity
  have hn1 : (1 : ℚ) ≤ n := by exact_mod_cast Nat.one_le_iff_ne_zero.2 (NeZero.ne n)
  have hk0 : 0 < k := by
    rcases Nat.eq_zero_or_pos k with h | h
    · subst h; norm_num at hnk; linarith
    · exact h
  have hk29 : (2 : ℚ) ^ k ≤ 2 ^ 29 := pow_le_pow_right₀ (by norm_num) hk
  have hδ0 : (0 : ℚ) ≤ n / 2 ^ k := by positivity
  have hδ1 : (n : ℚ) / 2 ^ k ≤ 1 / 100 := by rw [div_le_iff₀ hp]; linarith
  have hu : (1 : ℚ) / 2 ^ k ≤ n / 2 ^ k := div_le_div_of_nonneg_right hn1 hp.le
  have hxq := scaleQ_of hx
  have hxs : 0 < x.scale := by rw [hx]; exact Nat.two_pow_pos k
  have hsg : ∀ i, x.value i * (if x.value i < 0 then (-1 : ℚ) else 1) = |x.value i| := fun i => by
    split
    · rename_i h; rw [abs_of_neg h]; ring
    · rename_i h; rw [abs_of_nonneg (not_lt.1 h)]; ring
  have hp1 : (1 : ℚ) ≤ 2 ^ k := one_le_pow₀ (by norm_num)
  refine Sat.bind (sat_ltz (2 ^ k) (Nat.two_pow_pos k) x (Or.inr hx)).sat fun l hl => ?_
  have hlv : ∀ i, l.value i = if x.value i < 0 then 1 else 0 := fun i => by
    rw [hl.value i]; simp only [value_neg_iff hxs, decide_eq_true_eq]
  -- the sign
  have hl2 : ∀ i, (l.mulInt 2).value i = l.value i * (2 : ℤ) := fun i => by
    refine mulInt_value l 2 (by rw [hl.1]; exact one_pos) i ?_
    rw [hlv, hl.1]
    split <;> (unfold Fits; norm_num)
  have htr1 : (truncQ (((l.mulInt 2).neg.scale : ℚ) * 1) : ℚ) / (l.mulInt 2).neg.scale = 1 := by
    show (truncQ ((l.scale : ℚ) * 1) : ℚ) / l.scale = 1
    rw [hl.1, Nat.cast_one, one_mul, truncQ_one]; norm_num
  have hneg : ∀ i, (l.mulInt 2).neg.value i = -(l.value i * 2) := fun i => by
    rw [neg_value (x := l.mulInt 2) (by show 0 < l.scale; rw [hl.1]; exact one_pos) i, hl2]; · push_cast; rfl
    rw [hl2]
    show (l.scale : ℚ) * _ ≠ _
    rw [hl.1, hlv]
    split <;> norm_num
  have hs : ∀ i, ((l.mulInt 2).neg.addPub fun _ => 1).value i = if x.value i < 0 then -1 else 1 := fun i => by
    rw [addPub_value (l.mulInt 2).neg _ (by show 0 < l.scale; rw [hl.1]; exact one_pos) i, htr1, hneg, hlv]; · split <;> norm_num
    rw [htr1, hneg, hlv]
    show Fits ((l.scale : ℚ) * _)
    rw [hl.1]
    split <;> (unfold Fits; norm_num)
  have hss : ((l.mulInt 2).neg.addPub fun _ => 1).scale = 1 := hl.1
  refine Sat.bind (C56_mul_unscaled (elementwise ι) x ((l.mulInt 2).neg.addPub fun _ => 1) hxs (by rw [hss]; exact one_pos) (Or.inr hss) fun i => ?_).sat fun p hp' => ?_
  · rw [bilinearQ_elementwise, hss, hs, hsg, hxq, Nat.cast_one, mul_one]
    exact fits_scaled (by rw [abs_abs]; exact hx1 i) hp hfit
  have hps : p.scale = 2 ^ k := by rw [hp'.1, hss, mul_one, hx]
  have hpv : ∀ i, p.value i = |x.value i| := fun i => by rw [hp'.2, bilinearQ_elementwise, hs, hsg]
  have hpn : ∀ i, p.neg.value i = -|x.value i| := fun i => by
    rw [neg_value (by rw [hps]; exact Nat.two_pow_pos k) i, hpv]
    rw [hpv, scaleQ_of hps]
    have : 0 ≤ (2 : ℚ) ^ k * |x.value i| := by positivity
    intro h'
    rw [h'] at this
    norm_num at this
  have hone : ∀ i, 1 + p.neg.value i / 2 ^ c.expIterations = 1 - |x.value i| / 2 ^ c.expIterations := fun i => by rw [hpn]; ring
  have h29 : (2 : ℚ) ^ k * 3 < 2 ^ 63 := lt_of_le_of_lt (mul_le_mul_of_nonneg_right hk29 (by norm_num)) (by norm_num)
  refine Sat.bind (C53_exp_encrypted_entries hn k method (by omega) c.expIterations hd p.neg hps (fun _ => 1) (fun i => by rw [hone]; exact (exp_unit hd0 (hx1 i)).2.2)
    (fun i => lt_of_le_of_lt (mul_le_mul_of_nonneg_left (by linarith) hp.le) h29) fun _ => hsq) fun e he => ?_
  have hes : 0 < e.scale := by rw [he.1]; exact Nat.two_pow_pos k
  have heq := scaleQ_of he.1
  obtain ⟨E, hE⟩ : ∃ E : ι → ℚ, ∀ i, (1 - |x.value i| / 2 ^ c.expIterations) ^ 2 ^ c.expIterations = E i := ⟨_, fun _ => rfl⟩
  have hE0 : ∀ i, 0 ≤ E i := fun i => by rw [← hE]; exact (exp_unit hd0 (hx1 i)).1
  have hE1 : ∀ i, E i ≤ 1 := fun i => by rw [← hE]; exact (exp_unit hd0 (hx1 i)).2.1
  have hev : ∀ i, |e.value i - E i| ≤ η := fun i => by
    have := he.2 i
    rw [hone, hE] at this
    exact this.trans hη
  have htr : (truncQ ((e.scale : ℚ) * 1) : ℚ) / e.scale = 1 := by
    have h' : (e.scale : ℚ) * 1 = ((e.scale : ℤ) : ℚ) := by push_cast; ring
    rw [h', truncQ_intCast]
    have : (e.scale : ℚ) ≠ 0 := by rw [heq]; positivity
    push_cast
    exact div_self this
  have hD : ∀ i, (e.addPub fun _ => 1).value i = e.value i + 1 := fun i => by
    rw [addPub_value e _ hes i, htr]
    rw [htr, heq]
    refine fits_scaled (b := 3) ?_ hp h29
    have h1 := abs_le.1 (hev i); have h2 := hE0 i; have h3 := hE1 i
    rw [abs_le]; constructor <;> linarith
  have hDl : ∀ i, 7 / 8 ≤ (e.addPub fun _ => 1).value i := fun i => by rw [hD]; have := abs_le.1 (hev i); linarith [hE0 i]
  have hDu : ∀ i, (e.addPub fun _ => 1).value i ≤ 17 / 8 := fun i => by rw [hD]; have := abs_le.1 (hev i); linarith [hE1 i]
  have hDs : (e.addPub fun _ => 1).scale = 2 ^ k := he.1
  -- the reciprocal
  have hη0 : 0 ≤ η := by
    refine le_trans ?_ hη
    have : ∀ (d : ℕ) (w e : ℚ), 0 ≤ w → 0 ≤ e → 0 ≤ squareErr (n / 2 ^ k) d w e := by
      intro d
      induction d with
      | zero => intro w e _ he; exact he
      | succ d ih => intro w e hw he; exact ih _ _ (by positivity) (by positivity)
    exact this _ _ _ zero_le_one hδ0
  have hρ0 : 0 ≤ (1 / 2 + 3 / 4 * η) ^ 2 + 9 * (n / 2 ^ k : ℚ) := by positivity
  have hρ1 : (1 / 2 + 3 / 4 * η) ^ 2 + 9 * (n / 2 ^ k : ℚ) ≤ 1 / 2 := by
    have h1 : (1 / 2 + 3 / 4 * η) ^ 2 ≤ (1 / 2 + 3 / 32) ^ 2 := pow_le_pow_left₀ (by positivity) (by linarith) 2
    have h2 : (1 / 2 + 3 / 32 : ℚ) ^ 2 ≤ 36 / 100 := by norm_num
    linarith
  have hloss : ∀ i, recipLoss n k ((e.addPub fun _ => 1).value i) ≤ 7 * (n / 2 ^ k) := fun i => by
    unfold recipLoss
    refine mul_le_mul_of_nonneg_right ?_ hδ0
    have h1 := hDl i; have h2 := hDu i
    nlinarith
  have hloss0 : ∀ i, 0 ≤ recipLoss n k ((e.addPub fun _ => 1).value i) := fun i => by
    unfold recipLoss
    have := hDl i
    have : 0 ≤ (e.addPub fun _ => 1).value i := by linarith
    positivity
  have hall : ∀ i t, newtonErr (recipLoss n k ((e.addPub fun _ => 1).value i)) ((1 / 2 + 3 / 4 * η) ^ 2 + 9 * (n / 2 ^ k)) t ≤ 1 / 2 := fun i t =>
    (newtonErr_le (hloss0 i) hρ0 (by
      have := hloss i
      nlinarith) t).trans hρ1
  have hr := C53_reciprocal_from_number_encrypted hn k method hk0 (by omega) (by linarith) 2 (e.addPub fun _ => 1) hDs (3 / 4)
    (fun _ => (1 / 2 + 3 / 4 * η) ^ 2 + 9 * (n / 2 ^ k)) (fun i => by have := hDl i; linarith) (fun i => ?_) (fun i => ?_) (fun i => ?_)
    fun i t _ => (hall i t).trans (by norm_num)
  rotate_left
  · -- in range
    have h1 := hDl i; have h2 := hDu i
    have h3 : 4 / (e.addPub fun _ => 1).value i ^ 2 ≤ 4 / (7 / 8) ^ 2 := div_le_div_of_nonneg_left (by norm_num) (by norm_num) (pow_le_pow_left₀ (by norm_num) h1 2)
    have h4 : (4 / (e.addPub fun _ => 1).value i ^ 2 + 1) * ((e.addPub fun _ => 1).value i + 2) ≤ (4 / (7 / 8) ^ 2 + 1) * (17 / 8 + 2) :=
      mul_le_mul (by linarith) (by linarith) (by linarith) (by norm_num)
    have h5 : (2 : ℚ) ^ k * 2 ^ k ≤ 2 ^ 29 * 2 ^ 29 := mul_le_mul hk29 hk29 hp.le (by norm_num)
    unfold RecipFits
    calc _ ≤ (2 : ℚ) ^ k * 2 ^ k * ((4 / (7 / 8) ^ 2 + 1) * (17 / 8 + 2)) := mul_le_mul_of_nonneg_left h4 (by positivity)
      _ ≤ 2 ^ 29 * 2 ^ 29 * ((4 / (7 / 8) ^ 2 + 1) * (17 / 8 + 2)) := mul_le_mul_of_nonneg_right h5 (by norm_num)
      _ < 2 ^ 63 := by norm_num
  · have h1 := hDl i; have h2 := hDu i
    rw [abs_le]; constructor <;> linarith
  · have h1 := hDl i; have h2 := hDu i
    have h3 : |1 - (e.addPub fun _ => 1).value i * (3 / 4)| ≤ 1 / 2 + 3 / 4 * η := by
      rw [hD]
      have h4 := abs_le.1 (hev i); have h5 := hE0 i; have h6 := hE1 i
      rw [abs_le]; constructor <;> linarith
    have h4 : (1 - (e.addPub fun _ => 1).value i * (3 / 4)) ^ 2 ≤ (1 / 2 + 3 / 4 * η) ^ 2 := by
      rw [← sq_abs]; exact pow_le_pow_left₀ (abs_nonneg _) h3 2
    have h5 : (e.addPub fun _ => 1).value i * ((n + 1 + (e.addPub fun _ => 1).value i) / 2 ^ k) ≤ 9 * (n / 2 ^ k) := by
      rw [← mul_div_assoc, ← mul_div_assoc]
      refine div_le_div_of_nonneg_right ?_ hp.le
      nlinarith
    exact add_le_add h4 h5
  have hrecip : Sat ((mpcOps n k method).reciprocal { c with expIterations := 9, recipNrIters := 3, recipAllPos := true, recipInitial := some 0.75 } (e.addPub fun _ => 1))
      fun z => z.scale = 2 ^ k ∧ ∀ i, |1 - (e.addPub fun _ => 1).value i * z.value i| ≤
        newtonErr (recipLoss n k ((e.addPub fun _ => 1).value i)) ((1 / 2 + 3 / 4 * η) ^ 2 + 9 * (n / 2 ^ k)) 2 := by
    unfold Ops.reciprocal Ops.recipPos
    simp only [if_true, hm]
    have : (0.75 : ℚ) = 3 / 4 := by norm_num
    rw [this]
    exact hr
  refine Sat.bind hrecip fun r hr => ?_
  have hrs : 0 < r.scale := by rw [hr.1]; exact Nat.two_pow_pos k
  have hrq := scaleQ_of hr.1
  have hrn : ∀ i, |r.value i - 1 / (1 + E i)| ≤ sigmoidErr (n / 2 ^ k) η := fun i => by
    have h1 := (hr.2 i).trans (newtonErr_mono2 (hloss0 i) (hloss i) hρ0 le_rfl 2)
    have h2 := hDl i
    have hpos : 0 < (e.addPub fun _ => 1).value i := by linarith
    have hpe : 0 < 1 + E i := by linarith [hE0 i]
    unfold sigmoidErr
    obtain ⟨R, hR⟩ : ∃ R, newtonErr (7 * (n / 2 ^ k : ℚ)) ((1 / 2 + 3 / 4 * η) ^ 2 + 9 * (n / 2 ^ k)) 2 = R := ⟨_, rfl⟩
    rw [hR] at h1 ⊢
    have h3 : |((e.addPub fun _ => 1).value i) * (r.value i - 1 / (1 + E i))| ≤ R + η := by
      have e1 : (e.addPub fun _ => 1).value i * (r.value i - 1 / (1 + E i)) = -(1 - (e.addPub fun _ => 1).value i * r.value i) - (e.value i - E i) / (1 + E i) := by
        have hne := hpe.ne'
        have h5 : (1 + E i) * (1 / (1 + E i)) = 1 := by field_simp
        rw [hD, div_eq_mul_one_div]
        linear_combination -h5
      rw [e1]
      refine (abs_sub _ _).trans (add_le_add (by rw [abs_neg]; exact h1) ?_)
      rw [abs_div, abs_of_pos hpe]
      exact (div_le_self (abs_nonneg _) (by linarith [hE0 i])).trans (hev i)
    rw [abs_mul, abs_of_pos hpos] at h3
    have h4 := abs_nonneg (r.value i - 1 / (1 + E i))
    nlinarith
  have hra : ∀ i, |r.value i| ≤ 2 := fun i => by
    have h1 := (hr.2 i).trans (hall i 2)
    have h2 := hDl i
    have h3 := abs_near (a := (e.addPub fun _ => 1).value i * r.value i) (b := 1) (e := 1 / 2) (by rw [abs_sub_comm]; exact h1) (abs_one.le : |(1 : ℚ)| ≤ 1)
    rw [abs_mul, abs_of_pos (by linarith)] at h3
    have h4 := abs_nonneg (r.value i)
    nlinarith
  have hrneg : ∀ i, r.neg.value i = -r.value i := fun i => by
    refine neg_value hrs i fun h' => ?_
    have h1 : |(2 : ℚ) ^ k * r.value i| < 2 ^ 63 := by
      rw [abs_mul, abs_of_pos hp]
      exact lt_of_le_of_lt (mul_le_mul_of_nonneg_left ((hra i).trans (by norm_num : (2 : ℚ) ≤ 3)) hp.le) h29
    rw [hrq] at h'
    rw [h', abs_neg, abs_of_pos (by positivity)] at h1
    exact lt_irrefl _ h1
  have htr2 : (truncQ ((r.neg.scale : ℚ) * 1) : ℚ) / r.neg.scale = 1 := by
    show (truncQ ((r.scale : ℚ) * 1) : ℚ) / r.scale = 1
    have h' : (r.scale : ℚ) * 1 = ((r.scale : ℤ) : ℚ) := by push_cast; ring
    rw [h', truncQ_intCast]
    have : (r.scale : ℚ) ≠ 0 := by rw [hrq]; positivity
    push_cast
    exact div_self this
  have hfit3 : ∀ i, Fits ((2 : ℚ) ^ k * (-r.value i + 1)) := fun i => by
    refine fits_scaled (b := 3) ?_ hp h29
    have := abs_le.1 (hra i)
    rw [abs_le]; constructor <;> linarith
  have hro : ∀ i, (r.neg.addPub fun _ => 1).value i = 1 - r.value i := fun i => by
    have hq : (r.neg.scale : ℚ) = 2 ^ k := hrq
    rw [addPub_value r.neg _ hrs i, htr2, hrneg]; · ring
    rw [htr2, hrneg, hq]
    exact hfit3 i
  have hmax : max r.scale (r.neg.addPub fun _ => 1).scale = 2 ^ k := by show max r.scale r.scale = _; rw [max_self, hr.1]
  refine (C23_where r (r.neg.addPub fun _ => 1) l.oneMinus (fun i => !decide (x.value i < 0)) hl.oneMinus.1 (fun i => ?_) ⟨hrs, hrs, Or.inl (dvd_refl r.scale)⟩ fun i => ?_).sat.mono
    fun z hz => ⟨hz.1.trans hmax, fun i => ?_⟩
  · rw [hl.oneMinus.value i]; simp only [value_neg_iff hxs]
  · rw [hmax]
    push_cast
    split
    · exact fits_scaled ((hra i).trans (by norm_num : (2 : ℚ) ≤ 3)) hp h29
    · rw [hro, sub_eq_neg_add]; exact hfit3 i
  · rw [hz.2, hro]
    unfold logisticApprox
    rw [hE]
    by_cases h : x.value i < 0
    · simp only [h, decide_true, Bool.not_true, Bool.false_eq_true, if_false, if_true]
      have e1 : 1 - r.value i - (1 - 1 / (1 + E i)) = -(r.value i - 1 / (1 + E i)) := by ring
      rw [e1, abs_neg]; exact hrn i
    · simp only [h, decide_false, Bool.not_false, if_true, if_false]
      exact hrn i

/-- How far the logistic function with the approximation of `exp` is from the logistic function. -/
theorem logisticApprox_near (d : ℕ) (hd : 0 < d) (x : ℚ) (hx : |x| ≤ 2 ^ d / 2) : |((logisticApprox d x : ℚ) : ℝ) - 1 / (1 + Real.exp (-x))| ≤ 2 / 2 ^ d := by
  have hN : (0 : ℝ) < 2 ^ d := by positivity
  have hxr : |(x : ℝ)| ≤ 2 ^ d / 2 := by have := (Rat.cast_le (K := ℝ)).2 hx; push_cast at this; exact this
  have hacc := C53_exp_accuracy d (fun _ : Unit => -|(x : ℝ)|) () (by rw [abs_neg, abs_abs]; exact hxr)
  rw [C53_exp] at hacc
  have e0 : 1 + -|(x : ℝ)| / 2 ^ d = 1 - |(x : ℝ)| / 2 ^ d := by ring
  rw [e0] at hacc
  have hE0 : 0 ≤ (1 - |(x : ℝ)| / 2 ^ d) ^ 2 ^ d := Even.pow_nonneg (even_two_pow hd) _
  obtain ⟨E, hE⟩ : ∃ E, (1 - |(x : ℝ)| / 2 ^ d) ^ 2 ^ d = E := ⟨_, rfl⟩
  obtain ⟨F, hF⟩ : ∃ F, Real.exp (-|(x : ℝ)|) = F := ⟨_, rfl⟩
  have hF0 : 0 < F := by rw [← hF]; exact Real.exp_pos _
  rw [hE] at hacc hE0
  rw [hF] at hacc
  have hx2 : |(x : ℝ)| ^ 2 * F ≤ 1 := by
    have h1 := Real.add_one_le_exp (|(x : ℝ)| / 2 - 1)
    have h2 : |(x : ℝ)| / 2 ≤ Real.exp (|(x : ℝ)| / 2 - 1) := by linarith
    have h3 : (|(x : ℝ)| / 2) ^ 2 ≤ Real.exp (|(x : ℝ)| / 2 - 1) ^ 2 := pow_le_pow_left₀ (by positivity) h2 2
    have h4 : Real.exp (|(x : ℝ)| / 2 - 1) ^ 2 = Real.exp |(x : ℝ)| * Real.exp (-2) := by
      rw [← Real.exp_nat_mul, ← Real.exp_add]; congr 1; push_cast; ring
    have h5 : Real.exp (-2) ≤ 1 / 4 := by
      have : (2 : ℝ) ≤ Real.exp 1 := by have := Real.add_one_le_exp (1 : ℝ); linarith
      have h6 : (4 : ℝ) ≤ Real.exp 2 := by
        have : Real.exp 2 = Real.exp 1 * Real.exp 1 := by rw [← Real.exp_add]; norm_num
        nlinarith
      rw [Real.exp_neg, ← one_div]
      exact one_div_le_one_div_of_le (by norm_num) h6
    have h7 : Real.exp |(x : ℝ)| * F = 1 := by rw [← hF, ← Real.exp_add]; simp
    have h8 := Real.exp_pos |(x : ℝ)|
    rw [h4] at h3
    have h9 : |(x : ℝ)| ^ 2 ≤ Real.exp |(x : ℝ)| := by nlinarith
    calc |(x : ℝ)| ^ 2 * F ≤ Real.exp |(x : ℝ)| * F := mul_le_mul_of_nonneg_right h9 hF0.le
      _ = 1 := h7
  have hEF : F - E ≤ 2 / 2 ^ d := by
    have h1 : F * (1 - 2 * (-|(x : ℝ)|) ^ 2 / 2 ^ d) = F - 2 * (|(x : ℝ)| ^ 2 * F) / 2 ^ d := by ring
    rw [h1] at hacc
    have : 2 * (|(x : ℝ)| ^ 2 * F) / 2 ^ d ≤ 2 / 2 ^ d := by gcongr; linarith
    linarith [hacc.2]
  have hinv : |1 / (1 + E) - 1 / (1 + F)| ≤ 2 / 2 ^ d := by
    have h1 : 1 / (1 + E) - 1 / (1 + F) = (F - E) / ((1 + E) * (1 + F)) := by
      field_simp; ring
    have h2 : 0 ≤ F - E := by linarith [hacc.1]
    have h3 : 1 ≤ (1 + E) * (1 + F) := by nlinarith
    rw [h1, abs_of_nonneg (by positivity)]
    exact (div_le_self h2 h3).trans hEF
  have hcast : ((1 / (1 + (1 - |x| / 2 ^ d) ^ 2 ^ d) : ℚ) : ℝ) = 1 / (1 + E) := by rw [← hE]; push_cast; rfl
  unfold logisticApprox
  by_cases h : x < 0
  · rw [if_pos h, Rat.cast_sub, Rat.cast_one, hcast]
    have hr : (x : ℝ) < 0 := by exact_mod_cast h
    have h1 : 1 / (1 + Real.exp (-(x : ℝ))) = 1 - 1 / (1 + F) := by
      have h2 : F = Real.exp x := by rw [← hF, abs_of_neg hr, neg_neg]
      rw [h2, Real.exp_neg]
      have := Real.exp_pos (x : ℝ)
      field_simp; ring
    rw [h1]
    have : 1 - 1 / (1 + E) - (1 - 1 / (1 + F)) = -(1 / (1 + E) - 1 / (1 + F)) := by ring
    rw [this, abs_neg]
    exact hinv
  · rw [if_neg h, hcast]
    have hr : (0 : ℝ) ≤ x := by exact_mod_cast not_lt.1 h
    have h1 : F = Real.exp (-(x : ℝ)) := by rw [← hF, abs_of_nonneg hr]
    rw [← h1]
    exact hinv

/-- **C53, sigmoid with the default configuration, two parties and 16 bits**: for inputs up to 128 in absolute value the decrypted result is within 1/30 of the logistic function. -/
theorem C53_sigmoid_default_encrypted (method : MaxMethod) (coeffs : ℕ → ℚ) (x : AST 2 ι) (hx : x.scale = 2 ^ 16) (hx1 : ∀ i, |x.value i| ≤ 128) :
    Sat ((mpcOps 2 16 method).sigmoid {} coeffs x) fun z => z.scale = 2 ^ 16 ∧ ∀ i, |((z.value i : ℚ) : ℝ) - 1 / (1 + Real.exp (-(x.value i : ℚ)))| ≤ 1 / 30 := by
  have h := C53_sigmoid_encrypted (n := 2) (k := 16) (by norm_num) method (by norm_num) (by norm_num) {} rfl (by norm_num) (by norm_num) x hx
    (fun i => (hx1 i).trans (by norm_num)) (1 / 60) (by norm_num [squareErr]) (by norm_num) (by norm_num [SquareFits]) (by norm_num)
  refine h.mono fun z hz => ⟨hz.1, fun i => ?_⟩
  have h1 : |z.value i - logisticApprox 8 (x.value i)| ≤ 1 / 40 := (hz.2 i).trans (by norm_num [sigmoidErr, newtonErr])
  have h1' : |((z.value i : ℚ) : ℝ) - ((logisticApprox 8 (x.value i) : ℚ) : ℝ)| ≤ 1 / 40 := by have := (Rat.cast_le (K := ℝ)).2 h1; push_cast at this; exact this
  have h2 := logisticApprox_near 8 (by norm_num) (x.value i) ((hx1 i).trans (by norm_num))
  have h3 := abs_add_le (((z.value i : ℚ) : ℝ) - ((logisticApprox 8 (x.value i) : ℚ) : ℝ)) (((logisticApprox 8 (x.value i) : ℚ) : ℝ) - 1 / (1 + Real.exp (-(x.value i : ℚ))))
  rw [sub_add_sub_cancel] at h3
  have h4 : (2 : ℝ) / 2 ^ 8 = 1 / 128 := by norm_num
  rw [h4] at h2
  linarith

/-- **C53, tanh with the default configuration, two parties and 16 bits**: for inputs up to 64 in absolute value the decrypted result is within 1/15 of the hyperbolic tangent. -/
theorem C53_tanh_default_encrypted (method : MaxMethod) (coeffs : ℕ → ℚ) (x : AST 2 ι) (hx : x.scale = 2 ^ 16) (hx1 : ∀ i, |x.value i| ≤ 64) :
    Sat ((mpcOps 2 16 method).tanh {} coeffs x) fun z => z.scale = 2 ^ 16 ∧ ∀ i, |((z.value i : ℚ) : ℝ) - Real.tanh (x.value i : ℚ)| ≤ 1 / 15 := by
  have hxq := scaleQ_of hx
  have h2v : ∀ i, (x.mulInt 2).value i = x.value i * (2 : ℤ) := fun i => by
    refine mulInt_value x 2 (by rw [hx]; norm_num) i ?_
    rw [hxq]
    refine fits_scaled (b := 128) ?_ (by norm_num) (by norm_num)
    push_cast
    rw [abs_mul, abs_two]; linarith [hx1 i]
  have hs := C53_sigmoid_default_encrypted method coeffs (x.mulInt 2) hx fun i => by
    rw [h2v]; push_cast; rw [abs_mul, abs_two]; linarith [hx1 i]
  refine Sat.bind hs fun s hs => Sat.pure ?_
  have hsq := scaleQ_of hs.1
  have hss : 0 < s.scale := by rw [hs.1]; norm_num
  have hsa : ∀ i, |s.value i| ≤ 2 := fun i => by
    have h1 := hs.2 i
    have h2 : |1 / (1 + Real.exp (-(((x.mulInt 2).value i : ℚ) : ℝ)))| ≤ 1 := by
      have := Real.exp_pos (-(((x.mulInt 2).value i : ℚ) : ℝ))
      rw [abs_of_pos (by positivity), div_le_one (by positivity)]
      linarith
    have h3 := abs_add_le (((s.value i : ℚ) : ℝ) - 1 / (1 + Real.exp (-(((x.mulInt 2).value i : ℚ) : ℝ)))) (1 / (1 + Real.exp (-(((x.mulInt 2).value i : ℚ) : ℝ))))
    rw [sub_add_cancel] at h3
    have h4 : |((s.value i : ℚ) : ℝ)| ≤ 2 := by linarith
    exact_mod_cast h4
  have h1v : ∀ i, (s.mulInt 2).value i = s.value i * (2 : ℤ) := fun i => by
    refine mulInt_value s 2 hss i ?_
    rw [hsq]
    refine fits_scaled (b := 4) ?_ (by norm_num) (by norm_num)
    push_cast
    rw [abs_mul, abs_two]; linarith [hsa i]
  have htr : (truncQ (((s.mulInt 2).scale : ℚ) * 1) : ℚ) / (s.mulInt 2).scale = 1 := by
    show (truncQ ((s.scale : ℚ) * 1) : ℚ) / s.scale = 1
    have h' : (s.scale : ℚ) * 1 = ((s.scale : ℤ) : ℚ) := by push_cast; ring
    rw [h', truncQ_intCast]
    have : (s.scale : ℚ) ≠ 0 := by rw [hsq]; positivity
    push_cast
    exact div_self this
  have hv : ∀ i, ((s.mulInt 2).subPub fun _ => 1).value i = s.value i * 2 - 1 := fun i => by
    have hq : ((s.mulInt 2).scale : ℚ) = 2 ^ 16 := hsq
    rw [subPub_value (s.mulInt 2) _ hss i, htr, h1v]; · push_cast; rfl
    rw [htr, h1v, hq]
    refine fits_scaled (b := 5) ?_ (by norm_num) (by norm_num)
    have := abs_le.1 (hsa i)
    push_cast
    rw [abs_le]; constructor <;> linarith
  refine ⟨hs.1, fun i => ?_⟩
  change |((((s.mulInt 2).subPub fun _ => 1).value i : ℚ) : ℝ) - _| ≤ _
  rw [hv]
  have h1 := hs.2 i
  rw [h2v] at h1
  have ht : Real.tanh (x.value i : ℚ) = 1 / (1 + Real.exp (-((x.value i * (2 : ℤ) : ℚ) : ℝ))) * 2 - 1 := by
    rw [Real.tanh_eq_sinh_div_cosh, Real.sinh_eq, Real.cosh_eq]
    have e1 : Real.exp (-((x.value i * (2 : ℤ) : ℚ) : ℝ)) = Real.exp (-((x.value i : ℚ) : ℝ)) * Real.exp (-((x.value i : ℚ) : ℝ)) := by
      rw [← Real.exp_add]; congr 1; push_cast; ring
    have e2 : Real.exp ((x.value i : ℚ) : ℝ) * Real.exp (-((x.value i : ℚ) : ℝ)) = 1 := by rw [← Real.exp_add]; simp
    rw [e1]
    have h3 := Real.exp_pos ((x.value i : ℚ) : ℝ)
    have h4 := Real.exp_pos (-((x.value i : ℚ) : ℝ))
    obtain ⟨a, ha⟩ : ∃ a, Real.exp ((x.value i : ℚ) : ℝ) = a := ⟨_, rfl⟩
    obtain ⟨b, hb⟩ : ∃ b, Real.exp (-((x.value i : ℚ) : ℝ)) = b := ⟨_, rfl⟩
    rw [ha, hb] at e2
    rw [ha] at h3 ⊢
    rw [hb] at h4 ⊢
    field_simp
    nlinarith
  rw [ht]
  have e3 : (((s.value i * 2 - 1 : ℚ)) : ℝ) - (1 / (1 + Real.exp (-((x.value i * (2 : ℤ) : ℚ) : ℝ))) * 2 - 1) =
      2 * (((s.value i : ℚ) : ℝ) - 1 / (1 + Real.exp (-((x.value i * (2 : ℤ) : ℚ) : ℝ)))) := by push_cast; ring
  rw [e3, abs_mul, abs_two]
  linarith

/-- The hypotheses are met by -3. -/
example : ∃ x : AST 2 Unit, x.scale = 2 ^ 16 ∧ x.value () = -3 ∧ (∀ i, |x.value i| ≤ 64) ∧ ∀ i, |x.value i| ≤ 128 := by
  have e : ∀ i, (holder 2 Unit (-196608) (2 ^ 16)).value i = -3 := fun i => by
    rw [holder_value (z := -196608) (hz := by decide)]; norm_num
  exact ⟨holder 2 Unit (-196608) (2 ^ 16), rfl, e (), fun i => by rw [e]; norm_num [abs_of_neg], fun i => by rw [e]; norm_num [abs_of_neg]⟩

end CrypTen

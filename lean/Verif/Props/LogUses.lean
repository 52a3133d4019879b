import Verif.Props.LogDefault

/-!
# Functions that use the logarithm, on shares
-/

namespace CrypTen
variable {ι : Type}

/-- Subtracting a public number: one unit in the last place is lost at most. -/
theorem near_subNum {n k : ℕ} [NeZero n] {x : AST n ι} {v : ι → ℚ} {e B : ℚ} (hx : Near k x v e) (c : ℚ) (hB : ∀ i, |v i - c| ≤ B) (hfit : 2 ^ k * (B + (e + 1 / 2 ^ k)) < 2 ^ 63) :
    Near k (x.subPub fun _ => c) (fun i => v i - c) (e + 1 / 2 ^ k) := by
  have hd : ∀ i, |x.value i - (truncQ (2 ^ k * c) : ℚ) / 2 ^ k - (v i - c)| ≤ e + 1 / 2 ^ k := fun i => by
    have e1 : x.value i - (truncQ (2 ^ k * c) : ℚ) / 2 ^ k - (v i - c) = (x.value i - v i) - ((truncQ (2 ^ k * c) : ℚ) / 2 ^ k - c) := by ring
    rw [e1]; exact (abs_sub _ _).trans (add_le_add (hx.2 i) (trunc_any k c))
  refine ⟨hx.1, fun i => ?_⟩
  rw [subPub_value x _ (by rw [hx.1]; exact Nat.two_pow_pos k) i, hx.scaleQ]
  · exact hd i
  · rw [hx.scaleQ]
    refine fits_of_abs ?_ hfit
    rw [abs_mul, abs_of_pos (a := (2 : ℚ) ^ k) (by positivity)]
    refine mul_le_mul_of_nonneg_left ?_ (by positivity)
    have h2 := abs_add_le (x.value i - (truncQ (2 ^ k * c) : ℚ) / 2 ^ k - (v i - c)) (v i - c)
    rw [sub_add_cancel] at h2
    have := hB i
    have := hd i
    linarith

theorem log_hundred : (460515 : ℝ) / 100000 ≤ Real.log 100 ∧ Real.log 100 ≤ 460532 / 100000 := by
  have h2 := Real.log_two_gt_d9
  have h2' := Real.log_two_lt_d9
  constructor
  · have e : Real.log ((2 : ℝ) ^ 485) ≤ Real.log ((100 : ℝ) ^ 73) := Real.log_le_log (by positivity) (by exact_mod_cast (by decide +kernel : (2 : ℕ) ^ 485 ≤ 100 ^ 73))
    rw [Real.log_pow, Real.log_pow] at e
    push_cast at e
    linarith
  · have e : Real.log ((100 : ℝ) ^ 59) ≤ Real.log ((2 : ℝ) ^ 392) := Real.log_le_log (by positivity) (by exact_mod_cast (by decide +kernel : (100 : ℕ) ^ 59 ≤ 2 ^ 392))
    rw [Real.log_pow, Real.log_pow] at e
    push_cast at e
    linarith

/-- **C53, `log(input_in_01=True)`**: the logarithm of every number between 1/10000 and 1, up to 0.101. -/
theorem C53_log_in_01_default_encrypted (q : ℕ) (method : MaxMethod) (c : FunCfg) (hd : c.expIterations = 8) (hd' : c.logExpIterations = 8) (ho : c.logOrder = 8) (hT : c.logIterations = 2)
    (x : AST 2 ι) (hx : x.scale = 2 ^ 16) (h : ∀ i, 1 / 10000 ≤ x.value i ∧ x.value i ≤ 1) :
    Sat ((mpcOps 2 q method).logIn01 c x) fun z => z.scale = 2 ^ 16 ∧ ∀ i, |(z.value i : ℝ) - Real.log (x.value i)| ≤ 101 / 1000 := by
  have h100 : ∀ i, (x.mulInt 100).value i = 100 * x.value i := fun i => by
    rw [mulInt_value x 100 (by rw [hx]; exact Nat.two_pow_pos 16) i, mul_comm]
    · norm_num
    · rw [scaleQ_of hx]
      refine fits_scaled (b := 100) ?_ (by positivity) (by norm_num)
      push_cast
      rw [abs_of_nonneg (by linarith [(h i).1])]; linarith [(h i).2]
  unfold Ops.logIn01
  refine Sat.bind (C53_log_default_encrypted q method c hd hd' ho hT (x.mulInt 100) hx fun i => ?_) fun y hy => ?_
  · rw [h100]; exact ⟨by linarith [(h i).1], by linarith [(h i).2]⟩
  have hxi : ∀ i, (1 : ℝ) / 10000 ≤ (x.value i : ℝ) ∧ (x.value i : ℝ) ≤ 1 := fun i => by
    have h1 := (Rat.cast_le (K := ℝ)).2 (h i).1; have h2 := (Rat.cast_le (K := ℝ)).2 (h i).2
    push_cast at h1 h2; exact ⟨h1, h2⟩
  have hlog : ∀ i, Real.log ((x.mulInt 100).value i : ℚ) = Real.log 100 + Real.log (x.value i) := fun i => by
    rw [h100]; push_cast
    exact Real.log_mul (by norm_num) (by linarith [(hxi i).1])
  have hya : ∀ i, |y.value i| ≤ 5 := fun i => by
    have h1 := (hy.2 i).1
    have h2 := abs_log_le (x := (((x.mulInt 100).value i : ℚ) : ℝ)) (by rw [h100]; push_cast; linarith [(hxi i).1]) (by rw [h100]; push_cast; linarith [(hxi i).2])
    have h3 := abs_add_le ((y.value i : ℝ) - Real.log ((x.mulInt 100).value i : ℚ)) (Real.log ((x.mulInt 100).value i : ℚ))
    rw [sub_add_cancel] at h3
    have h4 : ((|y.value i| : ℚ) : ℝ) ≤ ((5 : ℚ) : ℝ) := by push_cast; linarith
    exact (Rat.cast_le (K := ℝ)).1 h4
  have hz := near_subNum (k := 16) (Near.self hy.1) 4.605170 (B := 10) (fun i => (abs_sub _ _).trans (by have := hya i; norm_num [abs_of_pos] at this ⊢; linarith)) (by norm_num)
  refine Sat.pure ⟨hz.1, fun i => ?_⟩
  have h1 := (hy.2 i).1
  rw [hlog] at h1
  have h2 := (Rat.cast_le (K := ℝ)).2 (hz.2 i)
  push_cast at h2
  obtain ⟨l1, l2⟩ := log_hundred
  obtain ⟨a1, a2⟩ := abs_le.1 h1
  obtain ⟨b1, b2⟩ := abs_le.1 h2
  change |(((y.subPub fun _ => 4.605170).value i : ℚ) : ℝ) - Real.log (x.value i)| ≤ _
  generalize (y.subPub fun _ => 4.605170).value i = r at *
  norm_num at b1 b2
  exact abs_le.2 ⟨by linarith, by linarith⟩

example : let x : AST 2 (Fin 2) := ⟨fun p i => if p = 0 then ![9, 65538] i else ![-2, -2] i, 2 ^ 16⟩
    x.scale = 2 ^ 16 ∧ ∀ i, 1 / 10000 ≤ x.value i ∧ x.value i ≤ 1 := by decide +kernel

theorem recipLog_table : squareErr ((2 : ℕ) / 2 ^ 16) 8 (1 - 19 / 4 / 256) ((2 : ℕ) / 2 ^ 16) ≤ 3 / 125 * (1 - 19 / 4 / 256) ^ 256 := by decide +kernel

theorem squareFits_recipLog : SquareFits 16 ((2 : ℕ) / 2 ^ 16) 8 (1 + 19 / 4 / 256) ((2 : ℕ) / 2 ^ 16) := by decide +kernel

/-- **C53, `reciprocal` with the method `log`**: for every number between 1/100 and 100, the product with the result is within 0.17 of 1. -/
theorem C53_reciprocal_log_default_encrypted (q : ℕ) (method : MaxMethod) (c : FunCfg) (hd : c.expIterations = 8) (hd' : c.logExpIterations = 8) (ho : c.logOrder = 8) (hT : c.logIterations = 2)
    (hm : c.recipMethod = .log) (hpos : c.recipAllPos = true) (x : AST 2 ι) (hx : x.scale = 2 ^ 16) (h : ∀ i, 1 / 100 ≤ x.value i ∧ x.value i ≤ 100) :
    Sat ((mpcOps 2 q method).reciprocal c x) fun z => z.scale = 2 ^ 16 ∧ ∀ i, |1 - x.value i * z.value i| ≤ 17 / 100 := by
  have hxi : ∀ i, (1 : ℝ) / 100 ≤ (x.value i : ℝ) ∧ (x.value i : ℝ) ≤ 100 := fun i => by
    have h1 := (Rat.cast_le (K := ℝ)).2 (h i).1; have h2 := (Rat.cast_le (K := ℝ)).2 (h i).2
    push_cast at h1 h2; exact ⟨h1, h2⟩
  have h256 : (2 : ℚ) ^ 8 = 256 := by norm_num
  unfold Ops.reciprocal Ops.recipPos
  rw [if_pos hpos, hm, hd]
  refine Sat.bind (C53_log_default_encrypted q method c hd hd' ho hT x hx h) fun l hl => ?_
  have hlR : ∀ i, |(l.value i : ℝ)| ≤ 19 / 4 := fun i => by
    have h1 := (hl.2 i).1
    have h2 := abs_log_le (hxi i).1 (hxi i).2
    have h3 := abs_add_le ((l.value i : ℝ) - Real.log (x.value i)) (Real.log (x.value i))
    rw [sub_add_cancel] at h3
    linarith
  have hla : ∀ i, |l.value i| ≤ 19 / 4 := fun i => by
    have h4 : ((|l.value i| : ℚ) : ℝ) ≤ ((19 / 4 : ℚ) : ℝ) := by push_cast; exact hlR i
    exact (Rat.cast_le (K := ℝ)).1 h4
  have hneg : ∀ i, l.neg.value i = -l.value i := fun i => neg_value_of hl.1 (hla i) (by norm_num)
  have hb : ∀ i, 1 + l.neg.value i / 2 ^ 8 = 1 - l.value i / 256 := fun i => by rw [hneg, h256]; ring
  have hw : ∀ i, 1 - 19 / 4 / 256 ≤ 1 - l.value i / 256 ∧ 1 - l.value i / 256 ≤ 1 + 19 / 4 / 256 := fun i => by
    obtain ⟨a1, a2⟩ := abs_le.1 (hla i)
    constructor <;> linarith
  have hw0 : ∀ i, 0 < 1 - l.value i / 256 := fun i => lt_of_lt_of_le (by norm_num) (hw i).1
  refine (C53_exp_encrypted_entries (n := 2) (k := 16) (by norm_num) q method (by norm_num) 8 (by norm_num) l.neg hl.1 (fun i => 1 - l.value i / 256)
    (fun i => by rw [hb, abs_of_pos (hw0 i)]) (fun i => ?_) fun i => squareFits_mono 16 _ (by norm_num) 8 _ _ _ _ (hw0 i).le (hw i).2 (by norm_num) le_rfl squareFits_recipLog).mono
    fun z hz => ⟨hz.1, fun i => ?_⟩
  · refine lt_of_le_of_lt (mul_le_mul_of_nonneg_left (add_le_add (hw i).2 le_rfl) (by positivity)) (by norm_num)
  have hzv := hz.2 i
  rw [hb] at hzv
  have hrel : squareErr ((2 : ℕ) / 2 ^ 16) 8 (1 - l.value i / 256) ((2 : ℕ) / 2 ^ 16) * (1 - 19 / 4 / 256) ^ 256 ≤ squareErr ((2 : ℕ) / 2 ^ 16) 8 (1 - 19 / 4 / 256) ((2 : ℕ) / 2 ^ 16) * (1 - l.value i / 256) ^ 256 :=
    squareErr_relative _ (by norm_num) 8 _ _ _ _ (by norm_num) (hw i).1 (by norm_num) (by norm_num) (mul_le_mul_of_nonneg_left (hw i).1 (by norm_num))
  have htab := recipLog_table
  have hN : (2 : ℕ) ^ 8 = 256 := rfl
  rw [hN] at hzv
  obtain ⟨g1, g2⟩ := log_base (y := (l.value i : ℝ)) ((hlR i).trans (by norm_num))
  have hxR : (0 : ℝ) < x.value i := by linarith [(hxi i).1]
  have hlogQ : Real.log ((x.value i * (1 - l.value i / 256) ^ 256 : ℚ) : ℝ) = Real.log (x.value i) + 256 * Real.log (1 - (l.value i : ℝ) / 256) := by
    have hbR : (0 : ℝ) < 1 - (l.value i : ℝ) / 256 := by have := (abs_le.1 (hlR i)).2; linarith
    have e : ((x.value i * (1 - l.value i / 256) ^ 256 : ℚ) : ℝ) = (x.value i : ℝ) * (1 - (l.value i : ℝ) / 256) ^ 256 := by
      rw [Rat.cast_mul, Rat.cast_pow]; norm_num
    rw [e, Real.log_mul hxR.ne' (pow_pos hbR _).ne', Real.log_pow]; norm_num
  have hx0 : 0 < x.value i := by linarith [(h i).1]
  have hP0 : 0 < (1 - l.value i / 256) ^ 256 := pow_pos (hw0 i) _
  have hPU0 : (0 : ℚ) < (1 - 19 / 4 / 256) ^ 256 := pow_pos (by norm_num) _
  generalize (1 - l.value i / 256) ^ 256 = P at *
  generalize ((1 : ℚ) - 19 / 4 / 256) ^ 256 = PU at *
  generalize squareErr ((2 : ℕ) / 2 ^ 16) 8 (1 - l.value i / 256) ((2 : ℕ) / 2 ^ 16) = S at *
  generalize squareErr ((2 : ℕ) / 2 ^ 16) 8 (1 - 19 / 4 / 256) ((2 : ℕ) / 2 ^ 16) = SU at *
  have hS : S ≤ 3 / 125 * P := by
    refine le_of_mul_le_mul_right (hrel.trans ((mul_le_mul_of_nonneg_right htab hP0.le).trans (le_of_eq ?_))) hPU0
    ring
  have hQ0 : 0 < x.value i * P := mul_pos hx0 hP0
  have hQR : (0 : ℝ) < ((x.value i * P : ℚ) : ℝ) := by exact_mod_cast hQ0
  obtain ⟨d1, d2⟩ := abs_le.1 (hl.2 i).1
  have hlsq : (l.value i : ℝ) ^ 2 ≤ (19 / 4) ^ 2 := by rw [← sq_abs]; exact pow_le_pow_left₀ (abs_nonneg _) (hlR i) 2
  norm_num at hlsq
  have hQl : 8537 / 10000 ≤ x.value i * P := by
    have e1 : (8537 / 10000 : ℝ) ≤ ((x.value i * P : ℚ) : ℝ) := by
      rw [← Real.exp_log hQR, hlogQ]
      have := Real.add_one_le_exp (Real.log (x.value i) + 256 * Real.log (1 - (l.value i : ℝ) / 256))
      linarith
    have e2 : ((8537 / 10000 : ℚ) : ℝ) ≤ ((x.value i * P : ℚ) : ℝ) := by push_cast at e1 ⊢; exact e1
    exact (Rat.cast_le (K := ℝ)).1 e2
  have hQu : x.value i * P ≤ 10 / 9 := by
    have e1 : ((x.value i * P : ℚ) : ℝ) ≤ 10 / 9 := by
      have e0 : Real.log ((x.value i * P : ℚ) : ℝ) ≤ 1 / 10 := by rw [hlogQ]; linarith
      have e3 := Real.add_one_le_exp (-Real.log ((x.value i * P : ℚ) : ℝ))
      rw [Real.exp_neg, Real.exp_log hQR] at e3
      have e4 : (9 / 10 : ℝ) ≤ (((x.value i * P : ℚ) : ℝ))⁻¹ := by linarith
      have e5 := (le_inv_comm₀ (by norm_num) hQR).1 e4
      norm_num at e5 ⊢
      exact e5
    have e2 : ((x.value i * P : ℚ) : ℝ) ≤ ((10 / 9 : ℚ) : ℝ) := by push_cast at e1 ⊢; exact e1
    exact (Rat.cast_le (K := ℝ)).1 e2
  have hfin : |x.value i * z.value i - x.value i * P| ≤ 3 / 125 * (x.value i * P) := by
    rw [← mul_sub, abs_mul, abs_of_pos hx0]
    calc x.value i * |z.value i - P| ≤ x.value i * (3 / 125 * P) := mul_le_mul_of_nonneg_left (hzv.trans hS) hx0.le
      _ = _ := by ring
  obtain ⟨f1, f2⟩ := abs_le.1 hfin
  exact abs_le.2 ⟨by linarith, by linarith⟩

example : let x : AST 2 (Fin 2) := ⟨fun p i => if p = 0 then ![700, 6553600] i else ![-3, -2] i, 2 ^ 16⟩
    let c : FunCfg := { recipMethod := .log, recipAllPos := true }
    x.scale = 2 ^ 16 ∧ (∀ i, 1 / 100 ≤ x.value i ∧ x.value i ≤ 100) ∧ c.recipAllPos = true ∧ c.expIterations = 8 := by decide +kernel

/-- Sums of exponentials: what the errors of the terms do to the logarithm of the sum. -/
theorem log_sum_near {m : ℕ} (hm : m ≤ 98) (N E : Fin m → ℝ) (T : ℝ) (hNE : ∀ j, N j ≤ E j) (hc : ∀ j, E j - N j ≤ 56 / 100 / 2 ^ 8) (hS : 1 ≤ ∑ j, N j)
    (hT : |T - ∑ j, N j| ≤ 16 / 1000 * ∑ j, N j + m * (3 / 10000)) :
    |Real.log T - Real.log (∑ j, E j)| ≤ (16 / 1000 + m / 400) / (1 - (16 / 1000 + m / 400)) := by
  have hm' : (m : ℝ) ≤ 98 := by exact_mod_cast hm
  have hm0 : (0 : ℝ) ≤ m := Nat.cast_nonneg m
  have h1 : ∑ j, N j ≤ ∑ j, E j := Finset.sum_le_sum fun j _ => hNE j
  have h2 : ∑ j, E j - ∑ j, N j ≤ m * (56 / 100 / 2 ^ 8) := by
    rw [← Finset.sum_sub_distrib]
    refine (Finset.sum_le_sum fun j _ => hc j).trans (le_of_eq ?_)
    rw [Finset.sum_const, Finset.card_univ, Fintype.card_fin, nsmul_eq_mul]
  obtain ⟨t1, t2⟩ := abs_le.1 hT
  generalize ∑ j, N j = S at *
  generalize ∑ j, E j = F at *
  obtain ⟨t, ht⟩ : ∃ t : ℝ, t = 16 / 1000 + m / 400 := ⟨_, rfl⟩
  rw [← ht]
  have ht0 : 0 < t := by rw [ht]; positivity
  have ht1 : 0 < 1 - t := by rw [ht]; linarith
  have hF : 1 ≤ F := hS.trans h1
  have hmF : (m : ℝ) ≤ m * F := le_mul_of_one_le_right hm0 hF
  have hlow : (1 - t) * F ≤ T := by rw [ht]; norm_num at h2; nlinarith
  have hup : T ≤ (1 + t) * F := by rw [ht]; nlinarith
  have hT0 : 0 < T := lt_of_lt_of_le (by positivity) hlow
  have hF0 : 0 < F := by linarith
  rw [← Real.log_div hT0.ne' hF0.ne']
  have hr0 : 0 < T / F := by positivity
  have hr1 : 1 - t ≤ T / F := by rw [le_div_iff₀ hF0]; exact hlow
  have hr2 : T / F ≤ 1 + t := by rw [div_le_iff₀ hF0]; exact hup
  have hq : t ≤ t / (1 - t) := by rw [le_div_iff₀ ht1]; nlinarith
  refine abs_le.2 ⟨?_, ?_⟩
  · have h3 := Real.one_sub_inv_le_log_of_pos hr0
    have h4 : (T / F)⁻¹ ≤ (1 - t)⁻¹ := inv_anti₀ ht1 hr1
    have h5 : -(t / (1 - t)) = 1 - (1 - t)⁻¹ := by field_simp; ring
    rw [h5]; linarith
  · have := Real.log_le_sub_one_of_pos hr0
    linarith

/-- **C53, `log_softmax` with two parties and the default configuration**, for up to 98 classes: within `0.1 + t / (1 - t)` of the exact value, with `t = 0.016 + m / 400`, if the logits
differ by at most 256. -/
theorem C53_log_softmax_default_encrypted (method : MaxMethod) {m : ℕ} (hm2 : 2 ≤ m) (hm98 : m ≤ 98) (x : AST 2 (Fin m × ι)) (hx : x.scale = 2 ^ 16)
    (hr : ∀ i j j', x.value (j, i) - x.value (j', i) ≤ 256) :
    Sat ((mpcOps 2 16 method).logSoftmax {} x) fun z => z.scale = 2 ^ 16 ∧ ∀ i j,
      |((z.value (j, i) : ℚ) : ℝ) - Real.log (Real.exp (x.value (j, i) : ℚ) / ∑ j', Real.exp (x.value (j', i) : ℚ))| ≤ 1 / 10 + (16 / 1000 + m / 400) / (1 - (16 / 1000 + m / 400)) := by
  have hm98' : (m : ℚ) ≤ 98 := by exact_mod_cast hm98
  have hxq := scaleQ_of hx
  have hab : ∀ i j j', |x.value (j, i) - x.value (j', i)| ≤ 256 := fun i j j' => by
    have h1 := hr i j j'; have h2 := hr i j' j
    rw [abs_le]; constructor <;> linarith
  unfold Ops.logSoftmax
  rw [if_neg (by omega)]
  refine Sat.bind (C24_max 16 (by norm_num) (by omega) ?_ method x (Or.inr hx) fun k i j => ?_).sat fun mx hmx => ?_
  · calc 2 ^ 16 * m ≤ 2 ^ 16 * 98 := Nat.mul_le_mul_left _ hm98
      _ < 2 ^ 63 := by norm_num
  · rw [hxq]; exact fits_scaled (hab k i j) (by norm_num) (by norm_num)
  have hmxs : (mx.reindex (Prod.snd : Fin m × ι → ι)).scale = 2 ^ 16 := hmx.1.trans hx
  have hmv : ∀ q : Fin m × ι, (mx.reindex Prod.snd).value q = mx.value q.2 := fun q => value_reindex _ _ _
  have hy0 : ∀ q : Fin m × ι, x.value q - mx.value q.2 ≤ 0 := fun q => by
    have := (hmx.2 q.2).2 ⟨q.1, rfl⟩
    have : x.value q ≤ mx.value q.2 := this
    linarith
  have hy1 : ∀ q : Fin m × ι, -256 ≤ x.value q - mx.value q.2 := fun q => by
    obtain ⟨j', hj'⟩ := (hmx.2 q.2).1
    have h1 := hr q.2 j' q.1
    have h2 : mx.value q.2 = x.value (j', q.2) := hj'.symm
    rw [h2]; linarith
  refine Sat.bind (near_sub (k := 16) (Near.self hx) (Near.self hmxs) (B := 256) (fun q => ?_) (by norm_num)).sat fun y hy => ?_
  · rw [hmv, abs_le]; constructor
    · linarith [hy1 q]
    · linarith [hy0 q]
  have hyv : ∀ q, y.value q = x.value q - mx.value q.2 := fun q => by
    have h1 := hy.2 q
    beta_reduce at h1
    rw [add_zero, hmv] at h1
    exact sub_eq_zero.1 (abs_nonpos_iff.1 h1)
  have hw0 : ∀ q, 0 ≤ 1 + y.value q / 2 ^ 8 := fun q => by
    have := hy1 q; rw [hyv, show (2 : ℚ) ^ 8 = 256 by norm_num]; linarith
  have hw1 : ∀ q, 1 + y.value q / 2 ^ 8 ≤ 1 := fun q => by
    have := hy0 q; rw [hyv, show (2 : ℚ) ^ 8 = 256 by norm_num]; linarith
  refine Sat.bind (C53_exp_encrypted_entries (n := 2) (k := 16) (by norm_num) 16 method (by norm_num) 8 (by norm_num) y hy.1 (fun q => 1 + y.value q / 2 ^ 8)
    (fun q => (abs_of_nonneg (hw0 q)).le) (fun q => ?_) fun q => squareFits_default _ (hw0 q) (hw1 q)) fun num hnum => ?_
  · refine lt_of_le_of_lt (mul_le_mul_of_nonneg_left (add_le_add (hw1 q) le_rfl) (by positivity)) (by norm_num)
  obtain ⟨N, hN⟩ : ∃ N : ι → Fin m → ℚ, ∀ i j, N i j = (1 + y.value (j, i) / 2 ^ 8) ^ 2 ^ 8 := ⟨fun i j => _, fun i j => rfl⟩
  have hN0 : ∀ i j, 0 ≤ N i j := fun i j => by rw [hN]; exact pow_nonneg (hw0 _) _
  have hN1 : ∀ i j, N i j ≤ 1 := fun i j => by rw [hN]; exact pow_le_one₀ (hw0 _) (hw1 _)
  have hS : ∀ i, 1 ≤ ∑ j, N i j := fun i => by
    obtain ⟨j', hj'⟩ := (hmx.2 i).1
    have h1 : N i j' = 1 := by
      have : y.value (j', i) = 0 := by rw [hyv]; exact sub_eq_zero.2 hj'
      rw [hN, this, zero_div, add_zero, one_pow]
    rw [← h1]
    exact Finset.single_le_sum (f := N i) (fun j _ => hN0 i j) (Finset.mem_univ j')
  have hSm : ∀ i, ∑ j, N i j ≤ m := fun i => by
    refine (Finset.sum_le_sum fun j _ => hN1 i j).trans (le_of_eq ?_)
    rw [Finset.sum_const, Finset.card_univ, Fintype.card_fin, nsmul_eq_mul, mul_one]
  have hne : ∀ i j, |num.value (j, i) - N i j| ≤ 16 / 1000 * N i j + 3 / 10000 := fun i j => by
    rw [hN]
    exact (hnum.2 (j, i)).trans (squareErr_default _ (hw0 _) (hw1 _))
  have hT : ∀ i, |∑ j, num.value (j, i) - ∑ j, N i j| ≤ 16 / 1000 * ∑ j, N i j + m * (3 / 10000) := fun i => by
    rw [← Finset.sum_sub_distrib]
    refine (Finset.abs_sum_le_sum_abs _ _).trans ((Finset.sum_le_sum fun j _ => hne i j).trans (le_of_eq ?_))
    rw [Finset.sum_add_distrib, ← Finset.mul_sum, Finset.sum_const, Finset.card_univ, Fintype.card_fin, nsmul_eq_mul]
  have hTb : ∀ i, 1 / 100 ≤ ∑ j, num.value (j, i) ∧ ∑ j, num.value (j, i) ≤ 100 := fun i => by
    obtain ⟨t1, t2⟩ := abs_le.1 (hT i)
    have := hS i; have := hSm i
    constructor <;> linarith
  have hsv : ∀ i, num.sumFirst.value i = ∑ j, num.value (j, i) := fun i => by
    refine sumFirst_value hnum.1 (B := 100) (fun i => ?_) (by norm_num) i
    rw [abs_le]; constructor <;> linarith [(hTb i).1, (hTb i).2]
  refine Sat.bind (C53_log_default_encrypted 16 method {} rfl rfl rfl rfl num.sumFirst hnum.1 fun i => by rw [hsv]; exact hTb i) fun l hl => ?_
  have hTR : ∀ i, (1 : ℝ) / 100 ≤ ((num.sumFirst.value i : ℚ) : ℝ) ∧ ((num.sumFirst.value i : ℚ) : ℝ) ≤ 100 := fun i => by
    have h1 := (Rat.cast_le (K := ℝ)).2 (hTb i).1; have h2 := (Rat.cast_le (K := ℝ)).2 (hTb i).2
    rw [← hsv] at h1 h2
    push_cast at h1 h2; exact ⟨h1, h2⟩
  have hla : ∀ i, |l.value i| ≤ 5 := fun i => by
    have h1 := (hl.2 i).1
    have h2 := abs_log_le (hTR i).1 (hTR i).2
    have h3 := abs_add_le ((l.value i : ℝ) - Real.log (num.sumFirst.value i : ℚ)) (Real.log (num.sumFirst.value i : ℚ))
    rw [sub_add_cancel] at h3
    have h4 : ((|l.value i| : ℚ) : ℝ) ≤ ((5 : ℚ) : ℝ) := by push_cast; linarith
    exact (Rat.cast_le (K := ℝ)).1 h4
  have hlv : ∀ q : Fin m × ι, (l.reindex Prod.snd).value q = l.value q.2 := fun q => value_reindex _ _ _
  have hls : (l.reindex (Prod.snd : Fin m × ι → ι)).scale = 2 ^ 16 := hl.1
  refine (near_sub (k := 16) (Near.self hy.1) (Near.self hls) (B := 300) (fun q => ?_) (by norm_num)).sat.mono fun z hz => ⟨hz.1, fun i j => ?_⟩
  · rw [hlv, hyv]
    obtain ⟨a1, a2⟩ := abs_le.1 (hla q.2)
    exact abs_le.2 ⟨by linarith [hy1 q], by linarith [hy0 q]⟩
  have hzv : z.value (j, i) = y.value (j, i) - l.value i := by
    have h1 := hz.2 (j, i)
    beta_reduce at h1
    rw [add_zero, hlv] at h1
    exact sub_eq_zero.1 (abs_nonpos_iff.1 h1)
  have hbel : ∀ j, 0 ≤ ((N i j : ℚ) : ℝ) ∧ ((N i j : ℚ) : ℝ) ≤ Real.exp (y.value (j, i) : ℚ) ∧ Real.exp (y.value (j, i) : ℚ) - ((N i j : ℚ) : ℝ) ≤ 56 / 100 / 2 ^ 8 := fun j => by
    have a0 : ((y.value (j, i) : ℚ) : ℝ) ≤ 0 := by rw [hyv]; exact_mod_cast hy0 (j, i)
    have a1 : -2 ^ 8 ≤ ((y.value (j, i) : ℚ) : ℝ) := by
      have := hy1 (j, i)
      rw [← hyv] at this
      have := (Rat.cast_le (K := ℝ)).2 this
      push_cast at this
      norm_num
      exact this
    have := exp_below 8 _ a0 a1
    have e : ((N i j : ℚ) : ℝ) = (1 + ((y.value (j, i) : ℚ) : ℝ) / 2 ^ 8) ^ 2 ^ 8 := by rw [hN, Rat.cast_pow, Rat.cast_add, Rat.cast_div, Rat.cast_pow]; simp only [Rat.cast_one, Rat.cast_ofNat]
    rw [e]; exact this
  have hTR' := (Rat.cast_le (K := ℝ)).2 (hT i)
  have hSR := (Rat.cast_le (K := ℝ)).2 (hS i)
  rw [← hsv] at hTR'
  push_cast at hTR' hSR
  have hnear := log_sum_near hm98 (fun j => ((N i j : ℚ) : ℝ)) (fun j => Real.exp (y.value (j, i) : ℚ)) (num.sumFirst.value i : ℚ) (fun j => (hbel j).2.1) (fun j => (hbel j).2.2) hSR hTR'
  have hsum : Real.log (Real.exp (x.value (j, i) : ℚ) / ∑ j', Real.exp (x.value (j', i) : ℚ)) = (y.value (j, i) : ℝ) - Real.log (∑ j', Real.exp (y.value (j', i) : ℚ)) := by
    have e : ∀ j, Real.exp (x.value (j, i) : ℚ) = Real.exp (y.value (j, i) : ℚ) * Real.exp (mx.value i : ℚ) := fun j => by
      rw [← Real.exp_add, hyv]; congr 1; push_cast; ring
    have hpos : 0 < ∑ j', Real.exp ((y.value (j', i) : ℚ) : ℝ) := Finset.sum_pos (fun j _ => Real.exp_pos _) ⟨j, Finset.mem_univ j⟩
    simp only [e]
    rw [← Finset.sum_mul, mul_div_mul_right _ _ (Real.exp_pos _).ne', Real.log_div (Real.exp_pos _).ne' hpos.ne', Real.log_exp]
  rw [hsum, hzv]
  have h1 := (hl.2 i).1
  push_cast
  have h2 := abs_add_le (-((l.value i : ℝ) - Real.log (num.sumFirst.value i : ℚ))) (-(Real.log (num.sumFirst.value i : ℚ) - Real.log (∑ j, Real.exp (y.value (j, i) : ℚ))))
  rw [abs_neg, abs_neg] at h2
  refine le_trans (le_of_eq ?_) (h2.trans (add_le_add h1 hnear))
  congr 1; ring

/-- The hypotheses: two rows of three logits. -/
example : let x : AST 2 (Fin 3 × Fin 2) := ⟨fun p q => if p = 0 then ![![65536, -131072, 0], ![32768, 655360, 7]] q.2 q.1 else ![![3, 5, -7], ![0, 0, 1]] q.2 q.1, 2 ^ 16⟩
    x.scale = 2 ^ 16 ∧ ∀ i j j', x.value (j, i) - x.value (j', i) ≤ 256 := by decide +kernel

end CrypTen

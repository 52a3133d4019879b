import Verif.Spec.PolyShares
import Verif.Props.CosSin
import Verif.Props.Softmax

/-!
# C27 on shares: polynomials
-/

namespace CrypTen
variable {n : ℕ} {ι : Type} {k : ℕ}

theorem le_squareErr (δ : ℚ) (hδ : 0 ≤ δ) : ∀ (d : ℕ) (w e : ℚ), 1 ≤ w → 0 ≤ e → e ≤ squareErr δ d w e
  | 0, _, _, _, _ => le_rfl
  | d + 1, w, e, hw, he => by
    have h1 : e ≤ e * (2 * w + e) + δ := by nlinarith
    exact h1.trans (le_squareErr δ hδ d (w * w) _ (by nlinarith) (he.trans h1))

theorem value_cat [NeZero n] (p : ℕ) (method : MaxMethod) {a b : ℕ} (x : AST n (Fin a × ι)) (y : AST n (Fin b × ι)) (hs : y.scale = x.scale) (j : Fin (a + b)) (i : ι) :
    ((mpcOps n p method).cat x y).value (j, i) = Fin.addCases (motive := fun _ => ℚ) (fun j => x.value (j, i)) (fun j => y.value (j, i)) j := by
  refine Fin.addCases (fun j => ?_) (fun j => ?_) j
  · rw [Fin.addCases_left]
    simp only [AST.value, mpcOps, reveal_apply, Fin.addCases_left]
  · rw [Fin.addCases_right]
    simp only [AST.value, mpcOps, reveal_apply, Fin.addCases_right, hs]

/-- The loop that computes the powers. -/
theorem sat_polyGrow [NeZero n] (hn : n < 2 ^ 60) (q : ℕ) (method : MaxMethod) (hk0 : 0 < k) (hk : k ≤ 62) (v : ι → ℚ) (M : ℚ) (hM : 1 ≤ M) (hv : ∀ i, |v i| ≤ M) (len : ℕ) :
    ∀ (fuel l r m : ℕ) (t : AST n (Fin (m + 1) × ι)) (e : ℚ), m + 1 = 2 ^ l → t.scale = 2 ^ k → 0 ≤ e → (∀ j i, |t.value (j, i) - v i ^ ((j : ℕ) + 1)| ≤ e) → len ≤ m + 1 + fuel →
      len ≤ 2 ^ (l + r) → SquareFits k (n / 2 ^ k) r (M ^ 2 ^ l) e →
      Sat ((mpcOps n q method).polyGrow len fuel m t) fun s => len ≤ s.1 + 1 ∧ s.2.scale = 2 ^ k ∧ ∀ j i, |s.2.value (j, i) - v i ^ ((j : ℕ) + 1)| ≤ squareErr (n / 2 ^ k) r (M ^ 2 ^ l) e
  | 0, l, r, m, t, e, _, hs, he, ht, hf, _, _ => by
    have hδ0 : (0 : ℚ) ≤ n / 2 ^ k := by positivity
    exact Sat.pure ⟨by show len ≤ m + 1; omega, hs, fun j i => (ht j i).trans (le_squareErr _ hδ0 r _ _ (one_le_pow₀ hM) he)⟩
  | fuel + 1, l, r, m, t, e, hm, hs, he, ht, hf, hr, hfit => by
    have hδ0 : (0 : ℚ) ≤ n / 2 ^ k := by positivity
    rw [Ops.polyGrow]
    split
    swap
    · next h => exact Sat.pure ⟨by show len ≤ m + 1; omega, hs, fun j i => (ht j i).trans (le_squareErr _ hδ0 r _ _ (one_le_pow₀ hM) he)⟩
    next h =>
    cases r with
    | zero => rw [add_zero, ← hm] at hr; omega
    | succ r =>
    obtain ⟨hf1, hf2⟩ := hfit
    have hsq := scaleQ_of hs
    have hp : (0 : ℚ) < 2 ^ k := by positivity
    have hW1 : (1 : ℚ) ≤ M ^ 2 ^ l := one_le_pow₀ hM
    have hpow : ∀ (j : Fin (m + 1)) i, |v i ^ ((j : ℕ) + 1)| ≤ M ^ 2 ^ l := fun j i => by
      rw [abs_pow]
      exact (pow_le_pow_left₀ (abs_nonneg _) (hv i) _).trans (pow_le_pow_right₀ hM (by rw [← hm]; omega))
    have hhi : ∀ ji : Fin (m + 1) × ι, ((mpcOps n q method).reindex (fun ji : Fin (m + 1) × ι => (Fin.last m, ji.2)) t).value ji = t.value (Fin.last m, ji.2) := fun ji => value_reindex _ _ _
    have hprod : ∀ (j : Fin (m + 1)) i, |t.value (j, i) * t.value (Fin.last m, i) - v i ^ ((j : ℕ) + 1 + (m + 1))| ≤ e * (2 * M ^ 2 ^ l + e) := fun j i => by
      have h1 := abs_mul_sub_mul_le (ht j i) (ht (Fin.last m) i) (hpow j i) (hpow _ i)
      rw [← pow_add, Fin.val_last] at h1
      refine h1.trans (le_of_eq ?_)
      ring
    refine Sat.bind (C56_mul_equal_scales hn (elementwise _) t _ k hk0 hk hs hs fun ji => ?_) fun new hnew => ?_
    · rw [bilinearQ_elementwise, hsq]
      show Fits ((2 : ℚ) ^ k * (t.scale : ℚ) * _)
      rw [hsq, hhi]
      refine fits_scaled (b := (M ^ 2 ^ l + e) ^ 2) ?_ (by positivity) hf1
      rw [abs_mul, sq]
      have h1 := abs_near (ht ji.1 ji.2) (hpow ji.1 ji.2)
      have h2 := abs_near (ht (Fin.last m) ji.2) (hpow _ ji.2)
      exact mul_le_mul h1 h2 (abs_nonneg _) (by linarith)
    have hnews : new.scale = 2 ^ k := hnew.1.trans hs
    have hnv : ∀ (j : Fin (m + 1)) i, |new.value (j, i) - v i ^ ((j : ℕ) + 1 + (m + 1))| ≤ e * (2 * M ^ 2 ^ l + e) + n / 2 ^ k := fun j i => by
      have h1 := (hnew.2 (j, i)).le
      rw [bilinearQ_elementwise, hsq, hhi] at h1
      have h2 := abs_add_le (new.value (j, i) - t.value (j, i) * t.value (Fin.last m, i)) (t.value (j, i) * t.value (Fin.last m, i) - v i ^ ((j : ℕ) + 1 + (m + 1)))
      rw [sub_add_sub_cancel] at h2
      linarith [hprod j i]
    have hsq2 : M ^ 2 ^ (l + 1) = M ^ 2 ^ l * M ^ 2 ^ l := by rw [← pow_add, pow_succ]; ring_nf
    have he' : e ≤ e * (2 * M ^ 2 ^ l + e) + n / 2 ^ k := by nlinarith
    have := sat_polyGrow hn q method hk0 hk v M hM hv len fuel (l + 1) r (m + 1 + m) ((mpcOps n q method).cat (a := m + 1) (b := m + 1) t new) (e * (2 * M ^ 2 ^ l + e) + n / 2 ^ k)
      (by rw [pow_succ, ← hm]; ring) hs (he.trans he') (fun j i => ?_) (by omega) (by rw [add_assoc, add_comm 1 r]; exact hr) (by rw [hsq2]; exact hf2)
    · rw [hsq2] at this
      exact this
    · refine Fin.addCases (m := m + 1) (n := m + 1) (motive := fun j : Fin (m + 1 + (m + 1)) => |((mpcOps n q method).cat (a := m + 1) (b := m + 1) t new).value (j, i) - v i ^ ((j : ℕ) + 1)| ≤ _) (fun j => ?_) (fun j => ?_) j
      · rw [value_cat q method t new (hnews.trans hs.symm), Fin.addCases_left]
        exact (ht j i).trans he'
      · rw [value_cat q method t new (hnews.trans hs.symm), Fin.addCases_right]
        have h1 := hnv j i
        have e1 : ((Fin.natAdd (m + 1) j : Fin (m + 1 + (m + 1))) : ℕ) + 1 = (j : ℕ) + 1 + (m + 1) := by rw [Fin.val_natAdd]; omega
        rw [e1]
        exact h1

/-- The powers. -/
theorem sat_polyTerms [NeZero n] (hn : n < 2 ^ 60) (q : ℕ) (method : MaxMethod) (hk0 : 0 < k) (hk : k ≤ 62) (x : AST n ι) (hx : x.scale = 2 ^ k) (M : ℚ) (hM : 1 ≤ M)
    (hv : ∀ i, |x.value i| ≤ M) (len r : ℕ) (hlen : len ≤ 2 ^ (r + 1)) (hfit : SquareFits k (n / 2 ^ k) (r + 1) M 0) :
    Sat ((mpcOps n q method).polyTerms x len) fun t => t.scale = 2 ^ k ∧ ∀ j i, |t.value (j, i) - x.value i ^ ((j : ℕ) + 1)| ≤ squareErr (n / 2 ^ k) (r + 1) M 0 := by
  have hδ0 : (0 : ℚ) ≤ n / 2 ^ k := by positivity
  have hxq := scaleQ_of hx
  obtain ⟨hf1, hf2⟩ := hfit
  rw [zero_mul, zero_add] at hf2
  rw [add_zero] at hf1
  refine Sat.bind (C56_square hn x k hk hx fun i => ?_) fun s hs => ?_
  · rw [hxq]
    refine fits_scaled (b := M ^ 2) ?_ (by positivity) hf1
    rw [abs_mul, sq]
    exact mul_le_mul (hv i) (hv i) (abs_nonneg _) (by linarith)
  have hss : s.scale = 2 ^ k := hs.1.trans hx
  have hsv : ∀ i, |s.value i - x.value i ^ 2| ≤ n / 2 ^ k := fun i => by have := (hs.2 i).le; rwa [hxq, ← sq] at this
  have hst : ∀ j i, ((mpcOps n q method).stack 2 fun j => if j = 0 then x else s).value (j, i) = if j = 0 then x.value i else s.value i := fun j i => by
    have e0 : (mpcOps n q method).stack 2 (fun j => if j = 0 then x else s) = ⟨fun p k => (if k.1 = 0 then x else s).share p k.2, x.scale⟩ := by
      simp [mpcOps]
    rw [e0]
    by_cases h : j = 0
    · simp only [AST.value, reveal_apply, h, if_true]
    · simp only [AST.value, reveal_apply, h, if_false, hss, hx]
  have hstS : ((mpcOps n q method).stack 2 fun j => if j = 0 then x else s).scale = 2 ^ k := by
    simp [mpcOps, hx]
  refine Sat.bind (sat_polyGrow hn q method hk0 hk x.value M hM hv len len 1 r 1 ((mpcOps n q method).stack 2 fun j => if j = 0 then x else s) (n / 2 ^ k) rfl hstS hδ0 (fun j i => ?_)
    (by omega) (by rw [add_comm]; exact hlen) (by rw [pow_one, sq]; exact hf2)) fun mt hmt => ?_
  · rw [hst]
    by_cases h : j = 0
    · subst h; simp [hδ0]
    · have : j = 1 := Fin.eq_one_of_ne_zero j h
      subst this
      simpa using hsv i
  obtain ⟨m, t⟩ := mt
  obtain ⟨h1, h2, h3⟩ := hmt
  refine Sat.pure ⟨h2, fun j i => ?_⟩
  have e2 : squareErr (n / 2 ^ k) (r + 1) M 0 = squareErr ((n : ℚ) / 2 ^ k) r (M ^ 2 ^ 1) (n / 2 ^ k) := by
    show squareErr _ r (M * M) (0 * (2 * M + 0) + _) = _
    rw [zero_mul, zero_add, pow_one, sq]
  have h4 := h3 ⟨min j m, by omega⟩ i
  rw [e2]
  have e3 : min (j : ℕ) m = j := by have h1 : len ≤ m + 1 := h1; omega
  have e4 : ((mpcOps n q method).reindex (fun ji : Fin len × ι => ((⟨min ji.1 m, by omega⟩ : Fin (m + 1)), ji.2)) t).value (j, i) = t.value (⟨min j m, by omega⟩, i) := value_reindex _ _ _
  rw [e4]
  simp only [e3] at h4 ⊢
  exact h4

theorem sum_abs_ofFn (coeffs : List ℚ) : (coeffs.map fun c => |c|).sum = ∑ j : Fin coeffs.length, |coeffs.getD j 0| := by
  have : coeffs.map (fun c => |c|) = List.ofFn fun j : Fin coeffs.length => |coeffs.getD j 0| := by
    refine List.ext_getElem (by simp) fun i h1 h2 => ?_
    simp at h1 ⊢
  rw [this, List.sum_ofFn]

/-- **C27 on shares**: `x.polynomial(coeffs)` is the polynomial with the given coefficients, up to the error `polyErr` of the powers, the roundings of the coefficients and the truncations. -/
theorem C27_polynomial_shares [NeZero n] (hn : n < 2 ^ 60) (q : ℕ) (method : MaxMethod) (hk0 : 0 < k) (hk : k ≤ 62) (x : AST n ι) (hx : x.scale = 2 ^ k) (M : ℚ) (hM : 1 ≤ M)
    (hv : ∀ i, |x.value i| ≤ M) (coeffs : List ℚ) (hlen2 : 2 ≤ coeffs.length) (r : ℕ) (hlen : coeffs.length ≤ 2 ^ (r + 1)) (hfit : SquareFits k (n / 2 ^ k) (r + 1) M 0) (C : ℚ)
    (hC : ∀ c ∈ coeffs, |c| ≤ C) (hCk : 2 ^ k * C < 2 ^ 63)
    (hmul : 2 ^ k * 2 ^ k * ((M ^ 2 ^ (r + 1) + squareErr (n / 2 ^ k) (r + 1) M 0) * (C + 1 / 2 ^ k)) < 2 ^ 63)
    (hsum : 2 ^ k * (coeffs.length * ((M ^ 2 ^ (r + 1) + squareErr (n / 2 ^ k) (r + 1) M 0) * (C + 1 / 2 ^ k) + n / 2 ^ k)) < 2 ^ 63) :
    Sat ((mpcOps n q method).polynomial x coeffs) fun z => z.scale = 2 ^ k ∧
      ∀ i, |z.value i - ∑ j : Fin coeffs.length, coeffs.getD j 0 * x.value i ^ ((j : ℕ) + 1)| ≤ polyErr n k (r + 1) M coeffs := by
  have hδ0 : (0 : ℚ) ≤ n / 2 ^ k := by positivity
  have hp : (0 : ℚ) < 2 ^ k := by positivity
  obtain ⟨E, hE⟩ : ∃ E, squareErr ((n : ℚ) / 2 ^ k) (r + 1) M 0 = E := ⟨_, rfl⟩
  obtain ⟨W, hW⟩ : ∃ W, M ^ 2 ^ (r + 1) = W := ⟨_, rfl⟩
  have hE0 : 0 ≤ E := by rw [← hE]; exact squareErr_nonneg _ hδ0 _ _ _ (by linarith) le_rfl
  have hC' : ∀ j : Fin coeffs.length, |coeffs.getD j 0| ≤ C := fun j => by
    refine hC _ ?_
    rw [List.getD_eq_getElem?_getD, List.getElem?_eq_getElem j.isLt]
    exact List.getElem_mem _
  have hC0 : 0 ≤ C := (abs_nonneg _).trans (hC' ⟨0, by omega⟩)
  rw [hE, hW] at hmul hsum
  unfold Ops.polynomial
  rw [if_neg (by omega)]
  refine Sat.bind (sat_polyTerms hn q method hk0 hk x hx M hM hv coeffs.length r hlen hfit) fun t ht => ?_
  obtain ⟨hts, htv⟩ := ht
  rw [hE] at htv
  have htq := scaleQ_of hts
  have hpw : ∀ (j : Fin coeffs.length) i, |x.value i ^ ((j : ℕ) + 1)| ≤ W := fun j i => by
    rw [abs_pow, ← hW]
    exact (pow_le_pow_left₀ (abs_nonneg _) (hv i) _).trans (pow_le_pow_right₀ hM (by omega))
  have hta : ∀ (j : Fin coeffs.length) i, |t.value (j, i)| ≤ W + E := fun j i => abs_near (htv j i) (hpw j i)
  have hW0 : 0 ≤ W := by rw [← hW]; positivity
  have hc : ∀ j : Fin coeffs.length, |(truncQ (2 ^ k * coeffs.getD j 0) : ℚ) / 2 ^ k - coeffs.getD j 0| ≤ 1 / 2 ^ k := fun j => trunc_any k _
  have hca : ∀ j : Fin coeffs.length, |(truncQ (2 ^ k * coeffs.getD j 0) : ℚ) / 2 ^ k| ≤ C + 1 / 2 ^ k := fun j => abs_near (hc j) (hC' j)
  refine Sat.bind (C56_mul_public hn (elementwise _) t (fun ji => coeffs.getD ji.1 0) k hk0 hk hts (fun ji => ?_) fun ji => ?_) fun y hy => ?_
  · rw [htq, abs_mul, abs_of_pos hp]
    exact lt_of_le_of_lt (mul_le_mul_of_nonneg_left (hC' ji.1) hp.le) hCk
  · rw [htq, bilinearQ_elementwise]
    refine fits_scaled (b := (W + E) * (C + 1 / 2 ^ k)) ?_ (by positivity) hmul
    rw [abs_mul]
    exact mul_le_mul (hta _ _) (hca _) (abs_nonneg _) (by linarith)
  have hys : y.scale = 2 ^ k := hy.1.trans hts
  have hyv : ∀ (j : Fin coeffs.length) i, |y.value (j, i) - t.value (j, i) * ((truncQ (2 ^ k * coeffs.getD j 0) : ℚ) / 2 ^ k)| ≤ n / 2 ^ k := fun j i => by
    have := (hy.2 (j, i)).le
    rwa [htq, bilinearQ_elementwise] at this
  have hya : ∀ (j : Fin coeffs.length) i, |y.value (j, i)| ≤ (W + E) * (C + 1 / 2 ^ k) + n / 2 ^ k := fun j i => by
    refine abs_near (hyv j i) ?_
    rw [abs_mul]
    exact mul_le_mul (hta _ _) (hca _) (abs_nonneg _) (by linarith)
  refine Sat.pure ⟨hys, fun i => ?_⟩
  have hsv : ((mpcOps n q method).sum y).value i = ∑ j, y.value (j, i) := by
    refine sumFirst_value hys (B := coeffs.length * ((W + E) * (C + 1 / 2 ^ k) + n / 2 ^ k)) (fun i => ?_) hsum i
    refine (Finset.abs_sum_le_sum_abs _ _).trans ((Finset.sum_le_sum fun j _ => hya j i).trans (le_of_eq ?_))
    rw [Finset.sum_const, Finset.card_univ, Fintype.card_fin, nsmul_eq_mul]
  rw [hsv, ← Finset.sum_sub_distrib]
  refine (Finset.abs_sum_le_sum_abs _ _).trans ?_
  have hterm : ∀ j : Fin coeffs.length, |y.value (j, i) - coeffs.getD j 0 * x.value i ^ ((j : ℕ) + 1)| ≤ |coeffs.getD j 0| * E + ((W + E) / 2 ^ k + n / 2 ^ k) := fun j => by
    have e : y.value (j, i) - coeffs.getD j 0 * x.value i ^ ((j : ℕ) + 1) = (y.value (j, i) - t.value (j, i) * ((truncQ (2 ^ k * coeffs.getD j 0) : ℚ) / 2 ^ k)) +
        t.value (j, i) * ((truncQ (2 ^ k * coeffs.getD j 0) : ℚ) / 2 ^ k - coeffs.getD j 0) + coeffs.getD j 0 * (t.value (j, i) - x.value i ^ ((j : ℕ) + 1)) := by ring
    have h1 : |t.value (j, i) * ((truncQ (2 ^ k * coeffs.getD j 0) : ℚ) / 2 ^ k - coeffs.getD j 0)| ≤ (W + E) / 2 ^ k := by
      rw [abs_mul, div_eq_mul_one_div (W + E)]
      exact mul_le_mul (hta j i) (hc j) (abs_nonneg _) (by linarith)
    have h2 : |coeffs.getD j 0 * (t.value (j, i) - x.value i ^ ((j : ℕ) + 1))| ≤ |coeffs.getD j 0| * E := by
      rw [abs_mul]
      exact mul_le_mul_of_nonneg_left (htv j i) (abs_nonneg _)
    rw [e]
    have h3 := abs_add_le (y.value (j, i) - t.value (j, i) * ((truncQ (2 ^ k * coeffs.getD j 0) : ℚ) / 2 ^ k) + t.value (j, i) * ((truncQ (2 ^ k * coeffs.getD j 0) : ℚ) / 2 ^ k - coeffs.getD j 0))
      (coeffs.getD j 0 * (t.value (j, i) - x.value i ^ ((j : ℕ) + 1)))
    have h4 := abs_add_le (y.value (j, i) - t.value (j, i) * ((truncQ (2 ^ k * coeffs.getD j 0) : ℚ) / 2 ^ k)) (t.value (j, i) * ((truncQ (2 ^ k * coeffs.getD j 0) : ℚ) / 2 ^ k - coeffs.getD j 0))
    have h5 := hyv j i
    linarith
  refine (Finset.sum_le_sum fun j _ => hterm j).trans (le_of_eq ?_)
  unfold polyErr
  rw [Finset.sum_add_distrib, ← Finset.sum_mul, Finset.sum_const, Finset.card_univ, Fintype.card_fin, nsmul_eq_mul, hE, hW, sum_abs_ofFn]

/-- The hypotheses: sharings of 3/2 and -2 by three parties and the polynomial `x - x²/2 + x³/3`. -/
example : let x : AST 3 (Fin 2) := ⟨fun p i => if p = 0 then ![98305, -131074] i else if p = 1 then ![-3, 1] i else ![2, 1] i, 2 ^ 16⟩
    let coeffs : List ℚ := [1, -1 / 2, 1 / 3]
    x.scale = 2 ^ 16 ∧ (∀ i, |x.value i| ≤ 2) ∧ 2 ≤ coeffs.length ∧ coeffs.length ≤ 2 ^ (1 + 1) ∧ (∀ c ∈ coeffs, |c| ≤ 1) ∧
      2 ^ 16 * 2 ^ 16 * ((2 ^ 2 ^ (1 + 1) + squareErr ((3 : ℕ) / 2 ^ 16) (1 + 1) 2 0) * (1 + 1 / 2 ^ 16)) < (2 ^ 63 : ℚ) ∧
      2 ^ 16 * (coeffs.length * ((2 ^ 2 ^ (1 + 1) + squareErr ((3 : ℕ) / 2 ^ 16) (1 + 1) 2 0) * (1 + 1 / 2 ^ 16) + (3 : ℕ) / 2 ^ 16)) < (2 ^ 63 : ℚ) ∧
      polyErr 3 16 (1 + 1) 2 coeffs ≤ 4 / 1000 := by decide +kernel

example : SquareFits 16 ((3 : ℕ) / 2 ^ 16) (1 + 1) 2 0 := by
  refine ⟨?_, ?_, trivial⟩ <;> decide +kernel

end CrypTen

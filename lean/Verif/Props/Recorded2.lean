import Verif.Props.Recorded
import Verif.Props.Power

/-!
# C87: results while gradients are recorded, witnesses, products and powers
-/

namespace CrypTen
variable {n : ℕ} {ι : Type}

/-- **C87 is false for the smallest number**: recorded, `relu` leaves it as it is; otherwise it is 0. -/
theorem C87_relu_wrong (n : ℕ) [NeZero n] : ∃ x : AST n Unit, x.scale = 2 ^ 16 ∧ x.value () = -2 ^ 47 ∧
    SatX (x.reluRec (2 ^ 16)) (fun z => z.value () = -2 ^ 47) ∧ SatX (x.relu (2 ^ 16)) (fun z => z.value () = 0) := by
  have hv : ∀ i, (holder n Unit (BitVec.intMin 64) (2 ^ 16)).value i = -2 ^ 47 := fun i => by
    rw [holder_value (z := -2 ^ 63) (hz := by decide)]; norm_num
  set x := holder n Unit (BitVec.intMin 64) (2 ^ 16) with hx
  have hsc : x.scale = 2 ^ 16 := rfl
  refine ⟨x, rfl, hv (), ?_, ?_⟩
  · refine SatX.bind (P := fun g => IsBit g fun _ => true) ?_ fun g hg => ?_
    · refine SatX.bind (P := fun d => d.scale = 2 ^ 16 ∧ ∀ i, reveal d.share i = BitVec.intMin 64) (SatX.pure ⟨rfl, fun i => ?_⟩) fun d hd => (sat_ltz_word _ d).mono fun z hz => ⟨hz.1, fun i => ?_⟩
      · rw [addPub_word, neg_word, holder_word, mul_zero, truncQ_zero]; decide
      · rw [hz.2, hd.2, hd.1]; beta_reduce; decide
    · have h1 : ∀ i, g.value i = 1 := fun i => by rw [hg.value]; simp
      refine (C56_mul_unscaled (elementwise Unit) x g (by rw [hsc]; norm_num) (by rw [hg.1]; norm_num) (Or.inr hg.1) fun i => ?_).mono fun z hz => ?_
      · rw [bilinearQ_elementwise, h1, hv, hsc, hg.1]; unfold Fits; norm_num
      · rw [hz.2, bilinearQ_elementwise, h1, hv]; norm_num
  · refine (C23_relu (D := 2 ^ 16) (by norm_num) x (Or.inr rfl)).mono fun z hz => ?_
    rw [hz.2, hv]; norm_num

/-- Equal bounds: recorded, the result is an encryption of the bound, whatever the input. -/
theorem C87_hardtanh_equal [NeZero n] {D : ℕ} (hD : 0 < D) (x : AST n ι) (lo hi : PyNum) (he : lo.val = hi.val) (hb : |(D : ℚ) * lo.val| < 2 ^ 63) :
    SatX (x.hardtanhRec D lo hi) fun z => z.scale = D ∧ ∀ i, z.value i = (truncQ (D * lo.val) : ℚ) / D := by
  unfold AST.hardtanhRec
  rw [if_pos he]
  refine SatX.bind (sat_encryptA 0 (encodePublic D fun _ : ι => 0)) fun s hs => SatX.pure ⟨rfl, fun i => ?_⟩
  have h0 : (⟨s, D⟩ : AST n ι).value i = 0 := by
    rw [AST.value]; show ((reveal s i).toInt : ℚ) / D = 0
    rw [hs, encodePublic_ofInt, mul_zero, truncQ_zero]; simp
  have hD' : (0 : ℚ) < D := by exact_mod_cast hD
  rw [addPub_value (⟨s, D⟩ : AST n ι) _ hD i, h0, zero_add]
  rw [h0, zero_add, mul_div_cancel₀ _ hD'.ne']
  exact fits_abs (lt_of_le_of_lt (abs_truncQ_le _) hb)

/-- **C87 for products with a Python integer, what holds**: without gradients the product is exact; recorded, it is off by less than one unit in the last place per party, and twice the
fraction bits must fit. Missing: equality. -/
theorem C87_mul_int_partial [NeZero n] (hn : n < 2 ^ 60) (x : AST n ι) (k : ℕ) (hk : 0 < k) (hk' : k ≤ 62) (hx : x.scale = 2 ^ k) (z : ℤ) (hz : |(2 : ℚ) ^ k * z| < 2 ^ 63)
    (hfit : ∀ i, |(2 : ℚ) ^ k * 2 ^ k * (x.value i * z)| < 2 ^ 63) :
    SatX (x.mulPy (.int z)) (fun y => y.scale = x.scale ∧ ∀ i, y.value i = x.value i * z) ∧
    Sat (x.mulPyRec (.int z)) (fun y => y.scale = x.scale ∧ ∀ i, |y.value i - x.value i * z| < n / 2 ^ k) := by
  have hs : 0 < x.scale := by rw [hx]; positivity
  have hsq : (x.scale : ℚ) = 2 ^ k := by rw [hx]; push_cast; rfl
  have hp : (1 : ℚ) ≤ 2 ^ k := one_le_pow₀ (by norm_num)
  constructor
  · refine SatX.pure ⟨rfl, fun i => mulInt_value x z hs i (fits_abs ?_)⟩
    refine lt_of_le_of_lt ?_ (hfit i)
    rw [hsq, mul_assoc, abs_mul ((2 : ℚ) ^ k) (2 ^ k * _), abs_of_pos (by positivity : (0 : ℚ) < 2 ^ k)]
    exact le_mul_of_one_le_left (abs_nonneg _) hp
  · have enc : ∀ i : ι, (truncQ ((x.scale : ℚ) * (PyNum.int z).val) : ℚ) / x.scale = z := by
      intro _
      have := truncQ_intCast ((x.scale : ℤ) * z)
      push_cast at this
      simp only [PyNum.val]
      rw [this, Int.cast_mul, Int.cast_natCast, mul_comm, mul_div_assoc, div_self (by rw [hsq]; positivity), mul_one]
    refine (C56_mul_public hn (elementwise ι) x (fun _ => (PyNum.int z).val) k hk hk' hx (fun i => by rw [hsq]; exact hz) fun i => ?_).mono fun y hy => ⟨hy.1, fun i => ?_⟩
    · rw [bilinearQ_elementwise]; rw [enc i, hsq]; exact fits_abs (hfit i)
    · have := hy.2 i
      rw [bilinearQ_elementwise] at this; rw [enc i, hsq] at this; exact this

/-- **C87 is false for products with a Python integer**: `2 ^ 31 * 2` is `2 ^ 32`, and 0 up to rounding while gradients are recorded. -/
theorem C87_mul_int_wrong (n : ℕ) [NeZero n] (hn : n < 2 ^ 60) : ∃ x : AST n Unit, x.scale = 2 ^ 16 ∧ x.value () = 2 ^ 31 ∧
    SatX (x.mulPy (.int 2)) (fun y => y.value () = 2 ^ 32) ∧ Sat (x.mulPyRec (.int 2)) (fun y => |y.value ()| < n / 2 ^ 16) := by
  have hv : ∀ i, (holder n Unit (2 ^ 47) (2 ^ 16)).value i = 2 ^ 31 := fun i => by
    rw [holder_value (z := 2 ^ 47) (hz := by decide)]; norm_num
  set x := holder n Unit (2 ^ 47) (2 ^ 16) with hx
  have hsc : x.scale = 2 ^ 16 := rfl
  refine ⟨x, rfl, hv (), SatX.pure ?_, ?_⟩
  · rw [mulInt_value x 2 (by rw [hsc]; norm_num) (), hv]
    · norm_num
    · rw [hv, hsc]; unfold Fits; norm_num
  · unfold AST.mulPyRec AST.mulPub
    simp only
    rw [if_pos (by rw [hsc]; norm_num)]
    refine Sat.bind (sat_divInt_pow2 hn (bilinearPublic (elementwise Unit) x.share (encodePublic x.scale fun _ => (PyNum.int 2).val)) 16 (by norm_num)) fun y hy => Sat.pure ?_
    have h := hy ()
    have e : reveal (bilinearPublic (elementwise Unit) x.share (encodePublic x.scale fun _ => (PyNum.int 2).val)) () = 0 := by
      rw [reveal_bilinearPublic]
      simp only [BilinearOp.apply, elementwise, Torch.mulOp, List.map_cons, List.map_nil, List.sum_cons, List.sum_nil, id, add_zero]
      rw [holder_word, encodePublic_ofInt, hsc, show (((2 ^ 16 : ℕ) : ℚ) * (PyNum.int 2).val) = ((131072 : ℤ) : ℚ) by simp only [PyNum.val]; norm_num, truncQ_intCast]
      decide
    rw [e, show BitVec.toInt (0 : I64) = 0 from rfl, sub_zero] at h
    rw [AST.value]
    have h' : |(2 : ℚ) ^ 16 * (reveal y ()).toInt| ≤ n * (2 ^ 16 - 1) := by exact_mod_cast h
    have hn0 : (0 : ℚ) < n := by exact_mod_cast Nat.pos_of_neZero n
    show |((reveal y ()).toInt : ℚ) / ((2 ^ 16 : ℕ) : ℚ)| < _
    rw [abs_mul, abs_of_pos (by norm_num : (0 : ℚ) < 2 ^ 16)] at h'
    rw [abs_div, div_lt_div_iff₀ (by norm_num) (by norm_num)]
    push_cast
    rw [abs_of_pos (by norm_num : (0 : ℚ) < 65536)]
    nlinarith

/-- 5 times 3 with 2 parties. -/
example : ∃ x : AST 2 Unit, x.scale = 2 ^ 16 ∧ (∀ i, |(2 : ℚ) ^ 16 * 2 ^ 16 * (x.value i * (3 : ℤ))| < 2 ^ 63) ∧ ∀ i, x.value i = 5 := by
  have hv : ∀ i, (holder 2 Unit 327680 (2 ^ 16)).value i = 5 := fun i => by
    rw [holder_value (z := 327680) (hz := by decide)]; norm_num
  exact ⟨_, rfl, fun i => by rw [hv]; norm_num [abs_of_pos], hv⟩

theorem powExponent_even (m : ℕ) (hm : 1 ≤ m) : powExponent (2 * m) = 2 * powExponent m := by
  rcases Nat.lt_or_ge 1 m with h | h
  · rw [powExponent, if_neg (by omega), if_neg (by omega), if_pos (by omega)]; congr 2; omega
  · obtain rfl : m = 1 := by omega
    decide +kernel

theorem powExponent_odd (m : ℕ) (hm : 1 ≤ m) : powExponent (2 * m + 1) = 3 * powExponent m := by
  rw [powExponent, if_neg (by omega), if_neg (by omega), if_neg (by omega)]; congr 2; omega

theorem powExponent_pred (a : ℕ) : powExponent (2 ^ (a + 1) - 1) = 3 ^ a := by
  induction a with
  | zero => decide +kernel
  | succ a ih =>
    have h := Nat.one_le_two_pow (n := a)
    have : 2 ^ (a + 1 + 1) - 1 = 2 * (2 ^ (a + 1) - 1) + 1 := by rw [pow_succ 2 (a + 1), pow_succ 2 a]; omega
    rw [this, powExponent_odd _ (by rw [pow_succ]; omega), ih, pow_succ]; ring

theorem powExponent_three (m : ℕ) (hm : 1 ≤ m) (h : ¬ 3 ∣ powExponent m) : ∃ a, m = 2 ^ a ∧ powExponent m = 2 ^ a := by
  induction m using Nat.strong_induction_on with
  | _ m ih =>
  rcases Nat.even_or_odd' m with ⟨k, rfl | rfl⟩
  · rw [powExponent_even k (by omega)] at h ⊢
    obtain ⟨a, h1, h2⟩ := ih k (by omega) (by omega) fun hd => h (hd.mul_left 2)
    exact ⟨a + 1, by rw [pow_succ]; omega, by rw [pow_succ, h2]; ring⟩
  · rcases Nat.eq_zero_or_pos k with h0 | h0
    · subst h0; exact ⟨0, rfl, by decide +kernel⟩
    · rw [powExponent_odd k h0] at h
      exact absurd (Dvd.intro _ rfl) h

/-- The exponents that `pow` arrives at with and without gradients agree for three powers only. -/
theorem powExponent_succ_iff (p : ℕ) (hp : 2 ≤ p) : powExponent p = powExponent (p - 1) + 1 ↔ p = 2 ∨ p = 3 ∨ p = 4 := by
  constructor
  · intro h
    rcases Nat.even_or_odd' p with ⟨m, rfl | rfl⟩
    · rcases Nat.lt_or_ge 1 m with hm | hm
      · obtain ⟨l, rfl⟩ : ∃ l, m = l + 1 := ⟨m - 1, by omega⟩
        rw [powExponent_even _ (by omega), show 2 * (l + 1) - 1 = 2 * l + 1 by omega, powExponent_odd l (by omega)] at h
        obtain ⟨a, h1, h2⟩ := powExponent_three (l + 1) (by omega) (by omega)
        rcases a with _ | a
        · simp only [pow_zero] at h1; omega
        · have hl : l = 2 ^ (a + 1) - 1 := by omega
          rw [h2, hl, powExponent_pred] at h
          rcases a with _ | a
          · simp only [zero_add, pow_one] at hl; omega
          · exfalso
            have h3 : ∀ a : ℕ, 2 * 2 ^ (a + 1 + 1) < 3 * 3 ^ (a + 1) + 1 := by
              intro a
              induction a with
              | zero => norm_num
              | succ a ih => rw [pow_succ 2 (a + 1 + 1), pow_succ 3 (a + 1)]; omega
            have := h3 a; omega
      · omega
    · rw [powExponent_odd m (by omega), show 2 * m + 1 - 1 = 2 * m by omega, powExponent_even m (by omega)] at h
      have := powExponent_ge m
      omega
  · rintro (rfl | rfl | rfl) <;> decide +kernel

section
variable {K : Type} [Field K] [LinearOrder K]

/-- What `pow` computes while gradients are recorded, in exact arithmetic. -/
theorem C87_pow_value (c : FunCfg) (x : ι → K) :
    (∀ p : ℚ, (exactOps K).powRec c x p = none ↔ (exactOps K).pow c x p = none) ∧
    (∀ p : ℕ, 2 ≤ p → ∃ r : ι → K, (exactOps K).powRec c x p = some r ∧ ∀ i, r i = x i ^ (powExponent (p - 1) + 1)) ∧
    (∃ r : ι → K, (exactOps K).powRec c x 1 = some r ∧ ∀ i, r i = x i) ∧
    (∃ r : ι → K, (exactOps K).powRec c x 0 = some r ∧ ∀ i, r i = (exactOps K).reciprocal c x i * x i) := by
  obtain ⟨h1, h2, h3, h4⟩ := C26_pow_dispatch (K := K) c x
  refine ⟨fun p => ?_, fun p hp => ?_, ?_, ?_⟩
  · unfold Ops.powRec
    rw [Option.map_eq_none_iff, h1, h1]
    constructor
    · intro h z hz; exact h (z - 1) (by rw [hz]; push_cast; ring)
    · intro h z hz; exact h (z + 1) (by push_cast; linarith)
  · obtain ⟨q, rfl⟩ : ∃ q, p = q + 1 := ⟨p - 1, by omega⟩
    unfold Ops.powRec
    rw [show ((q + 1 : ℕ) : ℚ) - 1 = (q : ℕ) by push_cast; ring, h3 q (by omega)]
    refine ⟨_, rfl, fun i => ?_⟩
    show (exactOps K).powPos x q i * x i = _
    rw [C26_pow_exponent q (by omega), Nat.add_sub_cancel, pow_succ]
  · obtain ⟨r, hr, hv⟩ := h2
    unfold Ops.powRec
    rw [sub_self, hr]
    refine ⟨_, rfl, fun i => ?_⟩
    show r i * x i = _
    rw [hv, one_mul]
  · obtain ⟨r, hr, hv⟩ := h4 1 one_pos
    unfold Ops.powRec
    rw [zero_sub, show (-1 : ℚ) = -((1 : ℕ) : ℚ) by norm_num, hr]
    refine ⟨_, rfl, fun i => ?_⟩
    show r i * x i = _
    rw [hv, C26_pow_exponent 1 one_pos, show powExponent 1 = 1 by decide +kernel, pow_one]

/-- **C87 for powers, what holds**: 1, 2, 3 and 4 give the power, recorded or not. -/
theorem C87_pow_partial (c : FunCfg) (x : ι → K) (p : ℕ) (hp : p = 1 ∨ p = 2 ∨ p = 3 ∨ p = 4) : ∃ r s : ι → K,
    (exactOps K).powRec c x p = some r ∧ (exactOps K).pow c x p = some s ∧ ∀ i, r i = x i ^ p ∧ s i = x i ^ p := by
  obtain ⟨_, h2, h3, _⟩ := C87_pow_value (K := K) c x
  obtain ⟨_, _, h5, _⟩ := C26_pow_dispatch (K := K) c x
  have e : powExponent p = p := by rcases hp with rfl | rfl | rfl | rfl <;> decide +kernel
  by_cases h1 : p = 1
  · subst h1
    obtain ⟨r, hr, hv⟩ := h3
    exact ⟨r, _, by rw [Nat.cast_one]; exact hr, h5 1 one_pos, fun i => ⟨by rw [hv, pow_one], by rw [C26_pow_exponent 1 one_pos, e]⟩⟩
  · obtain ⟨r, hr, hv⟩ := h2 p (by omega)
    have := (powExponent_succ_iff p (by omega)).2 (by omega)
    exact ⟨r, _, hr, h5 p (by omega), fun i => ⟨by rw [hv, ← this, e], by rw [C26_pow_exponent p (by omega), e]⟩⟩

/-- **C87 is false for every larger power**, already for the base 2; the recorded power 5 is right (`2 ^ 5`), the native one is `2 ^ 6`, and for the power 6 it is the other way round. -/
theorem C87_pow_wrong (c : FunCfg) (p : ℕ) (hp : 5 ≤ p) : ∃ r s : Unit → ℚ,
    (exactOps ℚ).powRec c (fun _ : Unit => 2) p = some r ∧ (exactOps ℚ).pow c (fun _ : Unit => 2) p = some s ∧ r () ≠ s () := by
  obtain ⟨_, h2, _, _⟩ := C87_pow_value (K := ℚ) c (fun _ : Unit => 2)
  obtain ⟨_, _, h5, _⟩ := C26_pow_dispatch (K := ℚ) c (fun _ : Unit => 2)
  obtain ⟨r, hr, hv⟩ := h2 p (by omega)
  refine ⟨r, _, hr, h5 p (by omega), ?_⟩
  rw [hv, C26_pow_exponent p (by omega)]
  intro h
  have h' : 2 ^ (powExponent (p - 1) + 1) = 2 ^ powExponent p := by exact_mod_cast h
  have := (powExponent_succ_iff p (by omega)).1 (Nat.pow_right_injective (le_refl 2) h').symm
  omega

/-- **C87 is false for the power 0**: zero to the power 0 is 1, and 0 while gradients are recorded. -/
theorem C87_pow_zero_wrong (c : FunCfg) : ∃ r s : Unit → ℚ,
    (exactOps ℚ).powRec c (fun _ : Unit => 0) 0 = some r ∧ (exactOps ℚ).pow c (fun _ : Unit => 0) 0 = some s ∧ r () = 0 ∧ s () = 1 := by
  obtain ⟨_, _, _, r, hr, hv⟩ := C87_pow_value (K := ℚ) c (fun _ : Unit => 0)
  obtain ⟨_, ⟨s, hs, hsv⟩, _, _⟩ := C26_pow_dispatch (K := ℚ) c (fun _ : Unit => 0)
  exact ⟨r, s, hr, hs, by rw [hv, mul_zero], hsv ()⟩
end

/-- **C87 is false for powers on shares**: two to the fifth is 32 while gradients are recorded, and more than 63 otherwise. -/
theorem C87_pow_encrypted_wrong [NeZero n] (hn : n ≤ 1000) (q : ℕ) (method : MaxMethod) (c : FunCfg) (x : AST n Unit) (hx : x.scale = 2 ^ 16) (hx2 : ∀ i, x.value i = 2) : ∃ r s,
    (mpcOps n q method).powRec c x 5 = some r ∧ (mpcOps n q method).pow c x 5 = some s ∧ Sat r (fun z => |z.value () - 32| < 1) ∧ Sat s (fun z => 63 < z.value ()) := by
  have d5 : ((5 : ℕ) : ℚ) = 5 := by norm_num
  have d4 : (5 : ℚ) - 1 = ((4 : ℕ) : ℚ) := by norm_num
  have hpow : ∀ m : ℕ, 1 ≤ m → (mpcOps n q method).pow c x (m : ℕ) = some ((mpcOps n q method).powPos x m) := by
    intro m hm
    unfold Ops.pow
    have hm' : ((m : ℚ)).num = m := Rat.num_natCast m
    rw [if_neg (by rw [Rat.den_natCast]; exact fun h => h rfl), hm', if_neg (by omega), if_neg (by omega), if_neg (by omega)]
    rfl
  have hδ0 : (0 : ℚ) ≤ n / 2 ^ 16 := by positivity
  have hδ1 : (n : ℚ) / 2 ^ 16 ≤ 1 / 60 := by
    rw [div_le_div_iff₀ (by positivity) (by positivity)]
    have : (n : ℚ) ≤ 1000 := by exact_mod_cast hn
    linarith
  have hx0 : Near 16 x (fun _ => 2) 0 := (Near.self hx).congr hx2
  refine ⟨_, _, by unfold Ops.powRec; rw [d4, hpow 4 (by norm_num)]; rfl, by rw [← d5]; exact hpow 5 (by norm_num), ?_, C26_pow_encrypted_wrong hn q method x hx hx2⟩
  refine Sat.bind (P := fun g => Near 16 g (fun _ => 16) (10 * (n / 2 ^ 16))) ?_ fun g hg => ?_
  · rw [Ops.powPos, dif_neg (by norm_num), if_neg (by norm_num), if_pos (by norm_num)]
    refine Sat.bind (near_square (by omega) (by norm_num) hx0 (B := 2) (fun _ => by norm_num) (by norm_num)) fun s hs => ?_
    have hs' : Near 16 s (fun _ => 4) (n / 2 ^ 16) := (hs.congr fun i => by norm_num).mono (by linarith)
    show Sat ((mpcOps n q method).powPos s 2) _
    rw [Ops.powPos, dif_neg (by norm_num), if_pos rfl]
    refine (near_square (by omega) (by norm_num) hs' (B := 4) (fun _ => by norm_num) (by nlinarith)).mono fun z hz => ?_
    exact (hz.congr fun i => by norm_num).mono (by nlinarith)
  · refine (near_mul (by omega) (by norm_num) (by norm_num) hg hx0 (B := 16) (C := 2) (fun _ => by norm_num) (fun _ => by norm_num) (by nlinarith)).mono fun z hz => ?_
    have := hz.2 ()
    norm_num at this
    refine lt_of_le_of_lt this ?_
    nlinarith

/-- **C87 for `sqrt` and `abs`**: the same protocol runs, for every reading of the operations. -/
theorem C87_sqrt_abs {M : Type → Type u} [Monad M] {A : Type → Type} (O : Ops M A) (c : FunCfg) (x : A ι) : O.sqrtRec c x = O.sqrt c x ∧ O.absRec x = O.abs x := ⟨rfl, rfl⟩

/-- The base 2 with 2 parties. -/
example : ∃ x : AST 2 Unit, x.scale = 2 ^ 16 ∧ ∀ i, x.value i = 2 :=
  ⟨holder 2 Unit 131072 (2 ^ 16), rfl, fun i => by rw [holder_value (z := 131072) (hz := by decide)]; norm_num⟩

end CrypTen

import Verif.Spec.Reciprocal
import Verif.Props.FixedPoint
import Verif.Props.Approx
import Verif.Props.Division

/-!
# Reciprocals as they are computed on shares

`Props/Approx.lean` bounds the error that Newton's iteration would have in exact arithmetic. Here every square, product and division loses the units that truncating the shares
loses: the iteration converges to an error of about `x (x + 1) n` units in the last place, for every entry by itself.
-/

namespace CrypTen
variable {n : ℕ} {ι ι' κ : Type} {k : ℕ}

theorem scaleQ_of {x : AST n ι} (hx : x.scale = 2 ^ k) : (x.scale : ℚ) = 2 ^ k := by rw [hx]; push_cast; rfl

theorem fits_scaled {a b c : ℚ} (h : |a| ≤ b) (hc : 0 < c) (hb : c * b < 2 ^ 63) : Fits (c * a) := by
  refine fits_of_abs (b := c * b) ?_ hb
  rw [abs_mul, abs_of_pos hc]
  exact mul_le_mul_of_nonneg_left h hc.le

theorem abs_near {a b e B : ℚ} (h : |a - b| ≤ e) (hb : |b| ≤ B) : |a| ≤ B + e := by
  have := abs_add_le (a - b) b; rw [sub_add_cancel] at this; linarith

/-! ## exp, entry by entry -/

theorem sat_squarings [NeZero n] (hn : n < 2 ^ 60) (hk : k ≤ 62) : ∀ (d : ℕ) (x : AST n ι) (v w e : ι → ℚ), x.scale = 2 ^ k → (∀ i, |x.value i - v i| ≤ e i) →
    (∀ i, |v i| ≤ w i) → (∀ i, SquareFits k (n / 2 ^ k) d (w i) (e i)) →
    Sat (iterM AST.square d x) fun z => z.scale = 2 ^ k ∧ ∀ i, |z.value i - v i ^ 2 ^ d| ≤ squareErr (n / 2 ^ k) d (w i) (e i) := by
  intro d
  induction d with
  | zero =>
    intro x v w e hs hx hv _
    refine Sat.pure ⟨hs, fun i => ?_⟩
    simpa [squareErr] using hx i
  | succ d ih =>
    intro x v w e hs hx hv hf
    have hsq := scaleQ_of hs
    have hxa : ∀ i, |x.value i| ≤ w i + e i := fun i => abs_near (hx i) (hv i)
    have hfit : ∀ i, Fits (x.scale * x.scale * (x.value i * x.value i)) := fun i => by
      rw [hsq]
      refine fits_scaled (b := (w i + e i) ^ 2) ?_ (by positivity) (hf i).1
      rw [abs_mul, sq]
      exact mul_le_mul (hxa i) (hxa i) (abs_nonneg _) ((abs_nonneg _).trans (hxa i))
    refine Sat.bind (C56_square hn x k hk hs hfit) fun y hy => ?_
    have hy2 : ∀ i, |y.value i - v i * v i| ≤ e i * (2 * w i + e i) + n / 2 ^ k := fun i => by
      have h1 := hy.2 i
      rw [hsq] at h1
      have h2 := abs_mul_sub_mul_le (hx i) (hx i) (hv i) (hv i)
      have h3 := abs_add_le (y.value i - x.value i * x.value i) (x.value i * x.value i - v i * v i)
      rw [sub_add_sub_cancel] at h3
      linarith
    have hvv : ∀ i, |v i * v i| ≤ w i * w i := fun i => by
      rw [abs_mul]; exact mul_le_mul (hv i) (hv i) (abs_nonneg _) ((abs_nonneg _).trans (hv i))
    refine (ih y (fun i => v i * v i) (fun i => w i * w i) _ (hy.1.trans hs) hy2 hvv fun i => (hf i).2).mono fun z hz => ⟨hz.1, fun i => ?_⟩
    have := hz.2 i
    rw [← sq, ← pow_mul, ← pow_succ'] at this
    exact this

/-- **C53, `exp` on shares, for arguments of any sign and entry by entry**: with `d` iterations the result is `(1 + x / 2 ^ d) ^ (2 ^ d)` up to the error that `d` squarings
have accumulated, starting from the error `n / 2 ^ k` of the division. The error of an entry depends on that entry only: it is small where the result is small. -/
theorem C53_exp_encrypted_entries [NeZero n] (hn : n < 2 ^ 60) (q : ℕ) (method : MaxMethod) (hk : k ≤ 62) (d : ℕ) (hd : d ≤ 62) (x : AST n ι) (hx : x.scale = 2 ^ k)
    (w : ι → ℚ) (hw : ∀ i, |1 + x.value i / 2 ^ d| ≤ w i) (hone : ∀ i, 2 ^ k * (w i + n / 2 ^ k) < 2 ^ 63) (hf : ∀ i, SquareFits k (n / 2 ^ k) d (w i) (n / 2 ^ k)) :
    Sat ((mpcOps n q method).exp d x) fun z => z.scale = 2 ^ k ∧ ∀ i, |z.value i - (1 + x.value i / 2 ^ d) ^ 2 ^ d| ≤ squareErr (n / 2 ^ k) d (w i) (n / 2 ^ k) := by
  refine Sat.bind (near_divPow hn (Near.self hx) d hd) fun y hy => ?_
  have hys := hy.scaleQ
  have hy2 : ∀ i, |y.value i - x.value i / 2 ^ d| ≤ n / 2 ^ k := fun i => by
    have := hy.2 i; rwa [zero_div, zero_add] at this
  have htr : (truncQ ((y.scale : ℚ) * 1) : ℚ) / y.scale = 1 := by
    have : (y.scale : ℚ) * 1 = ((y.scale : ℤ) : ℚ) := by push_cast; ring
    rw [this, truncQ_intCast]
    have : (y.scale : ℚ) ≠ 0 := by rw [hys]; positivity
    push_cast
    exact div_self this
  have hnear : ∀ i, |y.value i + 1 - (1 + x.value i / 2 ^ d)| ≤ n / 2 ^ k := fun i => by
    have e : y.value i + 1 - (1 + x.value i / 2 ^ d) = y.value i - x.value i / 2 ^ d := by ring
    rw [e]; exact hy2 i
  have hval : ∀ i, (y.addPub fun _ => 1).value i = y.value i + 1 := fun i => by
    rw [addPub_value y _ (by rw [hy.1]; exact Nat.two_pow_pos k) i, htr]
    rw [htr, hys]
    exact fits_scaled (abs_near (hnear i) (hw i)) (by positivity) (hone i)
  exact sat_squarings hn hk d (y.addPub fun _ => 1) (fun i => 1 + x.value i / 2 ^ d) w _ hy.1 (fun i => by rw [hval]; exact hnear i) hw hf

/-! ## Newton's iteration -/

theorem sat_recipStep [NeZero n] (hn : n < 2 ^ 60) (q : ℕ) (method : MaxMethod) (hk0 : 0 < k) (hk : k ≤ 62) (hnk : (n : ℚ) ≤ 2 ^ k) (x r : AST n ι) (hx : x.scale = 2 ^ k)
    (hr : r.scale = 2 ^ k) (hx0 : ∀ i, 0 < x.value i) (ρ : ι → ℚ) (hρ : ∀ i, |1 - x.value i * r.value i| ≤ ρ i) (hρ1 : ∀ i, ρ i ≤ 1) (hfit : ∀ i, RecipFits k (x.value i)) :
    Sat ((mpcOps n q method).recipStep x r) fun z => z.scale = 2 ^ k ∧
      ∀ i, |1 - x.value i * z.value i| ≤ ρ i ^ 2 + x.value i * (x.value i + 1) * (n / 2 ^ k) := by
  have hxq := scaleQ_of hx
  have hrq := scaleQ_of hr
  have hp : (0 : ℚ) < 2 ^ k := by positivity
  have hp1 : (1 : ℚ) ≤ 2 ^ k := one_le_pow₀ (by norm_num)
  have hδ0 : (0 : ℚ) ≤ n / 2 ^ k := by positivity
  have hδ1 : (n : ℚ) / 2 ^ k ≤ 1 := by rw [div_le_one hp]; exact hnk
  have hr2 : ∀ i, |r.value i| ≤ 2 / x.value i := fun i => by
    rw [le_div_iff₀ (hx0 i)]
    have h1 : |r.value i| * x.value i = |x.value i * r.value i| := by rw [abs_mul, abs_of_pos (hx0 i), mul_comm]
    have h2 := abs_near (a := x.value i * r.value i) (b := 1) (e := ρ i) (by rw [abs_sub_comm]; exact hρ i) (abs_one.le : |(1 : ℚ)| ≤ 1)
    rw [h1]
    have := hρ1 i
    linarith
  have hrr : ∀ i, |r.value i * r.value i| ≤ 4 / x.value i ^ 2 := fun i => by
    have : (4 : ℚ) / x.value i ^ 2 = 2 / x.value i * (2 / x.value i) := by rw [div_mul_div_comm, sq]; norm_num
    rw [abs_mul, this]
    exact mul_le_mul (hr2 i) (hr2 i) (abs_nonneg _) ((abs_nonneg _).trans (hr2 i))
  have hA : ∀ i, 0 ≤ 4 / x.value i ^ 2 := fun i => by positivity
  have h4 : ∀ i, 4 / x.value i ≤ 4 / x.value i ^ 2 + 1 := fun i => by
    have e : 4 / x.value i ^ 2 + 1 - 4 / x.value i = (2 / x.value i - 1) ^ 2 := by
      have := (hx0 i).ne'
      field_simp
      ring
    have := sq_nonneg (2 / x.value i - 1)
    linarith
  -- the square
  refine Sat.bind (C56_square hn r k hk hr fun i => ?_) fun s hs => ?_
  · rw [hrq]
    refine fits_scaled (hrr i) (by positivity) (lt_of_le_of_lt (mul_le_mul_of_nonneg_left ?_ (by positivity)) (hfit i))
    have := hA i; have := hx0 i
    nlinarith
  have hs1 : s.scale = 2 ^ k := hs.1.trans hr
  have hsq := scaleQ_of hs1
  have hs2 : ∀ i, |s.value i - r.value i * r.value i| ≤ n / 2 ^ k := fun i => by have := hs.2 i; rw [hrq] at this; exact this.le
  have hsa : ∀ i, |s.value i| ≤ 4 / x.value i ^ 2 + 1 := fun i => by have := abs_near (hs2 i) (hrr i); linarith
  have hsx : ∀ i, |s.value i * x.value i| ≤ (4 / x.value i ^ 2 + 1) * x.value i := fun i => by
    rw [abs_mul, abs_of_pos (hx0 i)]; exact mul_le_mul_of_nonneg_right (hsa i) (hx0 i).le
  -- the product
  refine Sat.bind (C56_mul_equal_scales hn (elementwise ι) s x k hk0 hk hs1 hx fun i => ?_) fun t ht => ?_
  · rw [hsq, hxq, bilinearQ_elementwise]
    refine fits_scaled (hsx i) (by positivity) (lt_of_le_of_lt (mul_le_mul_of_nonneg_left ?_ (by positivity)) (hfit i))
    have := hA i; have := hx0 i
    nlinarith
  have ht1 : t.scale = 2 ^ k := ht.1.trans hs1
  have ht2 : ∀ i, |t.value i - s.value i * x.value i| ≤ n / 2 ^ k := fun i => by
    have := ht.2 i; rw [hsq, bilinearQ_elementwise] at this; exact this.le
  have hta : ∀ i, |t.value i| ≤ (4 / x.value i ^ 2 + 1) * x.value i + 1 := fun i => by have := abs_near (ht2 i) (hsx i); linarith
  have hsum : ∀ i, 2 ^ k * (2 * (2 / x.value i) + ((4 / x.value i ^ 2 + 1) * x.value i + 1)) < 2 ^ 63 := fun i => by
    refine lt_of_le_of_lt ?_ (hfit i)
    rw [mul_assoc ((2 : ℚ) ^ k)]
    refine mul_le_mul_of_nonneg_left ?_ hp.le
    have h5 := h4 i
    have h6 := hA i
    have h7 := hx0 i
    have h8 : 2 * (2 / x.value i) = 4 / x.value i := by ring
    have h9 : 0 ≤ (4 / x.value i ^ 2 + 1) * (x.value i + 2) := by positivity
    rw [h8]
    nlinarith
  have hmax : max r.scale t.scale = 2 ^ k := by rw [hr, ht1, max_self]
  -- the difference
  refine Sat.bind (C56_sub r t ⟨by rw [hr]; exact Nat.two_pow_pos k, by rw [ht1]; exact Nat.two_pow_pos k, Or.inl (by rw [hr, ht1])⟩ fun i => ?_).sat fun d hd => ?_
  · rw [hmax]
    push_cast
    refine fits_scaled (b := 2 * (2 / x.value i) + ((4 / x.value i ^ 2 + 1) * x.value i + 1)) ?_ hp (hsum i)
    have h1 := abs_sub (r.value i) (t.value i)
    have h2 := hr2 i; have h3 := hta i; have h4 := abs_nonneg (r.value i)
    linarith
  have hd1 : d.scale = 2 ^ k := hd.1.trans hmax
  have hmax2 : max r.scale d.scale = 2 ^ k := by rw [hr, hd1, max_self]
  refine (C56_add r d ⟨by rw [hr]; exact Nat.two_pow_pos k, by rw [hd1]; exact Nat.two_pow_pos k, Or.inl (by rw [hr, hd1])⟩ fun i => ?_).sat.mono fun z hz => ⟨hz.1.trans hmax2, fun i => ?_⟩
  · rw [hmax2]
    push_cast
    refine fits_scaled (b := 2 * (2 / x.value i) + ((4 / x.value i ^ 2 + 1) * x.value i + 1)) ?_ hp (hsum i)
    rw [hd.2]
    have h0 := abs_add_le (r.value i) (r.value i - t.value i)
    have h1 := abs_sub (r.value i) (t.value i)
    have h2 := hr2 i; have h3 := hta i
    linarith
  · rw [hz.2, hd.2]
    have e : 1 - x.value i * (r.value i + (r.value i - t.value i)) =
        (1 - x.value i * r.value i) ^ 2 + x.value i * ((t.value i - s.value i * x.value i) + x.value i * (s.value i - r.value i * r.value i)) := by ring
    rw [e]
    have h1 : |(1 - x.value i * r.value i) ^ 2| ≤ ρ i ^ 2 := by
      rw [abs_pow]; exact pow_le_pow_left₀ (abs_nonneg _) (hρ i) 2
    have h2 : |x.value i * (s.value i - r.value i * r.value i)| ≤ x.value i * (n / 2 ^ k) := by
      rw [abs_mul, abs_of_pos (hx0 i)]; exact mul_le_mul_of_nonneg_left (hs2 i) (hx0 i).le
    have h3 : |x.value i * ((t.value i - s.value i * x.value i) + x.value i * (s.value i - r.value i * r.value i))| ≤ x.value i * (n / 2 ^ k + x.value i * (n / 2 ^ k)) := by
      rw [abs_mul, abs_of_pos (hx0 i)]
      exact mul_le_mul_of_nonneg_left ((abs_add_le _ _).trans (add_le_add (ht2 i) h2)) (hx0 i).le
    refine (abs_add_le _ _).trans ((add_le_add h1 h3).trans (le_of_eq (by ring)))

theorem newtonErr_succ' (η ρ : ℚ) (t : ℕ) : newtonErr η ρ (t + 1) = newtonErr η (ρ ^ 2 + η) t := by
  induction t with
  | zero => rfl
  | succ t ih => rw [newtonErr, ih, newtonErr]

theorem sat_recipLoop [NeZero n] (hn : n < 2 ^ 60) (q : ℕ) (method : MaxMethod) (hk0 : 0 < k) (hk : k ≤ 62) (hnk : (n : ℚ) ≤ 2 ^ k) (x : AST n ι) (hx : x.scale = 2 ^ k)
    (hx0 : ∀ i, 0 < x.value i) (hfit : ∀ i, RecipFits k (x.value i)) : ∀ (T : ℕ) (r : AST n ι) (ρ : ι → ℚ), r.scale = 2 ^ k →
    (∀ i, |1 - x.value i * r.value i| ≤ ρ i) → (∀ i, ∀ t < T, newtonErr (recipLoss n k (x.value i)) (ρ i) t ≤ 1) →
    Sat (iterM ((mpcOps n q method).recipStep x) T r) fun z => z.scale = 2 ^ k ∧ ∀ i, |1 - x.value i * z.value i| ≤ newtonErr (recipLoss n k (x.value i)) (ρ i) T := by
  intro T
  induction T with
  | zero => intro r ρ hr h _; exact Sat.pure ⟨hr, h⟩
  | succ T ih =>
    intro r ρ hr h hT
    refine Sat.bind (sat_recipStep hn q method hk0 hk hnk x r hx hr hx0 ρ h (fun i => hT i 0 (Nat.succ_pos T)) hfit) fun y hy => ?_
    refine (ih y (fun i => ρ i ^ 2 + recipLoss n k (x.value i)) hy.1 hy.2 fun i t ht => ?_).mono fun z hz => ⟨hz.1, fun i => ?_⟩
    · rw [← newtonErr_succ']; exact hT i (t + 1) (by omega)
    · rw [newtonErr_succ']; exact hz.2 i

theorem mulInt_value (x : AST n ι) (z : ℤ) (hs : 0 < x.scale) (i : ι) (hfit : Fits (x.scale * (x.value i * z))) : (x.mulInt z).value i = x.value i * z := by
  refine value_of_word (x := x.mulInt z) (z := (reveal x.share i).toInt * z) hs ?_ ?_ hfit
  · rw [AST.mulInt, reveal_apply, ofInt_mul64, ofInt_toInt, reveal_apply, Finset.sum_mul]; rfl
  · show _ = (x.scale : ℚ) * _
    rw [Int.cast_mul, word_eq_value hs]; ring

/-- The initial value `3 exp(1 - 2x) + 0.003`, up to the error of `exp` and of the constant. -/
theorem sat_recipInit [NeZero n] (hn : n < 2 ^ 60) (q : ℕ) (method : MaxMethod) (hk0 : 0 < k) (hk : k ≤ 62) (c : FunCfg) (hd : c.expIterations ≤ 62) (T : ℕ) (x : AST n ι)
    (hx : x.scale = 2 ^ k) (w ρ : ι → ℚ) (h : ∀ i, RecipGood n k c.expIterations T (x.value i) (w i) (ρ i)) :
    Sat ((mpcOps n q method).recipInit c x) fun r => r.scale = 2 ^ k ∧ ∀ i, |1 - x.value i * r.value i| ≤ ρ i := by
  unfold Ops.recipInit
  generalize c.expIterations = d at *
  have hp : (0 : ℚ) < 2 ^ k := by positivity
  have hp2 : (2 : ℚ) ≤ 2 ^ k := by
    calc (2 : ℚ) = 2 ^ 1 := by norm_num
      _ ≤ 2 ^ k := pow_le_pow_right₀ (by norm_num) hk0
  have hxs : 0 < x.scale := by rw [hx]; exact Nat.two_pow_pos k
  have hxq := scaleQ_of hx
  have hbig : ∀ i, 2 * (2 : ℚ) ^ k * ((4 / x.value i ^ 2 + 1) * (x.value i + 2)) < 2 ^ 63 := fun i => by
    refine lt_of_le_of_lt (mul_le_mul_of_nonneg_right (mul_le_mul_of_nonneg_right hp2 hp.le) ?_) (h i).fits
    have := (h i).pos
    positivity
  have hA : ∀ i, 0 ≤ 4 / x.value i ^ 2 := fun i => by positivity
  have hdbl : ∀ i, (x.mulInt 2).value i = x.value i * (2 : ℤ) := fun i => by
    refine mulInt_value x 2 hxs i ?_
    rw [hxq]
    refine fits_scaled (b := 2 * ((4 / x.value i ^ 2 + 1) * (x.value i + 2))) ?_ hp (lt_of_le_of_lt (by linarith) (hbig i))
    have := (h i).pos; have := hA i
    push_cast
    rw [abs_of_pos (by linarith)]
    nlinarith
  have hneg : ∀ i, (x.mulInt 2).neg.value i = -(x.value i * 2) := fun i => by
    rw [neg_value (x := x.mulInt 2) hxs i, hdbl]; · push_cast; rfl
    rw [hdbl]
    show (x.scale : ℚ) * _ ≠ _
    rw [hxq]
    have := (h i).pos
    have : 0 < (2 : ℚ) ^ k * (x.value i * (2 : ℤ)) := by push_cast; positivity
    intro h'
    rw [h'] at this
    norm_num at this
  have htr : (truncQ (((x.mulInt 2).neg.scale : ℚ) * 1) : ℚ) / (x.mulInt 2).neg.scale = 1 := by
    show (truncQ ((x.scale : ℚ) * 1) : ℚ) / x.scale = 1
    have e : (x.scale : ℚ) * 1 = ((x.scale : ℤ) : ℚ) := by push_cast; ring
    rw [e, truncQ_intCast]
    have : (x.scale : ℚ) ≠ 0 := by rw [hxq]; positivity
    push_cast
    exact div_self this
  have harg : ∀ i, ((x.mulInt 2).neg.addPub fun _ => 1).value i = 1 - 2 * x.value i := fun i => by
    rw [addPub_value (x.mulInt 2).neg _ hxs i, htr, hneg]; · ring
    rw [htr, hneg]
    show Fits ((x.scale : ℚ) * _)
    rw [hxq]
    refine fits_scaled (b := 2 * ((4 / x.value i ^ 2 + 1) * (x.value i + 2))) ?_ hp (lt_of_le_of_lt (by linarith) (hbig i))
    have := (h i).pos; have := hA i
    rw [abs_le]
    constructor <;> nlinarith
  refine Sat.bind (C53_exp_encrypted_entries hn q method hk d hd ((x.mulInt 2).neg.addPub fun _ => 1) hx w (fun i => by rw [harg]; exact (h i).base) (fun i => (h i).one)
    fun i => (h i).squares) fun e he => ?_
  have hes : 0 < e.scale := by rw [he.1]; exact Nat.two_pow_pos k
  have heq := scaleQ_of he.1
  have hE : ∀ i, |e.value i - (1 + (1 - 2 * x.value i) / 2 ^ d) ^ 2 ^ d| ≤ squareErr (n / 2 ^ k) d (w i) (n / 2 ^ k) := fun i => by have := he.2 i; rwa [harg] at this
  have hxs' : ∀ i, x.value i * (3 * squareErr (n / 2 ^ k) d (w i) (n / 2 ^ k) + 1 / 2 ^ k) ≤ 1 := fun i => by
    have h1 := (h i).start; have h2 := (h i).contract.1
    have := abs_nonneg (1 - x.value i * (3 * (1 + (1 - 2 * x.value i) / 2 ^ d) ^ 2 ^ d + 3 / 1000))
    linarith
  have hs1 : ∀ i, 3 * squareErr (n / 2 ^ k) d (w i) (n / 2 ^ k) + 1 / 2 ^ k ≤ 1 / x.value i := fun i => by
    rw [le_div_iff₀ (h i).pos, mul_comm]; exact hxs' i
  have hp0 : ∀ i, |3 * (1 + (1 - 2 * x.value i) / 2 ^ d) ^ 2 ^ d + 3 / 1000| ≤ 2 / x.value i := fun i => by
    rw [le_div_iff₀ (h i).pos]
    obtain ⟨P, hP⟩ : ∃ P, 3 * (1 + (1 - 2 * x.value i) / 2 ^ d) ^ 2 ^ d + 3 / 1000 = P := ⟨_, rfl⟩
    have h1 := (h i).start; have h2 := (h i).contract.1
    rw [hP] at h1 ⊢
    have h3 : 0 ≤ x.value i * (3 * squareErr (n / 2 ^ k) d (w i) (n / 2 ^ k) + 1 / 2 ^ k) := by
      refine mul_nonneg (h i).pos.le (add_nonneg (mul_nonneg (by norm_num) ((abs_nonneg _).trans (hE i))) (by positivity))
    have h4 := abs_near (a := x.value i * P) (b := 1) (e := 1) (by rw [abs_sub_comm]; linarith) (abs_one.le : |(1 : ℚ)| ≤ 1)
    rw [abs_mul, abs_of_pos (h i).pos] at h4
    linarith
  have h4 : ∀ i, 4 * (1 / x.value i) ≤ 4 / x.value i ^ 2 + 1 := fun i => by
    have e : 4 / x.value i ^ 2 + 1 - 4 * (1 / x.value i) = (2 / x.value i - 1) ^ 2 := by
      have := (h i).pos.ne'
      field_simp
      ring
    have := sq_nonneg (2 / x.value i - 1)
    linarith
  have hquarter : ∀ i, 3 * (1 / x.value i) + 2 / 1000 * 3 ≤ 2 * ((4 / x.value i ^ 2 + 1) * (x.value i + 2)) := fun i => by
    have h5 := h4 i; have h6 := hA i; have h7 := (h i).pos
    have h8 : 0 ≤ 1 / x.value i := by positivity
    nlinarith
  have htrip : ∀ i, (e.mulInt 3).value i = e.value i * (3 : ℤ) ∧ |e.value i * (3 : ℤ)| ≤ 3 * (1 / x.value i) + 3 / 1000 - 1 / 2 ^ k := fun i => by
    have hb : |e.value i * (3 : ℤ)| ≤ 3 * (1 / x.value i) + 3 / 1000 - 1 / 2 ^ k := by
      obtain ⟨P, hP⟩ : ∃ P, (1 + (1 - 2 * x.value i) / 2 ^ d) ^ 2 ^ d = P := ⟨_, rfl⟩
      have h1 := hE i; have h2 := hp0 i; have h3 := hs1 i
      rw [hP] at h1 h2
      rw [abs_le] at h1 h2 ⊢
      have e2 : 2 / x.value i = 2 * (1 / x.value i) := by ring
      rw [e2] at h2
      push_cast
      constructor <;> linarith [h1.1, h1.2, h2.1, h2.2]
    refine ⟨mulInt_value e 3 hes i ?_, hb⟩
    rw [heq]
    refine fits_scaled hb hp (lt_of_le_of_lt ?_ (hbig i))
    rw [mul_comm 2, mul_assoc]
    refine mul_le_mul_of_nonneg_left ?_ hp.le
    have h5 := hquarter i
    have : (0 : ℚ) < 1 / 2 ^ k := by positivity
    linarith
  have hc := trunc_any k (0.003 : ℚ)
  have hval : ∀ i, ((e.mulInt 3).addPub fun _ => 0.003).value i = e.value i * 3 + (truncQ (2 ^ k * (0.003 : ℚ)) : ℚ) / 2 ^ k := fun i => by
    have hq : ((e.mulInt 3).scale : ℚ) = 2 ^ k := heq
    rw [addPub_value (e.mulInt 3) _ hes i, (htrip i).1, hq]; · push_cast; rfl
    rw [(htrip i).1, hq]
    refine fits_scaled (b := 3 * (1 / x.value i) + 2 / 1000 * 3) ?_ hp (lt_of_le_of_lt ?_ (hbig i))
    · have h1 := (htrip i).2
      have h2 := abs_near hc (by norm_num [abs_of_pos] : |(0.003 : ℚ)| ≤ 3 / 1000)
      exact (abs_add_le _ _).trans (by linarith)
    · rw [mul_comm 2, mul_assoc]
      exact mul_le_mul_of_nonneg_left (hquarter i) hp.le
  refine Sat.pure ⟨he.1, fun i => ?_⟩
  change |1 - x.value i * ((e.mulInt 3).addPub fun _ => 0.003).value i| ≤ ρ i
  rw [hval]
  refine le_trans ?_ (h i).start
  obtain ⟨P, hP⟩ : ∃ P, (1 + (1 - 2 * x.value i) / 2 ^ d) ^ 2 ^ d = P := ⟨_, rfl⟩
  obtain ⟨C, hC⟩ : ∃ C, (truncQ (2 ^ k * (0.003 : ℚ)) : ℚ) / 2 ^ k = C := ⟨_, rfl⟩
  have h1 := hE i
  rw [hP] at h1 ⊢
  rw [hC] at hc ⊢
  have e1 : 1 - x.value i * (e.value i * 3 + C) = 1 - x.value i * (3 * P + 3 / 1000) + -(x.value i * (3 * (e.value i - P) + (C - 0.003))) := by ring
  rw [e1]
  refine (abs_add_le _ _).trans (add_le_add le_rfl ?_)
  rw [abs_neg, abs_mul, abs_of_pos (h i).pos]
  refine mul_le_mul_of_nonneg_left ((abs_add_le _ _).trans (add_le_add ?_ hc)) (h i).pos.le
  rw [abs_mul, abs_of_pos (by norm_num : (0 : ℚ) < 3)]
  exact mul_le_mul_of_nonneg_left h1 (by norm_num)

/-- **C53, the reciprocal of positive numbers on shares** (`reciprocal_all_pos`): Newton's method from `3 exp(1 - 2x) + 0.003`, every entry within the error that the recursion
computes for it. -/
theorem C53_reciprocal_positive_encrypted [NeZero n] (hn : n < 2 ^ 60) (q : ℕ) (method : MaxMethod) (hk0 : 0 < k) (hk : k ≤ 62) (hnk : (n : ℚ) ≤ 2 ^ k) (c : FunCfg)
    (hm : c.recipMethod = .nr) (hi : c.recipInitial = none) (hd : c.expIterations ≤ 62) (x : AST n ι) (hx : x.scale = 2 ^ k) (w ρ : ι → ℚ)
    (h : ∀ i, RecipGood n k c.expIterations c.recipNrIters (x.value i) (w i) (ρ i)) :
    Sat ((mpcOps n q method).recipPos c x) fun z => z.scale = 2 ^ k ∧ ∀ i, |1 - x.value i * z.value i| ≤ newtonErr (recipLoss n k (x.value i)) (ρ i) c.recipNrIters := by
  unfold Ops.recipPos
  rw [hm, hi]
  refine Sat.bind (sat_recipInit hn q method hk0 hk c hd _ x hx w ρ h) fun r hr => ?_
  exact sat_recipLoop hn q method hk0 hk hnk x hx (fun i => (h i).pos) (fun i => (h i).fits) c.recipNrIters r ρ hr.1 hr.2 fun i => (h i).contract.2

/-- **C53, the reciprocal on shares**, of numbers of either sign. -/
theorem C53_reciprocal_encrypted [NeZero n] (hn : n < 2 ^ 60) (method : MaxMethod) (hk0 : 0 < k) (hk : k ≤ 62) (hnk : (n : ℚ) ≤ 2 ^ k) (c : FunCfg)
    (hm : c.recipMethod = .nr) (hi : c.recipInitial = none) (ha : c.recipAllPos = false) (hd : c.expIterations ≤ 62) (x : AST n ι) (hx : x.scale = 2 ^ k) (w ρ : ι → ℚ)
    (h : ∀ i, RecipGood n k c.expIterations c.recipNrIters |x.value i| (w i) (ρ i)) (hρ : ∀ i, newtonErr (recipLoss n k |x.value i|) (ρ i) c.recipNrIters ≤ 1) :
    Sat ((mpcOps n k method).reciprocal c x) fun z => z.scale = 2 ^ k ∧ ∀ i, |1 - x.value i * z.value i| ≤ newtonErr (recipLoss n k |x.value i|) (ρ i) c.recipNrIters := by
  have hp : (0 : ℚ) < 2 ^ k := by positivity
  have hp1 : (1 : ℚ) ≤ 2 ^ k := one_le_pow₀ (by norm_num)
  have hxq := scaleQ_of hx
  have hxs : 0 < x.scale := by rw [hx]; exact Nat.two_pow_pos k
  have hA : ∀ i, 0 ≤ 4 / |x.value i| ^ 2 := fun i => by positivity
  have hbig : ∀ i, (2 : ℚ) ^ k * ((4 / |x.value i| ^ 2 + 1) * (|x.value i| + 2)) < 2 ^ 63 := fun i => by
    refine lt_of_le_of_lt ?_ (h i).fits
    have : 0 ≤ (4 / |x.value i| ^ 2 + 1) * (|x.value i| + 2) := by positivity
    rw [mul_assoc]
    exact le_mul_of_one_le_left (mul_nonneg hp.le this) hp1
  have hsg : ∀ i, (if x.value i < 0 then (-1 : ℚ) else 1) * x.value i = |x.value i| := fun i => by
    split
    · rename_i h; rw [abs_of_neg h]; ring
    · rename_i h; rw [abs_of_nonneg (not_lt.1 h)]; ring
  have hsga : ∀ i, |(if x.value i < 0 then (-1 : ℚ) else 1)| = 1 := fun i => by split <;> norm_num
  unfold Ops.reciprocal
  rw [ha]
  refine Sat.bind (C23_sign (D := 2 ^ k) (Nat.two_pow_pos k) x (Or.inr hx)).sat fun s hs => ?_
  refine Sat.bind (C56_mul_unscaled (elementwise ι) s x (by rw [hs.1]; exact one_pos) hxs (Or.inl hs.1) fun i => ?_).sat fun p hp' => ?_
  · rw [bilinearQ_elementwise, hs.1, hs.2, hsg, hxq, Nat.cast_one, one_mul]
    refine fits_scaled (b := (4 / |x.value i| ^ 2 + 1) * (|x.value i| + 2)) ?_ hp (hbig i)
    have := hA i; have := (h i).pos
    rw [abs_abs]
    nlinarith
  have hps : p.scale = 2 ^ k := by rw [hp'.1, hs.1, one_mul, hx]
  have hpv : ∀ i, p.value i = |x.value i| := fun i => by rw [hp'.2, bilinearQ_elementwise, hs.2, hsg]
  refine Sat.bind (C53_reciprocal_positive_encrypted hn k method hk0 hk hnk c hm hi hd p hps w ρ fun i => by rw [hpv]; exact h i) fun r hr => ?_
  have hr2 : ∀ i, |r.value i| ≤ 2 / |x.value i| := fun i => by
    have h1 := hr.2 i
    rw [hpv] at h1
    rw [le_div_iff₀ (h i).pos]
    have h4 := abs_near (a := |x.value i| * r.value i) (b := 1) (e := 1) (by rw [abs_sub_comm]; exact h1.trans (hρ i)) (abs_one.le : |(1 : ℚ)| ≤ 1)
    rw [abs_mul, abs_abs] at h4
    linarith
  refine (C56_mul_unscaled (elementwise ι) s r (by rw [hs.1]; exact one_pos) (by rw [hr.1]; exact Nat.two_pow_pos k) (Or.inl hs.1) fun i => ?_).sat.mono
    fun z hz => ⟨by rw [hz.1, hs.1, one_mul, hr.1], fun i => ?_⟩
  · rw [bilinearQ_elementwise, hs.1, hs.2, scaleQ_of hr.1, Nat.cast_one, one_mul]
    refine fits_scaled (b := (4 / |x.value i| ^ 2 + 1) * (|x.value i| + 2)) ?_ hp (hbig i)
    rw [abs_mul, hsga, one_mul]
    refine (hr2 i).trans ?_
    have e : 4 / |x.value i| ^ 2 + 1 - 2 * (2 / |x.value i|) = (2 / |x.value i| - 1) ^ 2 := by
      have := (h i).pos.ne'
      field_simp
      ring
    have h3 := sq_nonneg (2 / |x.value i| - 1)
    have h4 := hA i; have h5 := (h i).pos
    have h6 : 0 ≤ 2 / |x.value i| := by positivity
    nlinarith
  · have h1 := hr.2 i
    rw [hpv] at h1
    rw [hz.2, bilinearQ_elementwise, hs.2]
    have e : x.value i * ((if x.value i < 0 then (-1 : ℚ) else 1) * r.value i) = |x.value i| * r.value i := by rw [← hsg]; ring
    rw [e]
    exact h1

/-! ## The default configuration -/

theorem newtonErr_nonneg {η ρ : ℚ} (hη : 0 ≤ η) (hρ : 0 ≤ ρ) (t : ℕ) : 0 ≤ newtonErr η ρ t := by
  cases t with
  | zero => exact hρ
  | succ t => rw [newtonErr]; positivity

theorem newtonErr_mono {η η' ρ : ℚ} (hη0 : 0 ≤ η) (h : η ≤ η') (hρ : 0 ≤ ρ) (t : ℕ) : newtonErr η ρ t ≤ newtonErr η' ρ t := by
  induction t with
  | zero => exact le_rfl
  | succ t ih => exact add_le_add (pow_le_pow_left₀ (newtonErr_nonneg hη0 hρ t) ih 2) h

/-- An error that the first iteration does not increase never grows. -/
theorem newtonErr_le {η ρ : ℚ} (hη : 0 ≤ η) (hρ : 0 ≤ ρ) (h : ρ ^ 2 + η ≤ ρ) (t : ℕ) : newtonErr η ρ t ≤ ρ := by
  induction t with
  | zero => exact le_rfl
  | succ t ih => exact (add_le_add (pow_le_pow_left₀ (newtonErr_nonneg hη hρ t) ih 2) le_rfl).trans h

/-- `x (1 + (1 - 2x) / 256) ^ 256 ≤ x exp(1 - 2x) ≤ 1 / 2`. -/
theorem mul_exp_le_half (x : ℚ) (h0 : 0 < x) (h1 : x ≤ 128) : x * (1 + (1 - 2 * x) / 2 ^ 8) ^ 2 ^ 8 ≤ 1 / 2 := by
  have h0' : (0 : ℝ) < x := by exact_mod_cast h0
  have h1' : (x : ℝ) ≤ 128 := by exact_mod_cast h1
  have hE : (1 + (1 - 2 * (x : ℝ)) / 2 ^ 8) ^ 2 ^ 8 ≤ Real.exp (1 - 2 * x) := by
    have hb : 0 ≤ 1 + (1 - 2 * (x : ℝ)) / 2 ^ 8 := by
      have : (1 - 2 * (x : ℝ)) / 2 ^ 8 ≥ -1 := by rw [ge_iff_le, le_div_iff₀ (by positivity)]; norm_num; linarith
      linarith
    have h := Real.add_one_le_exp ((1 - 2 * (x : ℝ)) / 2 ^ 8)
    have h2 : (1 + (1 - 2 * (x : ℝ)) / 2 ^ 8) ^ 2 ^ 8 ≤ Real.exp ((1 - 2 * (x : ℝ)) / 2 ^ 8) ^ 2 ^ 8 := pow_le_pow_left₀ hb (by linarith) _
    rw [← Real.exp_nat_mul] at h2
    refine h2.trans (le_of_eq ?_)
    congr 1
    push_cast
    norm_num
    ring
  have hx : (x : ℝ) * Real.exp (1 - 2 * x) ≤ 1 / 2 := by
    have h := Real.add_one_le_exp (2 * (x : ℝ) - 1)
    have hpos := Real.exp_pos (1 - 2 * (x : ℝ))
    have : Real.exp (2 * (x : ℝ) - 1) * Real.exp (1 - 2 * x) = 1 := by rw [← Real.exp_add]; norm_num
    nlinarith
  have : (x : ℝ) * (1 + (1 - 2 * (x : ℝ)) / 2 ^ 8) ^ 2 ^ 8 ≤ 1 / 2 := (mul_le_mul_of_nonneg_left hE h0'.le).trans hx
  have e : (((x * (1 + (1 - 2 * x) / 2 ^ 8) ^ 2 ^ 8 : ℚ)) : ℝ) = (x : ℝ) * (1 + (1 - 2 * (x : ℝ)) / 2 ^ 8) ^ 2 ^ 8 := by
    rw [Rat.cast_mul, Rat.cast_pow, Rat.cast_add, Rat.cast_div, Rat.cast_sub, Rat.cast_mul, Rat.cast_pow]; norm_num
  rw [← e] at this
  have h2 : ((1 / 2 : ℚ) : ℝ) = 1 / 2 := by norm_num
  rw [← h2] at this
  exact Rat.cast_le.1 this

theorem recip_start {x a b l S s u ρ E : ℚ} (ha : 0 < a) (hxa : a ≤ x) (hxb : x ≤ b) (hl0 : 0 ≤ l) (hlx : l ≤ E) (hhalf : x * E ≤ 1 / 2) (hS0 : 0 ≤ S) (hu : 0 ≤ u) (hS : s ≤ S)
    (hρ1 : 1 - a * (3 * l + 3 / 1000) + b * (3 * S + u) ≤ ρ) (hρ2 : 1 / 2 + b * 3 / 1000 + b * (3 * S + u) ≤ ρ) :
    |1 - x * (3 * E + 3 / 1000)| + x * (3 * s + u) ≤ ρ := by
  have hx0 : 0 < x := lt_of_lt_of_le ha hxa
  have h1 : x * (3 * s + u) ≤ b * (3 * S + u) := (mul_le_mul_of_nonneg_left (by linarith) hx0.le).trans (mul_le_mul_of_nonneg_right hxb (by positivity))
  have h2 : a * (3 * l + 3 / 1000) ≤ x * (3 * E + 3 / 1000) := mul_le_mul hxa (by linarith) (by positivity) hx0.le
  have h3 : |1 - x * (3 * E + 3 / 1000)| ≤ ρ - b * (3 * S + u) := by
    rw [abs_le]
    constructor <;> linarith
  linarith

/-- The conditions for all numbers of an interval follow from a few comparisons about its ends. -/
theorem recipGood_interval (n k T : ℕ) (a b l S ρ x : ℚ) (ha : 0 < a) (hb : b ≤ 64) (hxa : a ≤ x) (hxb : x ≤ b) (hk : k ≤ 24) (hab : (4 / a ^ 2 + 1) * (b + 2) < 2 ^ 15)
    (hone : 2 ^ k * (1 + (1 - 2 * a) / 2 ^ 8 + n / 2 ^ k) < 2 ^ 63) (hsq : SquareFits k (n / 2 ^ k) 8 (1 + (1 - 2 * a) / 2 ^ 8) (n / 2 ^ k))
    (hl0 : 0 ≤ l) (hl : l ≤ (1 + (1 - 2 * b) / 2 ^ 8) ^ 2 ^ 8) (hS0 : 0 ≤ S) (hS : squareErr (n / 2 ^ k) 8 (1 + (1 - 2 * a) / 2 ^ 8) (n / 2 ^ k) ≤ S)
    (hρ1 : 1 - a * (3 * l + 3 / 1000) + b * (3 * S + 1 / 2 ^ k) ≤ ρ) (hρ2 : 1 / 2 + b * 3 / 1000 + b * (3 * S + 1 / 2 ^ k) ≤ ρ) (hρ : ρ ≤ 1)
    (hc : ρ ^ 2 + recipLoss n k b ≤ ρ) : RecipGood n k 8 T x (1 + (1 - 2 * a) / 2 ^ 8) ρ ∧ ∀ t, newtonErr (recipLoss n k x) ρ t ≤ newtonErr (recipLoss n k b) ρ t := by
  have hx0 : 0 < x := lt_of_lt_of_le ha hxa
  have hb0 : 0 < b := lt_of_lt_of_le hx0 hxb
  have hk0 : (0 : ℚ) < 1 / 2 ^ k := by positivity
  have hρ0 : 0 ≤ ρ := le_trans (by positivity) hρ2
  have hloss0 : 0 ≤ recipLoss n k x := by unfold recipLoss; positivity
  have hloss : recipLoss n k x ≤ recipLoss n k b := by
    unfold recipLoss
    exact mul_le_mul_of_nonneg_right (mul_le_mul hxb (by linarith) (by positivity) hb0.le) (by positivity)
  have hbase : 0 ≤ 1 + (1 - 2 * x) / 2 ^ 8 := by
    have : -1 ≤ (1 - 2 * x) / 2 ^ 8 := by rw [le_div_iff₀ (by positivity)]; norm_num; linarith
    linarith
  have hbase' : 0 ≤ 1 + (1 - 2 * b) / 2 ^ 8 := by
    have : -1 ≤ (1 - 2 * b) / 2 ^ 8 := by rw [le_div_iff₀ (by positivity)]; norm_num; linarith
    linarith
  have hlx : l ≤ (1 + (1 - 2 * x) / 2 ^ 8) ^ 2 ^ 8 := hl.trans (pow_le_pow_left₀ hbase' (by
    have : (1 - 2 * b) / 2 ^ 8 ≤ (1 - 2 * x) / 2 ^ 8 := div_le_div_of_nonneg_right (by linarith) (by positivity)
    linarith) _)
  have hhalf := mul_exp_le_half x hx0 (by linarith)
  refine ⟨⟨hx0, ?_, ?_, hone, hsq, ?_, hρ, fun t _ => ?_⟩, fun t => newtonErr_mono hloss0 hloss hρ0 t⟩
  · have h1 : 4 / x ^ 2 ≤ 4 / a ^ 2 := div_le_div_of_nonneg_left (by norm_num) (by positivity) (pow_le_pow_left₀ ha.le hxa 2)
    have h2 : (4 / x ^ 2 + 1) * (x + 2) < 2 ^ 15 := lt_of_le_of_lt (mul_le_mul (by linarith) (by linarith) (by linarith) (by positivity)) hab
    have h3 : (2 : ℚ) ^ k ≤ 2 ^ 24 := pow_le_pow_right₀ (by norm_num) hk
    have h4 : (2 : ℚ) ^ k * 2 ^ k ≤ 2 ^ 24 * 2 ^ 24 := mul_le_mul h3 h3 (by positivity) (by positivity)
    unfold RecipFits
    calc (2 : ℚ) ^ k * 2 ^ k * ((4 / x ^ 2 + 1) * (x + 2)) ≤ 2 ^ 24 * 2 ^ 24 * ((4 / x ^ 2 + 1) * (x + 2)) := mul_le_mul_of_nonneg_right h4 (by positivity)
      _ < 2 ^ 24 * 2 ^ 24 * 2 ^ 15 := mul_lt_mul_of_pos_left h2 (by positivity)
      _ = 2 ^ 63 := by norm_num
  · rw [abs_of_nonneg hbase]
    have : (1 - 2 * x) / 2 ^ 8 ≤ (1 - 2 * a) / 2 ^ 8 := div_le_div_of_nonneg_right (by linarith) (by positivity)
    linarith
  · exact recip_start ha hxa hxb hl0 hlx hhalf hS0 hk0.le hS hρ1 hρ2
  · exact (newtonErr_le hloss0 hρ0 (le_trans (by linarith) hc) t).trans hρ

/-- The comparisons of `recipGood_interval` for two parties and the default configuration, and a bound of the error after ten iterations. -/
structure Interval (a b l S ρ B : ℚ) : Prop where
  ha : 0 < a
  hb : b ≤ 64
  hab : (4 / a ^ 2 + 1) * (b + 2) < 2 ^ 15
  hone : 2 ^ 16 * (1 + (1 - 2 * a) / 2 ^ 8 + (2 : ℕ) / 2 ^ 16) < 2 ^ 63
  hsq : SquareFits 16 ((2 : ℕ) / 2 ^ 16) 8 (1 + (1 - 2 * a) / 2 ^ 8) ((2 : ℕ) / 2 ^ 16)
  hl0 : 0 ≤ l
  hl : l ≤ (1 + (1 - 2 * b) / 2 ^ 8) ^ 2 ^ 8
  hS0 : 0 ≤ S
  hS : squareErr ((2 : ℕ) / 2 ^ 16) 8 (1 + (1 - 2 * a) / 2 ^ 8) ((2 : ℕ) / 2 ^ 16) ≤ S
  hρ1 : 1 - a * (3 * l + 3 / 1000) + b * (3 * S + 1 / 2 ^ 16) ≤ ρ
  hρ2 : 1 / 2 + b * 3 / 1000 + b * (3 * S + 1 / 2 ^ 16) ≤ ρ
  hρ : ρ ≤ 1
  hc : ρ ^ 2 + recipLoss 2 16 b ≤ ρ
  hB : newtonErr (recipLoss 2 16 b) ρ 10 ≤ B

theorem interval1 : Interval (1 / 4) (1 / 2) (9 / 10) (26 / 1000) (55 / 100) (1 / 1000) :=
  ⟨by norm_num, by norm_num, by norm_num, by norm_num, by norm_num [SquareFits], by norm_num, by norm_num, by norm_num, by norm_num [squareErr], by norm_num, by norm_num,
    by norm_num, by norm_num [recipLoss], by norm_num [newtonErr, recipLoss]⟩

theorem interval2 : Interval (1 / 2) 1 (36 / 100) (16 / 1000) (6 / 10) (1 / 1000) :=
  ⟨by norm_num, by norm_num, by norm_num, by norm_num, by norm_num [SquareFits], by norm_num, by norm_num, by norm_num, by norm_num [squareErr], by norm_num, by norm_num,
    by norm_num, by norm_num [recipLoss], by norm_num [newtonErr, recipLoss]⟩

theorem interval3 : Interval 1 2 (48 / 1000) (6 / 1000) (9 / 10) (1 / 1000) :=
  ⟨by norm_num, by norm_num, by norm_num, by norm_num, by norm_num [SquareFits], by norm_num, by norm_num, by norm_num, by norm_num [squareErr], by norm_num, by norm_num,
    by norm_num, by norm_num [recipLoss], by norm_num [newtonErr, recipLoss]⟩

theorem interval4 : Interval 2 3 (6 / 1000) (9 / 10000) (97 / 100) (1 / 1000) :=
  ⟨by norm_num, by norm_num, by norm_num, by norm_num, by norm_num [SquareFits], by norm_num, by norm_num, by norm_num, by norm_num [squareErr], by norm_num, by norm_num,
    by norm_num, by norm_num [recipLoss], by norm_num [newtonErr, recipLoss]⟩

theorem interval5 : Interval 3 4 (8 / 10000) (15 / 100000) (986 / 1000) (1 / 1000) :=
  ⟨by norm_num, by norm_num, by norm_num, by norm_num, by norm_num [SquareFits], by norm_num, by norm_num, by norm_num, by norm_num [squareErr], by norm_num, by norm_num,
    by norm_num, by norm_num [recipLoss], by norm_num [newtonErr, recipLoss]⟩

theorem interval6 : Interval 4 8 0 (5 / 100000) (99 / 100) (1 / 100) :=
  ⟨by norm_num, by norm_num, by norm_num, by norm_num, by norm_num [SquareFits], by norm_num, by norm_num, by norm_num, by norm_num [squareErr], by norm_num, by norm_num,
    by norm_num, by norm_num [recipLoss], by norm_num [newtonErr, recipLoss]⟩

theorem interval7 : Interval 8 16 0 (4 / 100000) (979 / 1000) (1 / 100) :=
  ⟨by norm_num, by norm_num, by norm_num, by norm_num, by norm_num [SquareFits], by norm_num, by norm_num, by norm_num, by norm_num [squareErr], by norm_num, by norm_num,
    by norm_num, by norm_num [recipLoss], by norm_num [newtonErr, recipLoss]⟩

theorem interval8 : Interval 16 24 0 (4 / 100000) (956 / 1000) (1 / 25) :=
  ⟨by norm_num, by norm_num, by norm_num, by norm_num, by norm_num [SquareFits], by norm_num, by norm_num, by norm_num, by norm_num [squareErr], by norm_num, by norm_num,
    by norm_num, by norm_num [recipLoss], by norm_num [newtonErr, recipLoss]⟩

theorem interval9 : Interval 24 32 0 (4 / 100000) (933 / 1000) (1 / 25) :=
  ⟨by norm_num, by norm_num, by norm_num, by norm_num, by norm_num [SquareFits], by norm_num, by norm_num, by norm_num, by norm_num [squareErr], by norm_num, by norm_num,
    by norm_num, by norm_num [recipLoss], by norm_num [newtonErr, recipLoss]⟩

theorem Interval.good {a b l S ρ B x : ℚ} (h : Interval a b l S ρ B) (hxa : a ≤ x) (hxb : x ≤ b) :
    ∃ w ρ, RecipGood 2 16 8 10 x w ρ ∧ newtonErr (recipLoss 2 16 x) ρ 10 ≤ B := by
  have h1 := recipGood_interval 2 16 10 a b l S ρ x h.ha h.hb hxa hxb (by norm_num) h.hab h.hone h.hsq h.hl0 h.hl h.hS0 h.hS h.hρ1 h.hρ2 h.hρ h.hc
  exact ⟨_, ρ, h1.1, (h1.2 10).trans h.hB⟩

/-- The bounds that the default configuration and two parties give, from one fourth to 32. -/
theorem recip_default (x : ℚ) (h0 : 1 / 4 ≤ x) (h1 : x ≤ 32) :
    ∃ w ρ, RecipGood 2 16 8 10 x w ρ ∧ newtonErr (recipLoss 2 16 x) ρ 10 ≤ if x ≤ 4 then 1 / 1000 else if x ≤ 16 then 1 / 100 else 1 / 25 := by
  by_cases h4 : x ≤ 4
  · rw [if_pos h4]
    rcases le_total x (1 / 2) with h | h
    · exact interval1.good h0 h
    rcases le_total x 1 with h' | h'
    · exact interval2.good h h'
    rcases le_total x 2 with h2 | h2
    · exact interval3.good h' h2
    rcases le_total x 3 with h3 | h3
    · exact interval4.good h2 h3
    · exact interval5.good h3 h4
  · rw [if_neg h4]
    by_cases h16 : x ≤ 16
    · rw [if_pos h16]
      rcases le_total x 8 with h8 | h8
      · exact interval6.good (not_le.1 h4).le h8
      · exact interval7.good h8 h16
    · rw [if_neg h16]
      rcases le_total x 24 with h24 | h24
      · exact interval8.good (not_le.1 h16).le h24
      · exact interval9.good h24 h1

/-- **C53, the reciprocal with the default configuration, two parties and 16 bits**: for numbers between one fourth and 32 in absolute value the result is right up to a relative
error of 0.1 % (up to 4), 1 % (up to 16) and 4 % (up to 32). -/
theorem C53_reciprocal_default_encrypted (method : MaxMethod) (x : AST 2 ι) (hx : x.scale = 2 ^ 16) (h : ∀ i, 1 / 4 ≤ |x.value i| ∧ |x.value i| ≤ 32) :
    Sat ((mpcOps 2 16 method).reciprocal {} x) fun z => z.scale = 2 ^ 16 ∧ ∀ i, |1 - x.value i * z.value i| ≤ defaultRecipErr (x.value i) := by
  choose w ρ hg hb using fun i => recip_default |x.value i| (h i).1 (h i).2
  refine (C53_reciprocal_encrypted (by norm_num) method (by norm_num) (by norm_num) (by norm_num) {} rfl rfl rfl (by norm_num) x hx w ρ hg fun i => (hb i).trans ?_).mono
    fun z hz => ⟨hz.1, fun i => (hz.2 i).trans (hb i)⟩
  split
  · norm_num
  · split <;> norm_num

/-- **C86 (division by an encrypted tensor, default configuration, two parties).** For divisors between one fourth and 32 in absolute value the quotient is right up to the
relative error of the reciprocal and two units in the last place. -/
theorem C86_encrypted_divisor_default (method : MaxMethod) (g : κ → ι) (h : κ → ι') (x : AST 2 ι) (y : AST 2 ι') (hx : x.scale = 2 ^ 16) (hy : y.scale = 2 ^ 16)
    (hx1 : ∀ i, |x.value i| ≤ 2 ^ 28) (hy1 : ∀ j, 1 / 4 ≤ |y.value j| ∧ |y.value j| ≤ 32) :
    Sat (x.divEncrypted ((mpcOps 2 16 method).reciprocal {}) g h y) fun z => z.scale = 2 ^ 16 ∧
      ∀ i, |z.value i - x.value (g i) / y.value (h i)| < |x.value (g i) / y.value (h i)| * defaultRecipErr (y.value (h i)) + 2 / 2 ^ 16 := by
  have hy0 : ∀ j, 0 < |y.value j| := fun j => lt_of_lt_of_le (by norm_num) (hy1 j).1
  have hE : ∀ j, defaultRecipErr (y.value j) ≤ 1 / 25 := fun j => by unfold defaultRecipErr; split <;> [norm_num; (split <;> norm_num)]
  have hinv : ∀ j, 1 / |y.value j| ≤ 4 := fun j => by rw [div_le_iff₀ (hy0 j)]; linarith [(hy1 j).1]
  have h1 := C86_encrypted_divisor_partial (by norm_num) 16 (by norm_num) (by norm_num) ((mpcOps 2 16 method).reciprocal {}) g h x y hx
    (fun j => defaultRecipErr (y.value j) / |y.value j|) ((C53_reciprocal_default_encrypted method y hy hy1).mono fun r hr => ⟨hr.1, fun j => ?_⟩) fun i => ?_
  · refine h1.mono fun z hz => ⟨hz.1, fun i => ?_⟩
    have h2 := hz.2 i
    rw [abs_div, div_mul_eq_mul_div, ← mul_div_assoc] at *
    exact_mod_cast h2
  · have hne : y.value j ≠ 0 := abs_pos.1 (hy0 j)
    rw [le_div_iff₀ (hy0 j), ← abs_mul]
    have e : (r.value j - 1 / y.value j) * y.value j = -(1 - y.value j * r.value j) := by field_simp; ring
    rw [e, abs_neg]
    exact hr.2 j
  · have h2 : defaultRecipErr (y.value (h i)) / |y.value (h i)| ≤ 1 / 25 * 4 := by
      rw [div_eq_mul_one_div]
      exact mul_le_mul (hE _) (hinv _) (by positivity) (by norm_num)
    have h3 := hinv (h i)
    rw [abs_div, abs_one]
    have h4 : |x.value (g i)| * (1 / |y.value (h i)| + defaultRecipErr (y.value (h i)) / |y.value (h i)|) ≤ 2 ^ 28 * 5 :=
      mul_le_mul (hx1 _) (by linarith) (by
        have : 0 ≤ defaultRecipErr (y.value (h i)) := by unfold defaultRecipErr; split <;> [norm_num; (split <;> norm_num)]
        positivity) (by norm_num)
    linarith

/-- The hypotheses are met, by 3 and by -20. -/
example : ∃ x : AST 2 Bool, x.scale = 2 ^ 16 ∧ x.value true = 3 ∧ x.value false = -20 ∧ (∀ i, 1 / 4 ≤ |x.value i| ∧ |x.value i| ≤ 32) ∧
    defaultRecipErr (x.value true) = 1 / 1000 ∧ defaultRecipErr (x.value false) = 1 / 25 := by
  refine ⟨⟨fun p b => if p = 0 then 5 else if b then 196603 else -1310725, 2 ^ 16⟩, rfl, ?_⟩
  have h1 : AST.value (⟨fun p b => if p = 0 then 5 else if b then 196603 else -1310725, 2 ^ 16⟩ : AST 2 Bool) true = 3 := by
    have e : (reveal (fun p b => if p = 0 then 5 else if b then 196603 else -1310725 : Shares 2 Bool) true).toInt = 196608 := by rw [reveal_apply]; decide
    rw [AST.value, e]; norm_num
  have h2 : AST.value (⟨fun p b => if p = 0 then 5 else if b then 196603 else -1310725, 2 ^ 16⟩ : AST 2 Bool) false = -20 := by
    have e : (reveal (fun p b => if p = 0 then 5 else if b then 196603 else -1310725 : Shares 2 Bool) false).toInt = -1310720 := by rw [reveal_apply]; decide
    rw [AST.value, e]; norm_num
  refine ⟨h1, h2, fun i => ?_, ?_, ?_⟩
  · cases i
    · rw [h2]; norm_num [abs_of_neg]
    · rw [h1]; norm_num [abs_of_pos]
  · rw [h1]; norm_num [defaultRecipErr, abs_of_pos]
  · rw [h2]; norm_num [defaultRecipErr, abs_of_neg]

end CrypTen

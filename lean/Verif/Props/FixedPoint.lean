import Mathlib.Algebra.Order.Ring.Abs
import Mathlib.Tactic.GCongr
import Verif.Model.Functions
import Verif.Props.Power
import Verif.Props.Maximum

/-!
# Errors of fixed-point computations

`Near k x v e`: the encrypted tensor `x` has scale `2 ^ k` and its entries are within `e` of the numbers `v`. Each operation of `mpcOps` on near tensors gives
a near tensor, with the error of its truncation added; from this follow error bounds for `pow` and `exp` as they run on shares.
-/

namespace CrypTen
variable {n : ℕ} {ι κ : Type} {k : ℕ}

def Near (k : ℕ) (x : AST n ι) (v : ι → ℚ) (e : ℚ) : Prop := x.scale = 2 ^ k ∧ ∀ i, |x.value i - v i| ≤ e

theorem Near.mono {x : AST n ι} {v : ι → ℚ} {e f : ℚ} (h : Near k x v e) (hef : e ≤ f) : Near k x v f := ⟨h.1, fun i => (h.2 i).trans hef⟩

theorem Near.self {x : AST n ι} (h : x.scale = 2 ^ k) : Near k x x.value 0 := ⟨h, fun i => by rw [sub_self, abs_zero]⟩

theorem Near.congr {x : AST n ι} {v w : ι → ℚ} {e : ℚ} (h : Near k x v e) (hvw : ∀ i, v i = w i) : Near k x w e :=
  ⟨h.1, fun i => by rw [← hvw]; exact h.2 i⟩

theorem Near.abs_le {x : AST n ι} {v : ι → ℚ} {e B : ℚ} (h : Near k x v e) {i : ι} (hv : |v i| ≤ B) : |x.value i| ≤ B + e := by
  have h1 := h.2 i
  have h2 : |x.value i| ≤ |x.value i - v i| + |v i| := by
    have := abs_add_le (x.value i - v i) (v i); rwa [sub_add_cancel] at this
  linarith

theorem fits_of_abs {a b : ℚ} (h : |a| ≤ b) (hb : b < 2 ^ 63) : Fits a := by
  rw [abs_le] at h; exact ⟨by linarith [h.1], by linarith [h.2]⟩

theorem Near.scaleQ {x : AST n ι} {v : ι → ℚ} {e : ℚ} (h : Near k x v e) : (x.scale : ℚ) = 2 ^ k := by rw [h.1]; push_cast; rfl

theorem abs_mul_sub_mul_le {a b v w e f B C : ℚ} (h1 : |a - v| ≤ e) (h2 : |b - w| ≤ f) (hv : |v| ≤ B) (hw : |w| ≤ C) :
    |a * b - v * w| ≤ e * C + B * f + e * f := by
  have he : 0 ≤ e := (abs_nonneg _).trans h1
  have hf : 0 ≤ f := (abs_nonneg _).trans h2
  have e1 : a * b - v * w = (a - v) * w + v * (b - w) + (a - v) * (b - w) := by ring
  rw [e1]
  refine (abs_add_le _ _).trans (add_le_add ((abs_add_le _ _).trans (add_le_add ?_ ?_)) ?_)
  · rw [abs_mul]; exact mul_le_mul h1 hw (abs_nonneg _) he
  · rw [abs_mul]; exact mul_le_mul hv h2 (abs_nonneg _) ((abs_nonneg _).trans hv)
  · rw [abs_mul]; exact mul_le_mul h1 h2 (abs_nonneg _) he

/-- The square: error `e (2B + e)` from the operand, plus the truncation. -/
theorem near_square [NeZero n] (hn : n < 2 ^ 60) (hk : k ≤ 62) {x : AST n ι} {v : ι → ℚ} {e B : ℚ} (h : Near k x v e) (hv : ∀ i, |v i| ≤ B)
    (hfit : 2 ^ k * 2 ^ k * (B + e) ^ 2 < 2 ^ 63) : Sat x.square fun z => Near k z (fun i => v i * v i) (e * (2 * B + e) + n / 2 ^ k) := by
  have hfit' : ∀ i, Fits (x.scale * x.scale * (x.value i * x.value i)) := fun i => by
    refine fits_of_abs ?_ hfit
    rw [h.scaleQ, abs_mul, abs_of_pos (a := (2 : ℚ) ^ k * 2 ^ k) (by positivity), abs_mul, sq]
    have := h.abs_le (hv i)
    exact mul_le_mul_of_nonneg_left (mul_le_mul this this (abs_nonneg _) ((abs_nonneg _).trans this)) (by positivity)
  refine (C56_square hn x k hk h.1 hfit').mono fun z hz => ⟨hz.1.trans h.1, fun i => ?_⟩
  have h1 := hz.2 i
  rw [h.scaleQ] at h1
  have h2 := abs_mul_sub_mul_le (h.2 i) (h.2 i) (hv i) (hv i)
  have h3 := abs_add_le (z.value i - x.value i * x.value i) (x.value i * x.value i - v i * v i)
  rw [sub_add_sub_cancel] at h3
  linarith

/-- The product. -/
theorem near_mul [NeZero n] (hn : n < 2 ^ 60) (hk0 : 0 < k) (hk : k ≤ 62) {x y : AST n ι} {v w : ι → ℚ} {e f B C : ℚ} (hx : Near k x v e) (hy : Near k y w f)
    (hv : ∀ i, |v i| ≤ B) (hw : ∀ i, |w i| ≤ C) (hfit : 2 ^ k * 2 ^ k * ((B + e) * (C + f)) < 2 ^ 63) :
    Sat (AST.mul (elementwise ι) x y) fun z => Near k z (fun i => v i * w i) (e * C + B * f + e * f + n / 2 ^ k) := by
  have hfit' : ∀ i, Fits (x.scale * y.scale * bilinearQ (elementwise ι) x.value y.value i) := fun i => by
    refine fits_of_abs ?_ hfit
    rw [hx.scaleQ, hy.scaleQ, bilinearQ_elementwise, abs_mul, abs_of_pos (a := (2 : ℚ) ^ k * 2 ^ k) (by positivity), abs_mul]
    have h1 := hx.abs_le (hv i)
    have h2 := hy.abs_le (hw i)
    exact mul_le_mul_of_nonneg_left (mul_le_mul h1 h2 (abs_nonneg _) ((abs_nonneg _).trans h1)) (by positivity)
  refine (C56_mul_equal_scales hn (elementwise ι) x y k hk0 hk hx.1 hy.1 hfit').mono fun z hz => ⟨hz.1.trans hx.1, fun i => ?_⟩
  have h1 := hz.2 i
  rw [hx.scaleQ, bilinearQ_elementwise] at h1
  have h2 := abs_mul_sub_mul_le (hx.2 i) (hy.2 i) (hv i) (hw i)
  have h3 := abs_add_le (z.value i - x.value i * y.value i) (x.value i * y.value i - v i * w i)
  rw [sub_add_sub_cancel] at h3
  linarith

theorem near_add [NeZero n] {x y : AST n ι} {v w : ι → ℚ} {e f B : ℚ} (hx : Near k x v e) (hy : Near k y w f)
    (hB : ∀ i, |v i + w i| ≤ B) (hfit : 2 ^ k * (B + (e + f)) < 2 ^ 63) : SatX (x.add y) fun z => Near k z (fun i => v i + w i) (e + f) := by
  have hpos : 0 < 2 ^ k := Nat.two_pow_pos k
  have hd : ∀ i, |x.value i + y.value i - (v i + w i)| ≤ e + f := fun i => by
    have e1 : x.value i + y.value i - (v i + w i) = (x.value i - v i) + (y.value i - w i) := by ring
    rw [e1]; exact (abs_add_le _ _).trans (add_le_add (hx.2 i) (hy.2 i))
  refine (C56_add x y ⟨by rw [hx.1]; exact hpos, by rw [hy.1]; exact hpos, Or.inl (by rw [hx.1, hy.1])⟩ fun i => ?_).mono fun z hz => ⟨?_, fun i => ?_⟩
  · rw [hx.1, hy.1, max_self]
    refine fits_of_abs ?_ hfit
    push_cast
    rw [abs_mul, abs_of_pos (a := (2 : ℚ) ^ k) (by positivity)]
    refine mul_le_mul_of_nonneg_left ?_ (by positivity)
    have h1 := hd i
    have h2 := abs_add_le (x.value i + y.value i - (v i + w i)) (v i + w i)
    rw [sub_add_cancel] at h2
    have := hB i
    linarith
  · rw [hz.1, hx.1, hy.1, max_self]
  · rw [hz.2]; exact hd i

theorem near_sub [NeZero n] {x y : AST n ι} {v w : ι → ℚ} {e f B : ℚ} (hx : Near k x v e) (hy : Near k y w f)
    (hB : ∀ i, |v i - w i| ≤ B) (hfit : 2 ^ k * (B + (e + f)) < 2 ^ 63) : SatX (x.sub y) fun z => Near k z (fun i => v i - w i) (e + f) := by
  have hpos : 0 < 2 ^ k := Nat.two_pow_pos k
  have hd : ∀ i, |x.value i - y.value i - (v i - w i)| ≤ e + f := fun i => by
    have e1 : x.value i - y.value i - (v i - w i) = (x.value i - v i) - (y.value i - w i) := by ring
    rw [e1]; exact (abs_sub _ _).trans (add_le_add (hx.2 i) (hy.2 i))
  refine (C56_sub x y ⟨by rw [hx.1]; exact hpos, by rw [hy.1]; exact hpos, Or.inl (by rw [hx.1, hy.1])⟩ fun i => ?_).mono fun z hz => ⟨?_, fun i => ?_⟩
  · rw [hx.1, hy.1, max_self]
    refine fits_of_abs ?_ hfit
    push_cast
    rw [abs_mul, abs_of_pos (a := (2 : ℚ) ^ k) (by positivity)]
    refine mul_le_mul_of_nonneg_left ?_ (by positivity)
    have h1 := hd i
    have h2 := abs_add_le (x.value i - y.value i - (v i - w i)) (v i - w i)
    rw [sub_add_cancel] at h2
    have := hB i
    linarith
  · rw [hz.1, hx.1, hy.1, max_self]
  · rw [hz.2]; exact hd i

/-- Adding a public number: one unit in the last place is lost at most, nothing if the number is a multiple of it. -/
theorem near_addNum [NeZero n] {x : AST n ι} {v : ι → ℚ} {e B : ℚ} (hx : Near k x v e) (c d : ℚ) (hc : |(truncQ (2 ^ k * c) : ℚ) / 2 ^ k - c| ≤ d)
    (hB : ∀ i, |v i + c| ≤ B) (hfit : 2 ^ k * (B + (e + d)) < 2 ^ 63) : Near k (x.addPub fun _ => c) (fun i => v i + c) (e + d) := by
  have hd : ∀ i, |x.value i + (truncQ (2 ^ k * c) : ℚ) / 2 ^ k - (v i + c)| ≤ e + d := fun i => by
    have e1 : x.value i + (truncQ (2 ^ k * c) : ℚ) / 2 ^ k - (v i + c) = (x.value i - v i) + ((truncQ (2 ^ k * c) : ℚ) / 2 ^ k - c) := by ring
    rw [e1]; exact (abs_add_le _ _).trans (add_le_add (hx.2 i) hc)
  refine ⟨hx.1, fun i => ?_⟩
  rw [addPub_value x _ (by rw [hx.1]; exact Nat.two_pow_pos k) i, hx.scaleQ]
  · exact hd i
  · rw [hx.scaleQ]
    refine fits_of_abs ?_ hfit
    rw [abs_mul, abs_of_pos (a := (2 : ℚ) ^ k) (by positivity)]
    refine mul_le_mul_of_nonneg_left ?_ (by positivity)
    have h1 := hd i
    have h2 := abs_add_le (x.value i + (truncQ (2 ^ k * c) : ℚ) / 2 ^ k - (v i + c)) (v i + c)
    rw [sub_add_cancel] at h2
    have := hB i
    linarith

theorem trunc_int (k : ℕ) (z : ℤ) : |(truncQ (2 ^ k * (z : ℚ)) : ℚ) / 2 ^ k - z| ≤ 0 := by
  have : (2 : ℚ) ^ k * z = ((2 ^ k * z : ℤ) : ℚ) := by push_cast; rfl
  rw [this, truncQ_intCast]
  push_cast
  rw [mul_comm, mul_div_assoc, div_self (by positivity), mul_one, sub_self, abs_zero]

theorem trunc_any (k : ℕ) (c : ℚ) : |(truncQ (2 ^ k * c) : ℚ) / 2 ^ k - c| ≤ 1 / 2 ^ k := by
  have h := (truncQ_bounds (2 ^ k * c)).1
  have e : (truncQ (2 ^ k * c) : ℚ) / 2 ^ k - c = ((truncQ (2 ^ k * c) : ℚ) - 2 ^ k * c) / 2 ^ k := by field_simp
  rw [e, abs_div, abs_of_pos (a := (2 : ℚ) ^ k) (by positivity)]
  exact div_le_div_of_nonneg_right h.le (by positivity)

theorem near_addInt [NeZero n] {x : AST n ι} {v : ι → ℚ} {e B : ℚ} (hx : Near k x v e) (c : ℤ)
    (hB : ∀ i, |v i + c| ≤ B) (hfit : 2 ^ k * (B + e) < 2 ^ 63) : Near k (x.addPub fun _ => (c : ℚ)) (fun i => v i + c) e := by
  have := near_addNum hx (c : ℚ) 0 (trunc_int k c) hB (by rw [add_zero]; exact hfit)
  rwa [add_zero] at this

theorem near_neg {x : AST n ι} {v : ι → ℚ} {e B : ℚ} (hx : Near k x v e) (hB : ∀ i, |v i| ≤ B) (hfit : 2 ^ k * (B + e) < 2 ^ 63) :
    Near k x.neg (fun i => -v i) e := by
  refine ⟨hx.1, fun i => ?_⟩
  rw [neg_value (by rw [hx.1]; exact Nat.two_pow_pos k) i]
  · rw [neg_sub_neg, abs_sub_comm]; exact hx.2 i
  · intro h
    rw [hx.scaleQ] at h
    have h1 := hx.abs_le (hB i)
    have h2 : |(2 : ℚ) ^ k * x.value i| < 2 ^ 63 := by
      rw [abs_mul, abs_of_pos (a := (2 : ℚ) ^ k) (by positivity)]
      exact lt_of_le_of_lt (mul_le_mul_of_nonneg_left h1 (by positivity)) hfit
    rw [h, abs_neg, abs_of_pos (by positivity)] at h2
    exact lt_irrefl _ h2

/-- Division by `2 ^ d`. -/
theorem near_divPow [NeZero n] (hn : n < 2 ^ 60) {x : AST n ι} {v : ι → ℚ} {e : ℚ} (hx : Near k x v e) (d : ℕ) (hd : d ≤ 62) :
    Sat (x.divInt fun _ => ((2 ^ d : ℕ) : ℤ)) fun z => Near k z (fun i => v i / 2 ^ d) (e / 2 ^ d + n / 2 ^ k) := by
  refine Sat.bind (sat_divInt_pow2 hn x.share d hd) fun s hs => Sat.pure ⟨hx.1, fun i => ?_⟩
  have h1 := hs i
  have h2 : |(2 : ℚ) ^ d * (reveal s i).toInt - (reveal x.share i).toInt| ≤ n * (2 ^ d - 1) := by exact_mod_cast h1
  have h3 : |((reveal s i).toInt : ℚ) / 2 ^ k - x.value i / 2 ^ d| ≤ n / 2 ^ k := by
    have e1 : ((reveal s i).toInt : ℚ) / 2 ^ k - x.value i / 2 ^ d = ((2 : ℚ) ^ d * (reveal s i).toInt - (reveal x.share i).toInt) / (2 ^ d * 2 ^ k) := by
      rw [AST.value, hx.scaleQ]; field_simp
    rw [e1, abs_div, abs_of_pos (a := (2 : ℚ) ^ d * 2 ^ k) (by positivity), div_le_div_iff₀ (by positivity) (by positivity)]
    have hn0 : (0 : ℚ) ≤ n := Nat.cast_nonneg n
    have hk0 : (0 : ℚ) < 2 ^ k := by positivity
    nlinarith
  have h4 : |x.value i / 2 ^ d - v i / 2 ^ d| ≤ e / 2 ^ d := by
    rw [← sub_div, abs_div, abs_of_pos (a := (2 : ℚ) ^ d) (by positivity)]
    exact div_le_div_of_nonneg_right (hx.2 i) (by positivity)
  show |((reveal s i).toInt : ℚ) / (x.scale : ℚ) - _| ≤ _
  rw [hx.scaleQ]
  have h5 := abs_add_le (((reveal s i).toInt : ℚ) / 2 ^ k - x.value i / 2 ^ d) (x.value i / 2 ^ d - v i / 2 ^ d)
  rw [sub_add_sub_cancel] at h5
  linarith

/-! ## pow -/

theorem fits_le4 (hk : k ≤ 30) {a : ℚ} (ha : a ≤ 4) : (2 : ℚ) ^ k * 2 ^ k * a < 2 ^ 63 := by
  have h1 : (2 : ℚ) ^ k ≤ 2 ^ 30 := pow_le_pow_right₀ (by norm_num) hk
  have h0 : (0 : ℚ) < 2 ^ k := by positivity
  have h2 : (2 : ℚ) ^ k * 2 ^ k ≤ 2 ^ 30 * 2 ^ 30 := mul_le_mul h1 h1 h0.le (by positivity)
  calc (2 : ℚ) ^ k * 2 ^ k * a ≤ 2 ^ k * 2 ^ k * 4 := mul_le_mul_of_nonneg_left ha (by positivity)
    _ ≤ 2 ^ 30 * 2 ^ 30 * 4 := mul_le_mul_of_nonneg_right h2 (by norm_num)
    _ < 2 ^ 63 := by norm_num

theorem near_powPos [NeZero n] (hn : n < 2 ^ 60) (q : ℕ) (method : MaxMethod) (hk0 : 0 < k) (hk : k ≤ 30) : ∀ (p : ℕ), 0 < p → ∀ (x : AST n ι) (v : ι → ℚ) (e : ℚ),
    0 ≤ e → Near k x v e → (∀ i, |v i| ≤ 1) → (p : ℚ) ^ 3 * (e + n / 2 ^ k) ≤ 1 →
    Sat ((mpcOps n q method).powPos x p) fun z => Near k z (fun i => v i ^ powExponent p) ((p : ℚ) ^ 3 * (e + n / 2 ^ k)) := by
  intro p
  induction p using Nat.strong_induction_on with
  | _ p ih =>
  intro hp x v e he hx hv hpe
  have hδ : (0 : ℚ) ≤ n / 2 ^ k := by positivity
  have hp1 : (1 : ℚ) ≤ p := by exact_mod_cast hp
  have hp31 : (1 : ℚ) ≤ (p : ℚ) ^ 3 := one_le_pow₀ hp1
  have hle1 : e + n / 2 ^ k ≤ 1 := le_trans (by nlinarith) hpe
  have hsq : Sat x.square fun z => Near k z (fun i => v i * v i) (e * (2 * 1 + e) + n / 2 ^ k) :=
    near_square hn (by omega) hx hv (fits_le4 hk (by nlinarith))
  have hvv : ∀ i, |v i * v i| ≤ 1 := fun i => by rw [abs_mul]; exact mul_le_one₀ (hv i) (abs_nonneg _) (hv i)
  rw [Ops.powPos, powExponent]
  split
  · have : p = 1 := by omega
    subst this
    refine Sat.pure ?_
    simp only [pow_one, if_pos, le_refl]
    exact hx.mono (by push_cast; linarith)
  · split
    · rename_i h1 h2
      subst h2
      refine hsq.mono fun z hz => (hz.congr fun i => (sq (v i)).symm).mono ?_
      push_cast; nlinarith
    · split
      · rename_i h1 h2 h3
        obtain ⟨r, rfl⟩ : ∃ r, p = 2 * r := ⟨p / 2, by omega⟩
        have hr : 2 * r / 2 = r := by omega
        rw [hr]
        have hr1 : (1 : ℚ) ≤ r := by exact_mod_cast (show 1 ≤ r by omega)
        have hr3 : (1 : ℚ) ≤ (r : ℚ) ^ 3 := one_le_pow₀ hr1
        push_cast at hpe ⊢
        have hb : (r : ℚ) ^ 3 * (3 * e + n / 2 ^ k + n / 2 ^ k) ≤ (2 * r) ^ 3 * (e + n / 2 ^ k) := by nlinarith
        refine Sat.bind hsq fun y hy => ?_
        have hy' : Near k y (fun i => v i * v i) (3 * e + n / 2 ^ k) := hy.mono (by nlinarith)
        refine (ih r (by omega) (by omega) y _ _ (by positivity) hy' hvv (hb.trans hpe)).mono fun z hz => (hz.mono hb).congr fun i => ?_
        rw [← sq, ← pow_mul]
      · rename_i h1 h2 h3
        obtain ⟨r, rfl⟩ : ∃ r, p = 2 * r + 1 := ⟨(p - 1) / 2, by omega⟩
        have hr : (2 * r + 1 - 1) / 2 = r := by omega
        rw [hr]
        have hr1 : (1 : ℚ) ≤ r := by exact_mod_cast (show 1 ≤ r by omega)
        have hr3 : (1 : ℚ) ≤ (r : ℚ) ^ 3 := one_le_pow₀ hr1
        have hp27 : (27 : ℚ) ≤ (2 * r + 1) ^ 3 := by
          calc (27 : ℚ) = 3 ^ 3 := by norm_num
            _ ≤ (2 * r + 1) ^ 3 := pow_le_pow_left₀ (by norm_num) (by linarith) 3
        push_cast at hpe ⊢
        have hsmall : e + n / 2 ^ k ≤ 1 / 27 := by nlinarith
        have hb : (r : ℚ) ^ 3 * (7 * e + 3 * (n / 2 ^ k) + n / 2 ^ k) ≤ (2 * r + 1) ^ 3 * (e + n / 2 ^ k) := by
          have : 8 * (r : ℚ) ^ 3 ≤ (2 * r + 1) ^ 3 := by
            calc 8 * (r : ℚ) ^ 3 = (2 * r) ^ 3 := by ring
              _ ≤ _ := pow_le_pow_left₀ (by positivity) (by linarith) 3
          nlinarith
        refine Sat.bind hsq fun s hs => ?_
        have hs' : Near k s (fun i => v i * v i) (3 * e + n / 2 ^ k) := hs.mono (by nlinarith)
        have hm : Sat (AST.mul (elementwise ι) s x) fun z => Near k z (fun i => v i * v i * v i) ((3 * e + n / 2 ^ k) * 1 + 1 * e + (3 * e + n / 2 ^ k) * e + n / 2 ^ k) :=
          near_mul hn hk0 (by omega) hs' hx hvv hv (fits_le4 hk (by nlinarith))
        refine Sat.bind hm fun y hy => ?_
        have hy' : Near k y (fun i => v i * v i * v i) (7 * e + 3 * (n / 2 ^ k)) := hy.mono (by nlinarith)
        have hvvv : ∀ i, |v i * v i * v i| ≤ 1 := fun i => by rw [abs_mul]; exact mul_le_one₀ (hvv i) (abs_nonneg _) (hv i)
        refine (ih r (by omega) (by omega) y _ _ (by positivity) hy' hvvv (hb.trans hpe)).mono fun z hz => (hz.mono hb).congr fun i => ?_
        rw [← pow_three', ← pow_mul]

/-- **C26 on shares**: for a base of absolute value at most 1 the encrypted result is within `p³ n` units in the last place of `x ^ powExponent p`; for the
powers `2 ^ j` and `3 * 2 ^ j` this is `x ^ p` (`powExponent_eq_iff`), for all other powers it is not. -/
theorem C26_pow_encrypted_partial [NeZero n] (hn : n < 2 ^ 60) (q : ℕ) (method : MaxMethod) (hk0 : 0 < k) (hk : k ≤ 30) (p : ℕ) (hp : 0 < p)
    (x : AST n ι) (hx : x.scale = 2 ^ k) (hx1 : ∀ i, |x.value i| ≤ 1) (hpn : (p : ℚ) ^ 3 * n ≤ 2 ^ k) :
    Sat ((mpcOps n q method).powPos x p) fun z => z.scale = 2 ^ k ∧ ∀ i, |z.value i - x.value i ^ powExponent p| ≤ (p : ℚ) ^ 3 * n / 2 ^ k := by
  have h := near_powPos hn q method hk0 hk p hp x x.value 0 le_rfl (Near.self hx) hx1 (by
    rw [zero_add, ← mul_div_assoc, div_le_one (by positivity)]; exact hpn)
  refine h.mono fun z hz => ⟨hz.1, fun i => ?_⟩
  have := hz.2 i
  rwa [zero_add, ← mul_div_assoc] at this

/-- The hypotheses are met by 16-bit tensors, two parties and powers up to 32. -/
example : ∃ x : AST 2 Unit, x.scale = 2 ^ 16 ∧ x.value () = 1 / 2 ∧ (∀ i, |x.value i| ≤ 1) ∧ ((32 : ℕ) : ℚ) ^ 3 * (2 : ℕ) ≤ 2 ^ 16 := by
  have e : ∀ i, (holder 2 Unit 32768 (2 ^ 16)).value i = 1 / 2 := fun i => by
    rw [holder_value (z := 32768) (hz := by decide)]; norm_num
  exact ⟨holder 2 Unit 32768 (2 ^ 16), rfl, e (), fun i => by rw [e]; norm_num [abs_of_pos], by norm_num⟩

/-- **C26 is false on shares too**: two to the fifth, at the default precision and with up to a thousand parties, decrypts to more than 63 instead of 32. -/
theorem C26_pow_encrypted_wrong [NeZero n] (hn : n ≤ 1000) (q : ℕ) (method : MaxMethod) (x : AST n Unit) (hx : x.scale = 2 ^ 16) (hx2 : ∀ i, x.value i = 2) :
    Sat ((mpcOps n q method).powPos x 5) fun z => 63 < z.value () := by
  have hδ0 : (0 : ℚ) ≤ n / 2 ^ 16 := by positivity
  have hδ1 : (n : ℚ) / 2 ^ 16 ≤ 1 / 60 := by
    rw [div_le_div_iff₀ (by positivity) (by positivity)]
    have : (n : ℚ) ≤ 1000 := by exact_mod_cast hn
    linarith
  have hx0 : Near 16 x (fun _ => 2) 0 := (Near.self hx).congr hx2
  rw [Ops.powPos, dif_neg (by norm_num), if_neg (by norm_num), if_neg (by norm_num)]
  refine Sat.bind (near_square (by omega) (by norm_num) hx0 (B := 2) (fun _ => by norm_num) (by norm_num)) fun s hs => ?_
  have hs' : Near 16 s (fun _ => 4) (n / 2 ^ 16) := (hs.congr fun i => by norm_num).mono (by linarith)
  refine Sat.bind (near_mul (by omega) (by norm_num) (by norm_num) hs' hx0 (B := 4) (C := 2) (fun _ => by norm_num) (fun _ => by norm_num) (by nlinarith)) fun c hc => ?_
  have hc' : Near 16 c (fun _ => 8) (3 * (n / 2 ^ 16)) := (hc.congr fun i => by norm_num).mono (by linarith)
  show Sat ((mpcOps n q method).powPos c 2) _
  rw [Ops.powPos, dif_neg (by norm_num), if_pos rfl]
  refine (near_square (by omega) (by norm_num) hc' (B := 8) (fun _ => by norm_num) (by nlinarith)).mono fun z hz => ?_
  have h := (abs_le.1 (hz.2 ())).1
  nlinarith

/-- With one party a division is never spoilt by a wrap-around. -/
theorem divGood_one (w : WrapPair 1 ι) (y : Shares 1 ι) (i : ι) : DivGood w y i := by
  unfold DivGood
  rw [if_neg (by decide), Fin.sum_univ_one, reveal_apply, Fin.sum_univ_one]

theorem good_one_square (x : AST 1 ι) (T : Tuples 1) (c : ℕ) : (x.square T c).good := ⟨trivial, fun i => divGood_one _ _ i, trivial⟩

theorem good_one_mul {ι' : Type} (B : BilinearOp ι ι' κ) (x : AST 1 ι) (y : AST 1 ι') (T : Tuples 1) (c : ℕ) : (AST.mul B x y T c).good := by
  refine ⟨trivial, ?_⟩
  show Run.good ((if _ then _ else _ : Proto 1 _) T _)
  split
  · exact ⟨fun i => divGood_one _ _ i, trivial⟩
  · split <;> trivial

theorem good_one_pow (q : ℕ) (method : MaxMethod) : ∀ (p : ℕ) (x : AST 1 ι) (T : Tuples 1) (c : ℕ), ((mpcOps 1 q method).powPos x p T c).good := by
  intro p
  induction p using Nat.strong_induction_on with
  | _ p ih =>
  intro x T c
  rw [Ops.powPos]
  split
  · trivial
  · split
    · exact good_one_square x T c
    · split
      · exact ⟨good_one_square x T c, ih (p / 2) (by omega) _ _ _⟩
      · exact ⟨good_one_square x T c, good_one_mul _ _ _ _ _, ih ((p - 1) / 2) (by omega) _ _ _⟩

/-- There is such a tensor and a run in which no division is spoilt (with one party). -/
example : ∃ (T : Tuples 1) (x : AST 1 Unit), T.Valid ∧ x.scale = 2 ^ 16 ∧ (∀ i, x.value i = 2) ∧ ((mpcOps 1 16 .pairwise).powPos x 5 T 0).good := by
  obtain ⟨T, hT, -⟩ := tuples_exist 1
  refine ⟨T, holder 1 Unit 131072 (2 ^ 16), hT, rfl, fun i => ?_, good_one_pow _ _ _ _ _ _⟩
  rw [holder_value (z := 131072) (hz := by decide)]; norm_num

/-! ## exp -/

theorem near_squarings [NeZero n] (hn : n < 2 ^ 60) (hk : k ≤ 30) (η : ℚ) (hη0 : 0 ≤ η) (hη : η ≤ 1) : ∀ (d : ℕ) (x : AST n ι) (v : ι → ℚ) (e : ℚ),
    0 ≤ e → Near k x v e → (∀ i, |v i| ≤ 1) → (2 + η) ^ d * (e + n / 2 ^ k) ≤ η →
    Sat (iterM AST.square d x) fun z => Near k z (fun i => v i ^ 2 ^ d) ((2 + η) ^ d * (e + n / 2 ^ k)) := by
  intro d
  induction d with
  | zero =>
    intro x v e he hx hv h
    refine Sat.pure ((hx.congr fun i => ?_).mono ?_)
    · simp
    · have : (0 : ℚ) ≤ n / 2 ^ k := by positivity
      simp; exact this
  | succ d ih =>
    intro x v e he hx hv h
    have hδ : (0 : ℚ) ≤ n / 2 ^ k := by positivity
    have h2d : (1 : ℚ) ≤ (2 + η) ^ d := one_le_pow₀ (by linarith)
    have hS : 0 ≤ e + n / 2 ^ k := by positivity
    have hee : e + n / 2 ^ k ≤ η := by
      rw [pow_succ] at h
      have : 1 * (e + n / 2 ^ k) ≤ (2 + η) ^ d * (2 + η) * (e + n / 2 ^ k) := mul_le_mul_of_nonneg_right (by nlinarith) hS
      linarith
    have hsq : Sat x.square fun z => Near k z (fun i => v i * v i) (e * (2 * 1 + e) + n / 2 ^ k) :=
      near_square hn (by omega) hx hv (fits_le4 hk (by nlinarith))
    have hvv : ∀ i, |v i * v i| ≤ 1 := fun i => by rw [abs_mul]; exact mul_le_one₀ (hv i) (abs_nonneg _) (hv i)
    refine Sat.bind hsq fun y hy => ?_
    have hy' : Near k y (fun i => v i * v i) ((2 + η) * e + n / 2 ^ k) := hy.mono (by nlinarith)
    have hb : (2 + η) ^ d * ((2 + η) * e + n / 2 ^ k + n / 2 ^ k) ≤ (2 + η) ^ (d + 1) * (e + n / 2 ^ k) := by
      rw [pow_succ, mul_assoc]
      exact mul_le_mul_of_nonneg_left (by nlinarith) (by positivity)
    refine (ih y _ _ (by positivity) hy' hvv (hb.trans h)).mono fun z hz => (hz.mono hb).congr fun i => ?_
    rw [← sq, ← pow_mul, pow_succ, mul_comm 2]

/-- **C53, `exp` on shares**: for non-positive arguments down to `-2 ^ (d + 1)` the encrypted result of `exp` with `d` iterations is within `η` of
`(1 + x / 2 ^ d) ^ (2 ^ d)`, for every `η ≤ 1` with `(2 + η) ^ d * 2 n ≤ η 2 ^ k`. -/
theorem C53_exp_encrypted [NeZero n] (hn : n < 2 ^ 60) (q : ℕ) (method : MaxMethod) (hk : k ≤ 30) (d : ℕ) (hd : d ≤ 62) (η : ℚ) (hη0 : 0 ≤ η) (hη : η ≤ 1)
    (hηd : (2 + η) ^ d * (2 * n / 2 ^ k) ≤ η) (x : AST n ι) (hx : x.scale = 2 ^ k) (hx0 : ∀ i, x.value i ≤ 0) (hx1 : ∀ i, -2 ^ (d + 1) ≤ x.value i) :
    Sat ((mpcOps n q method).exp d x) fun z => z.scale = 2 ^ k ∧ ∀ i, |z.value i - (1 + x.value i / 2 ^ d) ^ 2 ^ d| ≤ η := by
  have hdq : (0 : ℚ) < 2 ^ d := by positivity
  have hδ : (0 : ℚ) ≤ n / 2 ^ k := by positivity
  have hv : ∀ i, |x.value i / 2 ^ d + ((1 : ℤ) : ℚ)| ≤ 1 := fun i => by
    have h1 : x.value i / 2 ^ d ≤ 0 := div_nonpos_of_nonpos_of_nonneg (hx0 i) hdq.le
    have h2 : -2 ≤ x.value i / 2 ^ d := by
      rw [le_div_iff₀ hdq]; have := hx1 i; rw [pow_succ] at this; linarith
    push_cast
    rw [abs_le]; constructor <;> linarith
  have hηδ : n / 2 ^ k ≤ η := by
    have h1 : (1 : ℚ) ≤ (2 + η) ^ d := one_le_pow₀ (by linarith)
    have h3 : (2 * n / 2 ^ k : ℚ) = 2 * (n / 2 ^ k) := by ring
    rw [h3] at hηd
    nlinarith
  refine Sat.bind (near_divPow hn (Near.self hx) d hd) fun y hy => ?_
  have hy' : Near k (y.addPub fun _ => ((1 : ℤ) : ℚ)) (fun i => x.value i / 2 ^ d + ((1 : ℤ) : ℚ)) (n / 2 ^ k) := by
    refine near_addInt (hy.mono (by rw [zero_div, zero_add])) 1 hv ?_
    have h1 : (2 : ℚ) ^ k ≤ 2 ^ 30 := pow_le_pow_right₀ (by norm_num) hk
    have h0 : (0 : ℚ) < 2 ^ k := by positivity
    nlinarith
  have h2 : (2 + η) ^ d * (n / 2 ^ k + n / 2 ^ k) ≤ η := by
    have : (n / 2 ^ k + n / 2 ^ k : ℚ) = 2 * n / 2 ^ k := by ring
    rw [this]; exact hηd
  have hfin := near_squarings hn hk η hη0 hη d (y.addPub fun _ => ((1 : ℤ) : ℚ)) _ _ hδ hy' hv h2
  have e1 : (fun _ : ι => ((1 : ℤ) : ℚ)) = fun _ => 1 := by funext; norm_num
  rw [e1] at hfin
  refine hfin.mono fun z hz => ⟨hz.1, fun i => ?_⟩
  have := hz.2 i
  push_cast at this
  rw [add_comm 1]
  exact this.trans h2

/-- With the default configuration (8 iterations, 16 bits) and two parties the bound is met by `η = 1/50`; the hypotheses on the input by -3. -/
example : (2 + 1 / 50 : ℚ) ^ 8 * (2 * (2 : ℕ) / 2 ^ 16) ≤ 1 / 50 ∧ ∃ x : AST 2 Unit, x.scale = 2 ^ 16 ∧ x.value () = -3 ∧ (∀ i, x.value i ≤ 0) ∧
    ∀ i, -2 ^ (8 + 1) ≤ x.value i := by
  have e : ∀ i, (holder 2 Unit (-196608) (2 ^ 16)).value i = -3 := fun i => by
    rw [holder_value (z := -196608) (hz := by decide)]; norm_num
  exact ⟨by norm_num, holder 2 Unit (-196608) (2 ^ 16), rfl, e (), fun i => by rw [e]; norm_num, fun i => by rw [e]; norm_num⟩

end CrypTen

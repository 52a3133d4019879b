import Verif.Model.Svm
import Verif.Spec.Svm
import Verif.Props.Quiet

/-!
# C94: training a linear classifier on encrypted data
-/

namespace CrypTen.Svm
open CrypTen
variable {n k : ℕ} {F N : ℕ} {ι : Type}

theorem bilinearQ_vecMat (w : Fin F → ℚ) (x : Fin F × Fin N → ℚ) (i : Fin N) : bilinearQ (vecMat F N) w x i = ∑ f, w f * x (f, i) := by
  rw [bilinearQ, vecMat, List.map_map, Fin.sum_univ_def]; rfl

theorem bilinearQ_gradMat (g : Fin N → ℚ) (x : Fin F × Fin N → ℚ) (f : Fin F) : bilinearQ (gradMat F N) g x f = ∑ i, g i * x (f, i) := by
  rw [bilinearQ, gradMat, List.map_map, Fin.sum_univ_def]; rfl

section Room
open Plain
variable {X W lr : ℚ} (r : Room n k F N X W lr)
include r

theorem Plain.Room.fit2 {a : ℚ} (h : a ≤ (F + N + 1) * ((W + lr + 4) * (X + lr + 4))) : 2 ^ k * 2 ^ k * a < (2 : ℚ) ^ 63 :=
  lt_of_le_of_lt (mul_le_mul_of_nonneg_left h (by positivity)) r.2.2.2.2.2.2.2

theorem Plain.Room.fit1 {a : ℚ} (h0 : 0 ≤ a) (h : a ≤ (F + N + 1) * ((W + lr + 4) * (X + lr + 4))) : 2 ^ k * a < (2 : ℚ) ^ 63 := by
  refine lt_of_le_of_lt ?_ (r.fit2 h)
  rw [mul_assoc]
  have : (1 : ℚ) ≤ 2 ^ k := one_le_pow₀ (by norm_num)
  nlinarith [mul_nonneg (show (0 : ℚ) ≤ 2 ^ k by positivity) h0]

/-- A bound for the room. -/
theorem Plain.Room.le {a b c : ℚ} (hb0 : 0 ≤ b) (ha : a ≤ F + N + 1) (hb : b ≤ W + lr + 4) (hc0 : 0 ≤ c) (hc : c ≤ X + lr + 4) : a * (b * c) ≤ (F + N + 1) * ((W + lr + 4) * (X + lr + 4)) :=
  mul_le_mul ha (mul_le_mul hb hc hc0 (hb0.trans hb)) (mul_nonneg hb0 hc0) (by positivity)

theorem Plain.Room.le_const {a : ℚ} (h : a ≤ 16) : a ≤ (F + N + 1) * ((W + lr + 4) * (X + lr + 4)) := by
  have := r.le (a := 1) (b := 4) (c := 4) (by norm_num) (by have : (0 : ℚ) ≤ F + N := by positivity
                                                            linarith) (by linarith [r.2.2.2.2.2.1, r.2.2.2.2.2.2.1]) (by norm_num) (by linarith [r.2.2.2.2.1, r.2.2.2.2.2.2.1])
  linarith

theorem Plain.Room.unit : 8 * (n + 1) * (1 / 2 ^ k : ℚ) ≤ 1 := by
  have h : (8 * (n + 1) : ℚ) ≤ 2 ^ k := by exact_mod_cast r.2.2.1
  rw [mul_one_div]
  exact (div_le_one (by positivity)).2 h

theorem Plain.Room.unit_n : n * (1 / 2 ^ k : ℚ) ≤ 1 / 8 := by
  have := r.unit
  have : (0 : ℚ) ≤ 1 / 2 ^ k := by positivity
  nlinarith

theorem Plain.Room.unit_1 : (1 / 2 ^ k : ℚ) ≤ 1 / 8 := by
  have h := r.unit
  have : (0 : ℚ) ≤ 1 / 2 ^ k := by positivity
  nlinarith [mul_nonneg (Nat.cast_nonneg (α := ℚ) n) this]

theorem Plain.Room.n_lt : n < 2 ^ 60 := by
  have h1 := r.2.2.1
  have : 2 ^ k ≤ 2 ^ 62 := Nat.pow_le_pow_right (by norm_num) r.2.1
  omega

theorem Plain.Room.N_lt : (N : ℤ) < 2 ^ 63 := by
  have h := r.fit1 (a := N * (1 * 1)) (by positivity) (r.le (by norm_num) (by have : (0 : ℚ) ≤ F := by positivity
                                                                              linarith) (by linarith [r.2.2.2.2.2.1, r.2.2.2.2.2.2.1]) (by norm_num) (by linarith [r.2.2.2.2.1, r.2.2.2.2.2.2.1]))
  have h1 : (1 : ℚ) ≤ 2 ^ k := one_le_pow₀ (by norm_num)
  have h2 : (N : ℚ) < 2 ^ 63 := by nlinarith [Nat.cast_nonneg (α := ℚ) N]
  exact_mod_cast h2

end Room

open Plain

/-- Mean of a row. -/
theorem near_meanRow [NeZero n] {X W lr : ℚ} (r : Room n k F N X W lr) {x : AST n (Fin N)} {v : Fin N → ℚ} {e : ℚ} (he0 : 0 ≤ e) (he : e ≤ 1) (hx : Near k x v e) (hv : ∀ i, |v i| ≤ 1) :
    Sat (meanRow x) fun z => Near k z (fun _ => (∑ i, v i) / N) (e + (3 * n + 2) / 2 ^ k) := by
  have hN : (0 : ℚ) < N := by exact_mod_cast r.2.2.2.1
  have h1 : Near k (x.reindex (κ := Fin N × Unit) Prod.fst) (fun p => v p.1) e := hx.reindex _
  have h2 := near_sumFirst (B := N) h1 (fun i => by
    refine (Finset.abs_sum_le_sum_abs _ _).trans ((Finset.sum_le_sum fun j _ => hv j).trans ?_)
    simp) (r.fit1 (by positivity) (by
      have := r.le (a := N) (b := 1 + e) (c := 1) (by linarith) (by have : (0 : ℚ) ≤ F := by positivity
                                                                    linarith) (by linarith [r.2.2.2.2.2.1, r.2.2.2.2.2.2.1]) (by norm_num) (by linarith [r.2.2.2.2.1, r.2.2.2.2.2.2.1])
      linarith))
  refine (near_divInt r.n_lt h2 (N : ℤ) (by exact_mod_cast r.2.2.2.1) r.N_lt).mono fun z hz => ?_
  refine Near.mono (hz.congr ?_) ?_
  · intro i; push_cast; rfl
  · push_cast
    rw [mul_div_cancel_left₀ _ hN.ne']

theorem sign_abs (v : ℚ) : |sign v| ≤ 1 := by
  unfold sign; split_ifs <;> norm_num

theorem sign_near {z s e : ℚ} (h : |z - s| ≤ e) (hs : e < |s|) : (if z < 0 then -1 else 1 : ℚ) = sign s := by
  rw [abs_le] at h
  unfold sign
  rcases lt_trichotomy s 0 with h0 | h0 | h0
  · rw [if_pos h0, if_pos]
    rw [abs_of_neg h0] at hs
    linarith
  · exfalso
    rw [h0, abs_zero] at hs
    linarith [h.1, h.2]
  · rw [if_neg (not_lt.2 h0.le), if_neg h0.ne', if_neg]
    rw [abs_of_pos h0] at hs
    linarith

/-- Predictions are exact for examples whose score is not too close to 0. -/
theorem sat_predict [NeZero n] {X W lr : ℚ} (r : Room n k F N X W lr) {x : AST n (Fin F × Fin N)} {w : AST n (Fin F)} {b : AST n Unit} {xv : Fin F × Fin N → ℚ} {wv : Fin F → ℚ} {bv e : ℚ}
    (he0 : 0 ≤ e) (he : e ≤ 1) (hx : Near k x xv (1 / 2 ^ k)) (hw : Near k w wv e) (hb : Near k b (fun _ => bv) e) (hxv : ∀ p, |xv p| ≤ X) (hwv : ∀ f, |wv f| ≤ W) (hbv : |bv| ≤ W)
    (hm : ∀ i, scoreErr n k F X W e < |score xv wv bv i|) : Sat (predict k x w b) fun z => z.scale = 1 ∧ ∀ i, z.value i = sign (score xv wv bv i) := by
  have hX := r.2.2.2.2.1
  have hW := r.2.2.2.2.2.1
  have hl := r.2.2.2.2.2.2.1
  have hu := r.unit_1
  have hu0 : (0 : ℚ) ≤ 1 / 2 ^ k := by positivity
  have hnu := r.unit_n
  have hF : (0 : ℚ) ≤ F := by positivity
  have hN : (0 : ℚ) ≤ N := by positivity
  have hbig := r.le (a := F) (b := W + e) (c := X + 1 / 2 ^ k) (by linarith) (by linarith) (by linarith) (by linarith) (by linarith)
  refine Sat.bind (P := fun z => Near k z (bilinearQ (vecMat F N) wv xv) (F * (e * X + W * (1 / 2 ^ k) + e * (1 / 2 ^ k)) + n / 2 ^ k)) ?_ fun z hz => ?_
  · exact near_bilinear r.n_lt r.1 r.2.1 (vecMat F N) (fun j => by rw [vecMat, List.length_map, List.length_finRange]) he0 hu0 hW (by linarith) hw hx hwv hxv (r.fit2 hbig)
  refine Sat.bind (P := fun z => Near k z (score xv wv bv) (scoreErr n k F X W e)) ?_ fun z hz => ?_
  · have hsum : ∀ i, |∑ f, wv f * xv (f, i)| ≤ F * (W * X) := fun i => by
      refine (Finset.abs_sum_le_sum_abs _ _).trans ((Finset.sum_le_sum fun j _ => ?_).trans (by rw [Finset.sum_const, Finset.card_univ, Fintype.card_fin, nsmul_eq_mul]))
      rw [abs_mul]
      exact mul_le_mul (hwv _) (hxv _) (abs_nonneg _) hW
    have hbr : Near k (b.reindex fun _ : Fin N => ()) (fun _ => bv) e := hb.reindex _
    refine SatX.sat ((near_add (B := F * (W * X) + W) hz hbr (fun i => ?_) ?_).mono fun z hz => ?_)
    · rw [bilinearQ_vecMat]
      exact (abs_add_le _ _).trans (add_le_add (hsum i) hbv)
    · refine r.fit1 (by positivity) ?_
      have e1 : (F : ℚ) * (W * X) + W + (F * (e * X + W * (1 / 2 ^ k) + e * (1 / 2 ^ k)) + n / 2 ^ k + e) = F * ((W + e) * (X + 1 / 2 ^ k)) + (W + n * (1 / 2 ^ k) + e) := by ring
      rw [e1]
      have h2 : (F : ℚ) * ((W + e) * (X + 1 / 2 ^ k)) ≤ F * ((W + lr + 4) * (X + lr + 4)) :=
        mul_le_mul_of_nonneg_left (mul_le_mul (by linarith) (by linarith) (by linarith) (by linarith)) hF
      have h3 : W + n * (1 / 2 ^ k) + e ≤ (W + lr + 4) * (X + lr + 4) := by nlinarith
      have h4 : (0 : ℚ) ≤ N * ((W + lr + 4) * (X + lr + 4)) := by positivity
      linarith
    · refine Near.congr hz fun i => ?_
      rw [bilinearQ_vecMat]; rfl
  refine SatX.sat ((C23_sign (Nat.two_pow_pos k) z (Or.inr hz.1)).mono fun s hs => ⟨hs.1, fun i => ?_⟩)
  rw [hs.2]
  exact sign_near (hz.2 i) (hm i)

/-- Predictions times labels. -/
theorem sat_correct [NeZero n] {X W lr : ℚ} (r : Room n k F N X W lr) {s y : AST n (Fin N)} {v yv : Fin N → ℚ} (hs : s.scale = 1) (hv : ∀ i, s.value i = v i) (hv1 : ∀ i, |v i| ≤ 1)
    (hy : Near k y yv 0) (hy1 : ∀ i, |yv i| ≤ 1) : SatX (AST.mul (elementwise (Fin N)) s y) fun z => Near k z (fun i => v i * yv i) 0 := by
  have hyv : ∀ i, y.value i = yv i := fun i => sub_eq_zero.1 (abs_eq_zero.1 (le_antisymm (hy.2 i) (abs_nonneg _)))
  refine (C56_mul_unscaled (elementwise (Fin N)) s y (by rw [hs]; exact one_pos) (by rw [hy.1]; exact Nat.two_pow_pos k) (Or.inl hs) fun i => ?_).mono fun z hz => ⟨?_, fun i => ?_⟩
  · rw [bilinearQ_elementwise, hs, hy.scaleQ, hv, hyv, Nat.cast_one, one_mul]
    refine fits_of_abs (b := 2 ^ k * 1) ?_ (r.fit1 (by norm_num) (r.le_const (by norm_num)))
    rw [abs_mul, abs_of_pos (a := (2 : ℚ) ^ k) (by positivity), abs_mul]
    exact mul_le_mul_of_nonneg_left (mul_le_one₀ (hv1 i) (abs_nonneg _) (hy1 i)) (by positivity)
  · rw [hz.1, hs, hy.1, one_mul]
  · rw [hz.2, bilinearQ_elementwise, hv, hyv, sub_self, abs_zero]

/-- The accuracy that is printed. -/
theorem sat_accuracy [NeZero n] {X W lr : ℚ} (r : Room n k F N X W lr) {c : AST n (Fin N)} {v : Fin N → ℚ} (hc : Near k c v 0) (hv : ∀ i, |v i| ≤ 1) :
    Sat (accuracy c) fun z => Near k z (fun _ => (∑ i, (v i + 1) / 2) / N) ((6 * n + 4) / 2 ^ k) := by
  have hu0 : (0 : ℚ) ≤ 1 / 2 ^ k := by positivity
  have hu := r.unit
  have h1 : Near k (c.addPub fun _ => 1) (fun i => v i + 1) 0 := by
    have := near_addInt (B := 2) hc 1 (fun i => by
      have := abs_le.1 (hv i)
      rw [abs_le]; push_cast; constructor <;> linarith) (r.fit1 (by norm_num) (r.le_const (by norm_num)))
    simpa using this
  refine Sat.bind (P := fun z => Near k z (fun i => (v i + 1) / 2) ((3 * n + 2) / 2 ^ k)) ?_ fun z hz => ?_
  · refine (near_divInt r.n_lt h1 2 (by norm_num) (by norm_num)).mono fun z hz => Near.mono (hz.congr fun i => by push_cast; rfl) ?_
    rw [zero_div, zero_add]
  · refine (near_meanRow r (by positivity) ?_ hz fun i => ?_).mono fun z hz => hz.mono ?_
    · rw [div_eq_mul_one_div]; nlinarith
    · have := abs_le.1 (hv i)
      rw [abs_le]; constructor <;> linarith
    · rw [← add_div]
      exact div_le_div_of_nonneg_right (by linarith) (by positivity)

theorem accuracy_eq {xv : Fin F × Fin N → ℚ} {yv : Fin N → ℚ} {wv : Fin F → ℚ} {bv : ℚ} (hy : ∀ i, yv i = 1 ∨ yv i = -1) (h0 : ∀ i, score xv wv bv i ≠ 0) :
    (∑ i, (sign (score xv wv bv i) * yv i + 1) / 2) / N = Plain.accuracy xv yv wv bv := by
  unfold Plain.accuracy
  congr 1
  rw [Finset.card_filter, Nat.cast_sum]
  refine Finset.sum_congr rfl fun i _ => ?_
  unfold sign
  rcases lt_or_gt_of_ne (h0 i) with h | h
  · rw [if_pos h]
    rcases hy i with e | e <;> rw [e] <;> norm_num
  · rw [if_neg (not_lt.2 h.le), if_neg h.ne']
    rcases hy i with e | e <;> rw [e] <;> norm_num

theorem grad_abs {xv : Fin F × Fin N → ℚ} {yv : Fin N → ℚ} {wv : Fin F → ℚ} {bv : ℚ} (hy : ∀ i, |yv i| ≤ 1) (i : Fin N) : |grad xv yv wv bv i| ≤ 1 := by
  unfold grad
  have h1 : |sign (score xv wv bv i) * yv i| ≤ 1 := by rw [abs_mul]; exact mul_le_one₀ (sign_abs _) (abs_nonneg _) (hy i)
  have h2 : |1 - sign (score xv wv bv i) * yv i| ≤ 2 := by
    have := abs_le.1 h1
    rw [abs_le]; constructor <;> linarith
  rw [abs_mul, abs_mul, abs_neg, abs_of_pos (show (0 : ℚ) < 1 / 2 by norm_num)]
  have := mul_le_mul (hy i) h2 (abs_nonneg _) (by norm_num)
  linarith

/-- The gradients of the loss. -/
theorem sat_lossGrad [NeZero n] {X W lr : ℚ} (r : Room n k F N X W lr) {c y : AST n (Fin N)} {v yv : Fin N → ℚ} (hc : Near k c v 0) (hv : ∀ i, |v i| ≤ 1) (hy : Near k y yv 0) (hy1 : ∀ i, |yv i| ≤ 1) :
    Sat (lossGrad y c) fun z => Near k z (fun i => -yv i * (1 - v i) * (1 / 2)) ((2 * n + 3) / 2 ^ k) := by
  have hu0 : (0 : ℚ) ≤ 1 / 2 ^ k := by positivity
  have hu := r.unit_1
  have hnu := r.unit_n
  have hn0 : (0 : ℚ) ≤ n := by positivity
  have hyn : Near k y.neg (fun i => -yv i) 0 := near_neg (B := 1) hy hy1 (r.fit1 (by norm_num) (r.le_const (by norm_num)))
  have hcn : Near k c.neg (fun i => -v i) 0 := near_neg (B := 1) hc hv (r.fit1 (by norm_num) (r.le_const (by norm_num)))
  have h2 : ∀ i, |1 - v i| ≤ 2 := fun i => by
    have := abs_le.1 (hv i)
    rw [abs_le]; constructor <;> linarith
  have hco : Near k c.oneMinus (fun i => 1 - v i) 0 := by
    have := near_addInt (B := 2) hcn 1 (fun i => by
      have := h2 i
      push_cast
      rwa [neg_add_eq_sub]) (r.fit1 (by norm_num) (r.le_const (by norm_num)))
    refine Near.congr (v := fun i => -v i + ((1 : ℤ) : ℚ)) (by simpa [AST.oneMinus, AST.rsubPub] using this) fun i => ?_
    push_cast; ring
  refine Sat.bind (P := fun z => Near k z (fun i => -yv i * (1 - v i)) (n / 2 ^ k)) ?_ fun z hz => ?_
  · refine (near_bilinear (L := 1) (A := 1) (C := 2) r.n_lt r.1 r.2.1 (elementwise (Fin N)) (fun j => le_rfl) le_rfl le_rfl (by norm_num) (by norm_num) hyn hco
      (fun i => by rw [abs_neg]; exact hy1 i) h2 (r.fit2 (r.le_const (by norm_num)))).mono fun z hz => Near.mono (hz.congr fun i => by rw [bilinearQ_elementwise]) ?_
    norm_num
  · refine (near_bilinearPub (L := 1) (A := 2) (C := 1 / 2) r.n_lt r.1 r.2.1 (elementwise (Fin N)) (fun _ => 1 / 2) (fun j => le_rfl) (by positivity) (by norm_num) (by norm_num) hz
      (fun i => ?_) (fun i => by rw [abs_of_pos (by norm_num)]) (r.fit1 (by norm_num) (r.le_const (by norm_num))) (r.fit2 (r.le_const ?_))).mono fun z hz =>
      Near.mono (hz.congr fun i => by rw [bilinearQ_elementwise]) ?_
    · rw [abs_mul, abs_neg]
      have := mul_le_mul (hy1 i) (h2 i) (abs_nonneg _) (by norm_num)
      linarith
    · rw [div_eq_mul_one_div (n : ℚ)]
      push_cast
      nlinarith
    · rw [div_eq_mul_one_div (n : ℚ), div_eq_mul_one_div (2 * (n : ℚ) + 3)]
      generalize (1 / 2 ^ k : ℚ) = u at *
      push_cast
      nlinarith [mul_nonneg hn0 hu0]

theorem stepErr_nonneg {X lr : ℚ} (hX : 0 ≤ X) (hl : 0 ≤ lr) : 0 ≤ stepErr n k X lr := by unfold stepErr; positivity

theorem err_mono {X lr : ℚ} (hX : 0 ≤ X) (hl : 0 ≤ lr) {s t : ℕ} (h : s ≤ t) : err n k X lr s ≤ err n k X lr t := by
  unfold err
  have : (s : ℚ) ≤ t := by exact_mod_cast h
  have := mul_le_mul_of_nonneg_right this (stepErr_nonneg (n := n) (k := k) hX hl)
  linarith

/-- One epoch. -/
theorem sat_epoch [NeZero n] {X W lr : ℚ} (r : Room n k F N X W lr) {x : AST n (Fin F × Fin N)} {y : AST n (Fin N)} {q : Result n F} {xv : Fin F × Fin N → ℚ} {yv : Fin N → ℚ}
    {wv : Fin F → ℚ} {bv e : ℚ} (he0 : 0 ≤ e) (he : e + stepErr n k X lr ≤ 1) (hx : Near k x xv (1 / 2 ^ k)) (hy : Near k y yv 0) (hw : Near k q.w wv e) (hb : Near k q.b (fun _ => bv) e)
    (hxv : ∀ p, |xv p| ≤ X) (hyv : ∀ i, yv i = 1 ∨ yv i = -1) (hwv : ∀ f, |wv f| ≤ W) (hbv : |bv| ≤ W)
    (hwv' : ∀ f, |(step lr xv yv (wv, bv)).1 f| ≤ W) (hbv' : |(step lr xv yv (wv, bv)).2| ≤ W) (hm : ∀ i, scoreErr n k F X W e < |score xv wv bv i|) :
    Sat (epoch k lr x y q) fun z => Near k z.w (step lr xv yv (wv, bv)).1 (e + stepErr n k X lr) ∧ Near k z.b (fun _ => (step lr xv yv (wv, bv)).2) (e + stepErr n k X lr) ∧
      ∃ a, z.acc = q.acc ++ [a] ∧ Near k a (fun _ => Plain.accuracy xv yv wv bv) ((6 * n + 4) / 2 ^ k) := by
  have hX := r.2.2.2.2.1
  have hW := r.2.2.2.2.2.1
  have hl := r.2.2.2.2.2.2.1
  have hu := r.unit_1
  have hu0 : (0 : ℚ) ≤ 1 / 2 ^ k := by positivity
  have hnu := r.unit_n
  have hn0 : (0 : ℚ) ≤ n := by positivity
  have hnu0 : (0 : ℚ) ≤ n * (1 / 2 ^ k) := by positivity
  have hF : (0 : ℚ) ≤ F := by positivity
  have hN1 : (1 : ℚ) ≤ N := by exact_mod_cast r.2.2.2.1
  have hs0 := stepErr_nonneg (n := n) (k := k) (X := X) (lr := lr) (by linarith) hl
  have hy1 : ∀ i, |yv i| ≤ 1 := fun i => by rcases hyv i with h | h <;> rw [h] <;> norm_num
  have hscore0 : ∀ i, score xv wv bv i ≠ 0 := fun i h => by
    have := hm i
    rw [h, abs_zero] at this
    have : 0 ≤ scoreErr n k F X W e := by unfold scoreErr; positivity
    linarith
  have hc1 : ∀ i, |sign (score xv wv bv i) * yv i| ≤ 1 := fun i => by rw [abs_mul]; exact mul_le_one₀ (sign_abs _) (abs_nonneg _) (hy1 i)
  have hg1 := grad_abs (xv := xv) (wv := wv) (bv := bv) hy1
  unfold epoch
  refine Sat.bind (sat_predict r he0 (by linarith) hx hw hb hxv hwv hbv hm) fun s hs => ?_
  refine Sat.bind (sat_correct r hs.1 hs.2 (fun i => sign_abs _) hy hy1).sat fun c hc => ?_
  refine Sat.bind (sat_accuracy r hc hc1) fun a ha => ?_
  refine Sat.bind (sat_lossGrad r hc hc1 hy hy1) fun g hg => ?_
  change Near k g (grad xv yv wv bv) ((2 * n + 3) / 2 ^ k) at hg
  have hgu : ((2 * n + 3) / 2 ^ k : ℚ) = (2 * n + 3) * (1 / 2 ^ k) := div_eq_mul_one_div _ _
  have hg8 : ((2 * n + 3) / 2 ^ k : ℚ) ≤ 1 := by rw [hgu]; linarith
  have hg0 : (0 : ℚ) ≤ (2 * n + 3) / 2 ^ k := by positivity
  refine Sat.bind (near_meanRow r hg0 hg8 hg hg1) fun bg hbg => ?_
  have hwsum : ∀ f, |∑ i, grad xv yv wv bv i * xv (f, i)| ≤ N * X := fun f => by
    refine (Finset.abs_sum_le_sum_abs _ _).trans ((Finset.sum_le_sum fun j _ => ?_).trans (by rw [Finset.sum_const, Finset.card_univ, Fintype.card_fin, nsmul_eq_mul]))
    rw [abs_mul]
    exact (mul_le_mul (hg1 _) (hxv _) (abs_nonneg _) (by norm_num)).trans (by rw [one_mul])
  have hwavg : ∀ f, |(∑ i, grad xv yv wv bv i * xv (f, i)) / N| ≤ X := fun f => by
    rw [abs_div, abs_of_pos (show (0 : ℚ) < N by linarith), div_le_iff₀ (by linarith)]
    linarith [hwsum f]
  have hbavg : |(∑ i, grad xv yv wv bv i) / N| ≤ 1 := by
    rw [abs_div, abs_of_pos (show (0 : ℚ) < N by linarith), div_le_iff₀ (by linarith), one_mul]
    refine (Finset.abs_sum_le_sum_abs _ _).trans ((Finset.sum_le_sum fun j _ => hg1 j).trans ?_)
    simp
  refine Sat.bind (P := fun z => Near k z (bilinearQ (gradMat F N) (grad xv yv wv bv) xv) (N * ((2 * n + 3) / 2 ^ k * X + 1 * (1 / 2 ^ k) + (2 * n + 3) / 2 ^ k * (1 / 2 ^ k)) + n / 2 ^ k)) ?_ fun wg hwg => ?_
  · refine near_bilinear r.n_lt r.1 r.2.1 (gradMat F N) (fun j => by rw [gradMat, List.length_map, List.length_finRange]) hg0 hu0 (by norm_num) (by linarith) hg hx hg1 hxv (r.fit2 ?_)
    exact r.le (by linarith) (by linarith) (by linarith) (by linarith) (by linarith)
  refine Sat.bind (P := fun z => Near k z (fun f => (∑ i, grad xv yv wv bv i * xv (f, i)) / N) (((2 * n + 3) * X + 5 * n + 5) / 2 ^ k)) ?_ fun wg hwg => ?_
  · refine (near_divInt r.n_lt hwg (N : ℤ) (by exact_mod_cast r.2.2.2.1) r.N_lt).mono fun z hz => Near.mono (hz.congr fun f => by rw [bilinearQ_gradMat]; push_cast; rfl) ?_
    push_cast
    rw [add_div, mul_div_cancel_left₀ _ (by linarith)]
    have h1 : (n / 2 ^ k / N : ℚ) ≤ n / 2 ^ k := div_le_self (by positivity) hN1
    rw [div_eq_mul_one_div (((2 : ℚ) * n + 3) * X + 5 * n + 5)]
    rw [div_eq_mul_one_div (3 * (n : ℚ) + 2)]
    rw [hgu] at hg8 ⊢
    rw [div_eq_mul_one_div (n : ℚ)] at h1
    have h2 : (2 * n + 3) * (1 / 2 ^ k) * (1 / 2 ^ k) ≤ (1 / 2 ^ k : ℚ) := mul_le_of_le_one_left hu0 hg8
    rw [div_eq_mul_one_div (n : ℚ)]
    nlinarith
  have hew0 : (0 : ℚ) ≤ ((2 * n + 3) * X + 5 * n + 5) / 2 ^ k := by positivity
  have hkey : stepErr n k X lr = (lr + 1 / 2) * (((2 * n + 3) * X + 5 * n + 5) / 2 ^ k) + X * (1 / 2 ^ k) + n / 2 ^ k := by
    unfold stepErr; ring
  have hew1 : ((2 * n + 3) * X + 5 * n + 5) / 2 ^ k ≤ (2 : ℚ) := by
    rw [hkey] at he
    have : 0 ≤ lr * (((2 * n + 3) * X + 5 * n + 5) / 2 ^ k) := by positivity
    have : 0 ≤ X * (1 / 2 ^ k) := by positivity
    have : (0 : ℚ) ≤ n / 2 ^ k := by positivity
    linarith
  have hfity : 2 ^ k * lr < (2 : ℚ) ^ 63 := r.fit1 hl (by
    have := r.le (a := 1) (b := 1) (c := lr) (by norm_num) (by linarith) (by linarith) hl (by linarith)
    linarith)
  refine Sat.bind (P := fun z => Near k z (fun f => (∑ i, grad xv yv wv bv i * xv (f, i)) / N * lr) (stepErr n k X lr)) ?_ fun ws hws => ?_
  · refine (near_bilinearPub (L := 1) (A := X) (C := lr) r.n_lt r.1 r.2.1 (elementwise (Fin F)) (fun _ => lr) (fun j => le_rfl) hew0 (by linarith) hl hwg
      hwavg (fun i => by rw [abs_of_nonneg hl]) hfity (r.fit2 ?_)).mono fun z hz => Near.mono (hz.congr fun i => by rw [bilinearQ_elementwise]) ?_
    · push_cast
      rw [mul_comm (X + _)]
      exact r.le (by positivity) (by linarith) (by linarith) (by positivity) (by linarith)
    · rw [hkey]
      push_cast
      have := mul_le_mul_of_nonneg_left hu hew0
      linarith
  refine Sat.bind (P := fun z => Near k z (step lr xv yv (wv, bv)).1 (e + stepErr n k X lr)) ?_ fun w' hw' => ?_
  · exact (near_sub (B := W) hw hws hwv' (r.fit1 (by linarith) (by
      have := r.le (a := 1) (b := W + 1) (c := 1) (by linarith) (by linarith) (by linarith) (by norm_num) (by linarith)
      linarith))).sat
  refine Sat.bind (P := fun z => Near k z (fun _ => (∑ i, grad xv yv wv bv i) / N * lr) (stepErr n k X lr)) ?_ fun bs hbs => ?_
  · refine (near_bilinearPub (L := 1) (A := 1) (C := lr) r.n_lt r.1 r.2.1 (elementwise Unit) (fun _ => lr) (fun j => le_rfl) (by positivity) (by linarith) hl hbg
      (fun _ => hbavg) (fun i => by rw [abs_of_nonneg hl]) hfity (r.fit2 ?_)).mono fun z hz => Near.mono (hz.congr fun i => by rw [bilinearQ_elementwise]) ?_
    · push_cast
      rw [mul_comm ((1 : ℚ) + _)]
      have h3 : ((3 * n + 2) / 2 ^ k : ℚ) ≤ 1 := by rw [div_eq_mul_one_div]; linarith
      exact r.le (by positivity) (by linarith) (by linarith) (by positivity) (by linarith)
    · have h5 : ((2 * n + 3) / 2 ^ k + (3 * n + 2) / 2 ^ k : ℚ) = (5 * n + 5) / 2 ^ k := by rw [← add_div]; ring
      rw [h5, hkey]
      have h6 : ((5 * n + 5) / 2 ^ k : ℚ) ≤ ((2 * n + 3) * X + 5 * n + 5) / 2 ^ k := div_le_div_of_nonneg_right (by nlinarith) (by positivity)
      have h7 : (0 : ℚ) ≤ (5 * n + 5) / 2 ^ k := by positivity
      push_cast
      have h8 := mul_le_mul_of_nonneg_left hu h7
      have h9 := mul_le_mul_of_nonneg_right h6 hl
      have h10 := mul_le_mul_of_nonneg_right hX hu0
      linarith
  refine Sat.bind (P := fun z => Near k z (fun _ => (step lr xv yv (wv, bv)).2) (e + stepErr n k X lr)) ?_ fun b' hb' => ?_
  · exact (near_sub (B := W) hb hbs (fun _ => hbv') (r.fit1 (by linarith) (by
      have := r.le (a := 1) (b := W + 1) (c := 1) (by linarith) (by linarith) (by linarith) (by norm_num) (by linarith)
      linarith))).sat
  refine Sat.pure ⟨hw', hb', a, rfl, ?_⟩
  rw [← accuracy_eq hyv hscore0]
  exact ha

/-- The loop, from any weights close to those of the plaintext run after `s` epochs. -/
theorem sat_train [NeZero n] {X W lr : ℚ} (r : Room n k F N X W lr) {x : AST n (Fin F × Fin N)} {y : AST n (Fin N)} {xv : Fin F × Fin N → ℚ} {yv : Fin N → ℚ} {w0 : Fin F → ℚ} {b0 : ℚ} {T : ℕ}
    (hx : Near k x xv (1 / 2 ^ k)) (hy : Near k y yv 0) (hxv : ∀ p, |xv p| ≤ X) (hyv : ∀ i, yv i = 1 ∨ yv i = -1) (hT : err n k X lr T ≤ 1)
    (hW : ∀ t ≤ T, (∀ f, |(weights lr xv yv w0 b0 t).1 f| ≤ W) ∧ |(weights lr xv yv w0 b0 t).2| ≤ W)
    (hm : ∀ t < T, ∀ i, scoreErr n k F X W (err n k X lr t) < |score xv (weights lr xv yv w0 b0 t).1 (weights lr xv yv w0 b0 t).2 i|) : ∀ (m s : ℕ), s + m = T → ∀ q : Result n F,
    Near k q.w (weights lr xv yv w0 b0 s).1 (err n k X lr s) → Near k q.b (fun _ => (weights lr xv yv w0 b0 s).2) (err n k X lr s) → q.acc.length = s →
    (∀ t, (h : t < q.acc.length) → Near k q.acc[t] (fun _ => Plain.accuracy xv yv (weights lr xv yv w0 b0 t).1 (weights lr xv yv w0 b0 t).2) ((6 * n + 4) / 2 ^ k)) →
    Sat (train k lr x y m q) fun z => Near k z.w (weights lr xv yv w0 b0 T).1 (err n k X lr T) ∧ Near k z.b (fun _ => (weights lr xv yv w0 b0 T).2) (err n k X lr T) ∧ z.acc.length = T ∧
      ∀ t, (h : t < z.acc.length) → Near k z.acc[t] (fun _ => Plain.accuracy xv yv (weights lr xv yv w0 b0 t).1 (weights lr xv yv w0 b0 t).2) ((6 * n + 4) / 2 ^ k) := by
  have hX := r.2.2.2.2.1
  have hl := r.2.2.2.2.2.2.1
  intro m
  induction m with
  | zero =>
    intro s hs q hw hb hlen hacc
    rw [add_zero] at hs
    subst hs
    exact Sat.pure ⟨hw, hb, hlen, hacc⟩
  | succ m ih =>
    intro s hs q hw hb hlen hacc
    have e1 : err n k X lr (s + 1) = err n k X lr s + stepErr n k X lr := by unfold err; push_cast; ring
    have e2 : weights lr xv yv w0 b0 (s + 1) = step lr xv yv ((weights lr xv yv w0 b0 s).1, (weights lr xv yv w0 b0 s).2) := Function.iterate_succ_apply' _ _ _
    have hle : err n k X lr (s + 1) ≤ 1 := (err_mono (by linarith) hl (by omega)).trans hT
    have h1 := hW (s + 1) (by omega)
    rw [e2] at h1
    refine Sat.bind (sat_epoch r (q := q) (by unfold err; have := stepErr_nonneg (n := n) (k := k) (X := X) (lr := lr) (by linarith) hl; positivity) (by rw [← e1]; exact hle) hx hy hw hb hxv hyv
      (hW s (by omega)).1 (hW s (by omega)).2 h1.1 h1.2 (hm s (by omega))) fun z hz => ?_
    obtain ⟨hzw, hzb, a, ha, hza⟩ := hz
    rw [← e1, ← e2] at hzw hzb
    refine ih (s + 1) (by omega) z hzw hzb (by rw [ha, List.length_append, hlen]; rfl) fun t ht => ?_
    have hlt : t < (q.acc ++ [a]).length := by rw [← ha]; exact ht
    have e3 : z.acc[t] = (q.acc ++ [a])[t] := by simp only [ha]
    rw [e3]
    rw [List.length_append, List.length_singleton] at hlt
    rcases Nat.lt_succ_iff_lt_or_eq.1 hlt with h | h
    · rw [List.getElem_append_left h]; exact hacc t h
    · subst h
      rw [List.getElem_append_right le_rfl]
      simp only [Nat.sub_self, List.getElem_cons_zero]
      rw [hlen]
      exact hza

theorem near_encrypt [NeZero n] {x : ι → ℚ} {B e : ℚ} (he : ∀ i, |(truncQ (2 ^ k * x i) : ℚ) / 2 ^ k - x i| ≤ e) (hB : ∀ i, |x i| ≤ B) (hfit : 2 ^ k * (B + e) < 2 ^ 63) :
    SatX (encrypt (n := n) k x) fun z => Near k z x e := by
  refine SatX.bind (sat_encryptA 0 _) fun s hs => SatX.pure (near_of_word rfl (fun i => truncQ (2 ^ k * x i)) (fun i => ?_) he hB hfit)
  show reveal s i = _
  rw [hs, encodePublic_ofInt]
  push_cast
  rfl

/-- **C94.** Let the labels be `1` and `-1`. If the plaintext run never computes a score too close to `0`, then in every execution in which no wrap-around spoils a truncation the encrypted weights
and bias are after `T` epochs within `(1 + T · c) / 2 ^ k` of those of the plaintext run, `c = (lr + 1/2) ((2n + 3) X + 5n + 5) + X + n`: errors grow linearly in the number of epochs. And the
accuracies printed are within `(6n + 4) / 2 ^ k` of those the plaintext run prints. -/
theorem C94_train [NeZero n] {X W lr : ℚ} {xv : Fin F × Fin N → ℚ} {yv : Fin N → ℚ} {w0 : Fin F → ℚ} {b0 : ℚ} {T : ℕ} (r : Room n k F N X W lr)
    (hxv : ∀ p, |xv p| ≤ X) (hyv : ∀ i, yv i = 1 ∨ yv i = -1) (hT : err n k X lr T ≤ 1)
    (hW : ∀ t ≤ T, (∀ f, |(weights lr xv yv w0 b0 t).1 f| ≤ W) ∧ |(weights lr xv yv w0 b0 t).2| ≤ W)
    (hm : ∀ t < T, ∀ i, scoreErr n k F X W (err n k X lr t) < |score xv (weights lr xv yv w0 b0 t).1 (weights lr xv yv w0 b0 t).2 i|) :
    Sat (run (n := n) k T lr xv yv w0 b0) fun z =>
      (∀ f, |z.w.value f - (weights lr xv yv w0 b0 T).1 f| ≤ err n k X lr T) ∧ |z.b.value () - (weights lr xv yv w0 b0 T).2| ≤ err n k X lr T ∧ z.acc.length = T ∧
      ∀ t, (h : t < z.acc.length) → |z.acc[t].value () - Plain.accuracy xv yv (weights lr xv yv w0 b0 t).1 (weights lr xv yv w0 b0 t).2| ≤ (6 * n + 4) / 2 ^ k := by
  have hX := r.2.2.2.2.1
  have hW0 := r.2.2.2.2.2.1
  have hl := r.2.2.2.2.2.2.1
  have hu := r.unit_1
  have hu0 : (0 : ℚ) ≤ 1 / 2 ^ k := by positivity
  have hFN : (0 : ℚ) ≤ F + N := by positivity
  have e0 : err n k X lr 0 = 1 / 2 ^ k := by unfold err; push_cast; ring
  have hx1 : X + 1 / 2 ^ k ≤ (F + N + 1) * ((W + lr + 4) * (X + lr + 4)) := by
    have := r.le (a := 1) (b := 1) (c := X + 1) (by norm_num) (by linarith) (by linarith) (by linarith) (by linarith)
    linarith
  have hw1 : W + 1 / 2 ^ k ≤ (F + N + 1) * ((W + lr + 4) * (X + lr + 4)) := by
    have := r.le (a := 1) (b := W + 1) (c := 1) (by linarith) (by linarith) (by linarith) (by norm_num) (by linarith)
    linarith
  have h0 := hW 0 (Nat.zero_le _)
  refine Sat.bind (near_encrypt (e := 1 / 2 ^ k) (fun i => trunc_any k _) hxv (r.fit1 (by linarith) hx1)).sat fun x hx => ?_
  refine Sat.bind (near_encrypt (B := 1) (e := 0) (fun i => ?_) (fun i => by rcases hyv i with h | h <;> rw [h] <;> norm_num) (r.fit1 (by norm_num) (r.le_const (by norm_num)))).sat fun y hy => ?_
  · rcases hyv i with h | h <;> rw [h]
    · exact_mod_cast trunc_int k 1
    · exact_mod_cast trunc_int k (-1)
  refine Sat.bind (near_encrypt (e := 1 / 2 ^ k) (fun i => trunc_any k _) h0.1 (r.fit1 (by linarith) hw1)).sat fun w hw => ?_
  refine Sat.bind (near_encrypt (e := 1 / 2 ^ k) (fun i => trunc_any k _) (fun _ => h0.2) (r.fit1 (by linarith) hw1)).sat fun b hb => ?_
  refine (sat_train r hx hy hxv hyv hT hW hm T 0 (Nat.zero_add T) ⟨w, b, []⟩ (by rw [e0]; exact hw) (by rw [e0]; exact hb) rfl (fun t h => absurd h (Nat.not_lt_zero t))).mono fun z hz => ?_
  exact ⟨hz.1.2, hz.2.1.2 (), hz.2.2.1, fun t h => (hz.2.2.2 t h).2 ()⟩

/-- Two examples, with features `1` and `-1` and labels `1` and `-1`. -/
def exampleX : Fin 1 × Fin 2 → ℚ := fun p => if p.2 = 0 then 1 else -1

def exampleY : Fin 2 → ℚ := fun i => if i = 0 then 1 else -1

/-- The hypotheses of `C94_train` are met: two parties, the default precision, weight `-1` and bias `1/4` at first, `lr = 1/2`, five epochs, after which both examples are classified correctly; no
example was at first. -/
example : Room 2 16 1 2 1 1 (1 / 2) ∧ (∀ p, |exampleX p| ≤ 1) ∧ (∀ i, exampleY i = 1 ∨ exampleY i = -1) ∧ err 2 16 1 (1 / 2) 5 ≤ 1 ∧
    (∀ t ≤ 5, (∀ f, |(weights (1 / 2) exampleX exampleY (fun _ => -1) (1 / 4) t).1 f| ≤ 1) ∧ |(weights (1 / 2) exampleX exampleY (fun _ => -1) (1 / 4) t).2| ≤ 1) ∧
    (∀ t < 5, ∀ i, scoreErr 2 16 1 1 1 (err 2 16 1 (1 / 2) t) <
      |score exampleX (weights (1 / 2) exampleX exampleY (fun _ => -1) (1 / 4) t).1 (weights (1 / 2) exampleX exampleY (fun _ => -1) (1 / 4) t).2 i|) ∧
    Plain.accuracy exampleX exampleY (fun _ => -1) (1 / 4) = 0 ∧
    Plain.accuracy exampleX exampleY (weights (1 / 2) exampleX exampleY (fun _ => -1) (1 / 4) 5).1 (weights (1 / 2) exampleX exampleY (fun _ => -1) (1 / 4) 5).2 = 1 := by
  refine ⟨by unfold Room; norm_num, ?_, ?_, ?_, ?_, ?_, ?_, ?_⟩ <;> decide +kernel

/-- **C94.** `evaluate_linear_svm` prints an accuracy within `(6n + 4) / 2 ^ k` of the true one, if the scores are not too close to `0`. -/
theorem C94_evaluate [NeZero n] {X W lr : ℚ} {x : AST n (Fin F × Fin N)} {y : AST n (Fin N)} {w : AST n (Fin F)} {b : AST n Unit} {xv : Fin F × Fin N → ℚ} {yv : Fin N → ℚ} {wv : Fin F → ℚ} {bv e : ℚ}
    (r : Room n k F N X W lr) (he0 : 0 ≤ e) (he : e ≤ 1) (hx : Near k x xv (1 / 2 ^ k)) (hy : Near k y yv 0) (hw : Near k w wv e) (hb : Near k b (fun _ => bv) e) (hxv : ∀ p, |xv p| ≤ X)
    (hyv : ∀ i, yv i = 1 ∨ yv i = -1) (hwv : ∀ f, |wv f| ≤ W) (hbv : |bv| ≤ W) (hm : ∀ i, scoreErr n k F X W e < |score xv wv bv i|) :
    Sat (evaluate k x y w b) fun z => |z.value () - Plain.accuracy xv yv wv bv| ≤ (6 * n + 4) / 2 ^ k := by
  have hX := r.2.2.2.2.1
  have hW0 := r.2.2.2.2.2.1
  have hy1 : ∀ i, |yv i| ≤ 1 := fun i => by rcases hyv i with h | h <;> rw [h] <;> norm_num
  refine Sat.bind (sat_predict r he0 he hx hw hb hxv hwv hbv hm) fun s hs => ?_
  refine Sat.bind (sat_correct r hs.1 hs.2 (fun i => sign_abs _) hy hy1).sat fun c hc => ?_
  refine (sat_accuracy r hc fun i => by rw [abs_mul]; exact mul_le_one₀ (sign_abs _) (abs_nonneg _) (hy1 i)).mono fun z hz => ?_
  rw [← accuracy_eq hyv fun i h => ?_]
  · exact hz.2 ()
  · have := hm i
    rw [h, abs_zero] at this
    have : 0 ≤ scoreErr n k F X W e := by unfold scoreErr; positivity
    linarith

/-- The hypotheses of `C94_evaluate` are met, for the data above and the weights at the end. -/
example : Room 2 16 1 2 1 1 (1 / 2) ∧ ((0 : ℚ) ≤ 1 / 100 ∧ (1 : ℚ) / 100 ≤ 1) ∧ (∃ x : AST 2 (Fin 1 × Fin 2), Near 16 x exampleX (1 / 2 ^ 16)) ∧ (∃ y : AST 2 (Fin 2), Near 16 y exampleY 0) ∧
    (∃ w : AST 2 (Fin 1), Near 16 w (fun _ => 1 / 4) (1 / 100)) ∧ (∃ b : AST 2 Unit, Near 16 b (fun _ => 0) (1 / 100)) ∧ (∀ p, |exampleX p| ≤ 1) ∧ (∀ i, exampleY i = 1 ∨ exampleY i = -1) ∧
    ∀ i, scoreErr 2 16 1 1 1 (1 / 100) < |score exampleX (fun _ => 1 / 4) 0 i| :=
  ⟨by unfold Room; norm_num, by norm_num, ⟨⟨fun p i => if p = 0 then BitVec.ofInt 64 (truncQ (65536 * exampleX i)) else 0, 65536⟩, by decide +kernel, by decide +kernel⟩,
    ⟨⟨fun p i => if p = 0 then BitVec.ofInt 64 (truncQ (65536 * exampleY i)) else 0, 65536⟩, by decide +kernel, by decide +kernel⟩,
    ⟨⟨fun p _ => if p = 0 then 16384#64 else 0, 65536⟩, by decide +kernel, by decide +kernel⟩, ⟨⟨fun _ _ => 0, 65536⟩, by decide +kernel, by decide +kernel⟩, by decide +kernel, by decide +kernel, by decide +kernel⟩

/-! ## Runs that no wrap-around spoils -/

theorem calm_encrypt [NeZero n] (x : ι → ℚ) : Calm (encrypt (n := n) k x) AST.Alone := Calm.bind (calm_encryptA _) fun _ hs => Calm.pure hs

theorem calm_predict [NeZero n] (x : AST n (Fin F × Fin N)) (w : AST n (Fin F)) {b : AST n Unit} (hb : b.Alone) : Calm (predict k x w b) AST.Alone :=
  Calm.bind (calm_mul _ _ _) fun _ hz => Calm.bind (calm_add hz (hb.reindex _)) fun _ _ => Calm.bind (calm_ltz _ _) fun _ hl => Calm.pure (hl.mulInt 2).oneMinus

theorem calm_meanRow [NeZero n] {x : AST n (Fin N)} (hx : x.Alone) : Calm (meanRow x) AST.Alone := calm_divInt (AST.Alone.sumFirst (hx.reindex _)) _

theorem calm_accuracy [NeZero n] {x : AST n (Fin N)} (hx : x.Alone) : Calm (accuracy x) AST.Alone := Calm.bind (calm_divInt (hx.addPub _) _) fun _ h => calm_meanRow h

theorem calm_epoch [NeZero n] {lr : ℚ} (x : AST n (Fin F × Fin N)) (y : AST n (Fin N)) {q : Result n F} (hw : q.w.Alone) (hb : q.b.Alone) : Calm (epoch k lr x y q) fun z => z.w.Alone ∧ z.b.Alone :=
  Calm.bind (calm_predict x q.w hb) fun _ _ => Calm.bind (calm_mul _ _ _) fun _ hc => Calm.bind (calm_accuracy hc) fun _ _ =>
    Calm.bind (P := AST.Alone) (Calm.bind (calm_mul _ _ _) fun _ h => calm_mulPub _ h _) fun _ hg => Calm.bind (calm_meanRow hg) fun _ hbg =>
    Calm.bind (calm_mul _ _ _) fun _ h => Calm.bind (calm_divInt h _) fun _ h => Calm.bind (calm_mulPub _ h _) fun _ h => Calm.bind (calm_sub hw h) fun _ hw =>
    Calm.bind (calm_mulPub _ hbg _) fun _ h => Calm.bind (calm_sub hb h) fun _ hb => Calm.pure ⟨hw, hb⟩

theorem calm_train [NeZero n] {lr : ℚ} (x : AST n (Fin F × Fin N)) (y : AST n (Fin N)) (T : ℕ) {q : Result n F} (hw : q.w.Alone) (hb : q.b.Alone) : Calm (train k lr x y T q) fun _ => True := by
  induction T generalizing q with
  | zero => exact Calm.pure trivial
  | succ T ih => exact Calm.bind (calm_epoch x y hw hb) fun z hz => ih hz.1 hz.2

theorem calm_run [NeZero n] (T : ℕ) (lr : ℚ) (xv : Fin F × Fin N → ℚ) (yv : Fin N → ℚ) (w0 : Fin F → ℚ) (b0 : ℚ) : Calm (run (n := n) k T lr xv yv w0 b0) fun _ => True :=
  Calm.bind (calm_encrypt _) fun x _ => Calm.bind (calm_encrypt _) fun y _ => Calm.bind (calm_encrypt _) fun _ hw => Calm.bind (calm_encrypt _) fun _ hb => calm_train x y T hw hb

/-- **C94.** For every number of parties and all data there is a run that no wrap-around spoils. -/
theorem C94_good_run [NeZero n] (T : ℕ) (lr : ℚ) (xv : Fin F × Fin N → ℚ) (yv : Fin N → ℚ) (w0 : Fin F → ℚ) (b0 : ℚ) : ∃ t : Tuples n, t.Valid ∧ (run k T lr xv yv w0 b0 t 0).good := by
  obtain ⟨v, c, -, -, h⟩ := calm_run (n := n) (k := k) T lr xv yv w0 b0 0
  exact ⟨quiet n, quiet_valid, (h (fun _ _ => 0) fun _ _ _ => rfl).2.2⟩

/-- **C94.** Without the condition on the scores the claim is false: for a score of `0` torch predicts `0`, which counts as half an error, and the encrypted program a class. With weights and bias `0`
and one example with feature `1` and label `1`, one epoch takes the plaintext weight to `1/4` and leaves the encrypted one at `0`, in a run that no wrap-around spoils, at the default precision. -/
theorem C94_zero_score_wrong : ∃ t : Tuples 2, t.Valid ∧ (run (F := 1) (N := 1) 16 1 (1 / 2) (fun _ => 1) (fun _ => 1) (fun _ => 0) 0 t 0).good ∧
    (run (F := 1) (N := 1) 16 1 (1 / 2) (fun _ => 1) (fun _ => 1) (fun _ => 0) 0 t 0).val.w.value 0 = 0 ∧
    (weights (F := 1) (N := 1) (1 / 2) (fun _ => 1) (fun _ => 1) (fun _ => 0) 0 1).1 0 = 1 / 4 := by
  obtain ⟨v, c, -, -, h⟩ := calm_run (n := 2) (k := 16) (F := 1) (N := 1) 1 (1 / 2) (fun _ => 1) (fun _ => 1) (fun _ => 0) 0 0
  refine ⟨quiet 2, quiet_valid, (h (fun _ _ => 0) fun _ _ _ => rfl).2.2, ?_, ?_⟩
  · decide +kernel
  · decide +kernel

end CrypTen.Svm

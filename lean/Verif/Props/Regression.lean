import Verif.Model.Regression
import Verif.Spec.Regression
import Verif.Props.Svm
import Mathlib.Algebra.Order.Chebyshev

/-!
# C95: gradient descent on encrypted data
-/

namespace CrypTen.Regression
open CrypTen Plain
variable {n k : ℕ} {F N : ℕ} {ι : Type}

theorem bilinearQ_matVec (x : Fin N × Fin F → ℚ) (w : Fin F → ℚ) (i : Fin N) : bilinearQ (matVec F N) x w i = ∑ f, x (i, f) * w f := by
  rw [bilinearQ, matVec, List.map_map, Fin.sum_univ_def]; rfl

theorem bilinearQ_transVec (x : Fin N × Fin F → ℚ) (g : Fin N → ℚ) (f : Fin F) : bilinearQ (transVec F N) x g f = ∑ i, x (i, f) * g i := by
  rw [bilinearQ, transVec, List.map_map, Fin.sum_univ_def]; rfl

theorem bilinearQ_scalarTimes (x : Unit → ℚ) (g : Fin N → ℚ) (i : Fin N) : bilinearQ (scalarTimes N) x g i = x () * g i := by
  simp [bilinearQ, scalarTimes]

section
variable {X Y V D lr : ℚ} (r : Room n k F N X Y V D lr)
include r

theorem Plain.Room.D1 : 1 ≤ D := by
  have : 0 ≤ F * (X * V) := by have := r.X1; have := r.V1; positivity
  rw [r.hD]; linarith [r.V1, r.Y0]

theorem Plain.Room.fit2 {a b c d e : ℚ} (hb0 : 0 ≤ b) (hc0 : 0 ≤ c) (hd0 : 0 ≤ d) (he0 : 0 ≤ e) (ha : a ≤ N + 1) (hb : b ≤ 2 * D + 4) (hc : c ≤ 2 * D + 4) (hd : d ≤ X + 1) (he : e ≤ lr + 2) :
    2 ^ k * 2 ^ k * (a * (b * (c * (d * e)))) < (2 : ℚ) ^ 63 := by
  have h1 : d * e ≤ (X + 1) * (lr + 2) := mul_le_mul hd he he0 (hd0.trans hd)
  have h2 : c * (d * e) ≤ (2 * D + 4) * ((X + 1) * (lr + 2)) := mul_le_mul hc h1 (by positivity) (hc0.trans hc)
  have h3 : b * (c * (d * e)) ≤ (2 * D + 4) * ((2 * D + 4) * ((X + 1) * (lr + 2))) := mul_le_mul hb h2 (by positivity) (hb0.trans hb)
  have h4 : a * (b * (c * (d * e))) ≤ (N + 1) * ((2 * D + 4) * ((2 * D + 4) * ((X + 1) * (lr + 2)))) := mul_le_mul ha h3 (by positivity) (by positivity)
  exact lt_of_le_of_lt (mul_le_mul_of_nonneg_left h4 (by positivity)) r.fit

theorem Plain.Room.fit1 {a b c d e : ℚ} (ha0 : 0 ≤ a) (hb0 : 0 ≤ b) (hc0 : 0 ≤ c) (hd0 : 0 ≤ d) (he0 : 0 ≤ e) (ha : a ≤ N + 1) (hb : b ≤ 2 * D + 4) (hc : c ≤ 2 * D + 4) (hd : d ≤ X + 1)
    (he : e ≤ lr + 2) : 2 ^ k * (a * (b * (c * (d * e)))) < (2 : ℚ) ^ 63 := by
  refine lt_of_le_of_lt ?_ (r.fit2 hb0 hc0 hd0 he0 ha hb hc hd he)
  rw [mul_assoc]
  have h1 : (1 : ℚ) ≤ 2 ^ k := one_le_pow₀ (by norm_num)
  have h0 : 0 ≤ a * (b * (c * (d * e))) := by positivity
  nlinarith [mul_nonneg (show (0 : ℚ) ≤ 2 ^ k by positivity) h0]

theorem Plain.Room.small {a : ℚ} (h0 : 0 ≤ a) (h : a ≤ 2 * D + 4) : 2 ^ k * a < (2 : ℚ) ^ 63 := by
  have hN : (0 : ℚ) ≤ N := by positivity
  have := r.fit1 (a := 1) (b := a) (c := 1) (d := 1) (e := 1) (by norm_num) h0 (by norm_num) (by norm_num) (by norm_num) (by linarith) h (by linarith [r.D1]) (by linarith [r.X1]) (by linarith [r.lr0])
  simpa using this

theorem Plain.Room.N_lt : (N : ℤ) < 2 ^ 63 := by
  have h := r.fit1 (a := N) (b := 1) (c := 1) (d := 1) (e := 1) (by positivity) (by norm_num) (by norm_num) (by norm_num) (by norm_num) (by linarith) (by linarith [r.D1]) (by linarith [r.D1])
    (by linarith [r.X1]) (by linarith [r.lr0])
  have h1 : (1 : ℚ) ≤ 2 ^ k := one_le_pow₀ (by norm_num)
  have h2 : (N : ℚ) < 2 ^ 63 := by
    simp only [mul_one] at h
    nlinarith [Nat.cast_nonneg (α := ℚ) N]
  exact_mod_cast h2

/-- The errors on the way are at most 1. -/
theorem Plain.Room.errs : 0 ≤ resErr n k F V ∧ 0 ≤ twiceErr n k D (resErr n k F V) ∧ 0 ≤ outErr n k N D (twiceErr n k D (resErr n k F V)) ∧
    N * outErr n k N D (twiceErr n k D (resErr n k F V)) ≤ gradErr n k F N X D V ∧ twiceErr n k D (resErr n k F V) ≤ 1 ∧ resErr n k F V ≤ 1 ∧ (n + 1) * (1 / 2 ^ k) ≤ (1 : ℚ) := by
  have hX := r.X1
  have hV := r.V1
  have hD := r.D1
  have hN : (1 : ℚ) ≤ N := by exact_mod_cast r.N0
  have hu : (0 : ℚ) ≤ 1 / 2 ^ k := by positivity
  have hn : (0 : ℚ) ≤ n * (1 / 2 ^ k) := by positivity
  have h1 : 0 ≤ resErr n k F V := by unfold resErr; positivity
  have h2 : 0 ≤ twiceErr n k D (resErr n k F V) := by unfold twiceErr; positivity
  have h3 : 0 ≤ outErr n k N D (twiceErr n k D (resErr n k F V)) := by
    generalize twiceErr n k D (resErr n k F V) = t at h2
    unfold outErr; positivity
  have h4 : N * outErr n k N D (twiceErr n k D (resErr n k F V)) ≤ gradErr n k F N X D V := by
    unfold gradErr
    generalize outErr n k N D (twiceErr n k D (resErr n k F V)) = o at h3
    have : N * o ≤ N * ((X + 1 / 2 ^ k) * o) := mul_le_mul_of_nonneg_left (by nlinarith) (by linarith)
    have : 0 ≤ 2 * D * (1 / 2 ^ k) := by positivity
    linarith
  have h5 : N * outErr n k N D (twiceErr n k D (resErr n k F V)) = N * ((n + 1) * (1 / 2 ^ k) * (2 * D)) + twiceErr n k D (resErr n k F V) +
      N * ((n + 1) * (1 / 2 ^ k) * twiceErr n k D (resErr n k F V)) + N * (n * (1 / 2 ^ k)) := by
    unfold outErr
    have hN0 : (N : ℚ) ≠ 0 := by positivity
    field_simp
  have h6 := h4.trans r.err
  rw [h5] at h6
  have h7 : 0 ≤ N * ((n + 1) * (1 / 2 ^ k) * twiceErr n k D (resErr n k F V)) := by positivity
  have h8 : (n + 1) * (1 / 2 ^ k) * (2 * D) ≤ N * ((n + 1) * (1 / 2 ^ k) * (2 * D)) := le_mul_of_one_le_left (by positivity) hN
  have h9 : (n + 1) * (1 / 2 ^ k) ≤ (n + 1) * (1 / 2 ^ k) * (2 * D) := le_mul_of_one_le_right (by positivity) (by linarith)
  have h10 : 0 ≤ N * (n * (1 / 2 ^ k) : ℚ) := by positivity
  have h11 : (0 : ℚ) ≤ (n + 1) * (1 / 2 ^ k) := by positivity
  have h12 : twiceErr n k D (resErr n k F V) ≤ 1 := by linarith
  refine ⟨h1, h2, h3, h4, h12, ?_, by linarith⟩
  have : resErr n k F V ≤ twiceErr n k D (resErr n k F V) := by
    generalize resErr n k F V = e at h1
    unfold twiceErr
    have : 0 ≤ D * (1 / 2 ^ k) := by positivity
    have : 0 ≤ e * (1 / 2 ^ k) := by positivity
    linarith
  linarith

end

theorem div_unit (a : ℚ) (k : ℕ) : a / 2 ^ k = a * (1 / 2 ^ k) := div_eq_mul_one_div _ _

theorem residual_abs {X Y V D lr : ℚ} (r : Room n k F N X Y V D lr) {x : Fin N × Fin F → ℚ} {y : Fin N → ℚ} {w : Fin F → ℚ} {b : ℚ} (hx : ∀ p, |x p| ≤ X) (hy : ∀ i, |y i| ≤ Y)
    (hw : ∀ f, |w f| ≤ V) (hb : |b| ≤ V) (i : Fin N) : |∑ f, x (i, f) * w f + b| ≤ F * (X * V) + V ∧ |Plain.residual x y w b i| ≤ D := by
  have hX := r.X1
  have h1 : |∑ f, x (i, f) * w f| ≤ F * (X * V) := by
    refine (Finset.abs_sum_le_sum_abs _ _).trans ((Finset.sum_le_sum fun f _ => ?_).trans (by rw [Finset.sum_const, Finset.card_univ, Fintype.card_fin, nsmul_eq_mul]))
    rw [abs_mul]
    exact mul_le_mul (hx _) (hw _) (abs_nonneg _) (by linarith)
  have h2 := (abs_add_le (∑ f, x (i, f) * w f) b).trans (add_le_add h1 hb)
  refine ⟨h2, ?_⟩
  rw [r.hD]
  exact (abs_sub _ _).trans (add_le_add h2 (hy i))

/-- Residuals. -/
theorem near_residual [NeZero n] {X Y V D lr : ℚ} (r : Room n k F N X Y V D lr) {x : AST n (Fin N × Fin F)} {y : AST n (Fin N)} {q : Params n F} {xv : Fin N × Fin F → ℚ} {yv : Fin N → ℚ} {w : Fin F → ℚ} {b : ℚ}
    (hx : Near k x xv (1 / 2 ^ k)) (hy : Near k y yv (1 / 2 ^ k)) (hw : Near k q.w w 0) (hb : Near k q.b (fun _ => b) 0) (hxv : ∀ p, |xv p| ≤ X) (hyv : ∀ i, |yv i| ≤ Y)
    (hwv : ∀ f, |w f| ≤ V) (hbv : |b| ≤ V) : Sat (residual x y q) fun z => Near k z (Plain.residual xv yv w b) (resErr n k F V) := by
  have hX := r.X1
  have hV := r.V1
  have hY := r.Y0
  have hl := r.lr0
  have hD := r.hD
  have hu : (0 : ℚ) ≤ 1 / 2 ^ k := by positivity
  have hn : (0 : ℚ) ≤ n * (1 / 2 ^ k) := by positivity
  have he := r.errs
  have hF : (0 : ℚ) ≤ F := by positivity
  have hN : (0 : ℚ) ≤ N := by positivity
  have hFV : 0 ≤ F * (V * (1 / 2 ^ k)) := by positivity
  have hFXV : 0 ≤ F * (X * V) := by positivity
  have her := he.2.2.2.2.2.1
  have h0 := he.1
  unfold resErr at her h0
  refine Sat.bind (P := fun z => Near k z (fun i => ∑ f, xv (i, f) * w f) (F * (V * (1 / 2 ^ k)) + n * (1 / 2 ^ k))) ?_ fun z hz => ?_
  · refine (near_bilinear (L := F) (A := X) (C := V) r.parties r.k0 r.k62 (matVec F N) (fun j => by rw [matVec, List.length_map, List.length_finRange]) hu le_rfl (by linarith) (by linarith) hx hw hxv hwv ?_).mono
      fun z hz => Near.mono (hz.congr fun i => by rw [bilinearQ_matVec]) ?_
    · have h1 : F * ((X + 1 / 2 ^ k) * (V + 0)) ≤ 2 * D + 4 := by
        have : F * ((X + 1 / 2 ^ k) * (V + 0)) = F * (X * V) + F * (V * (1 / 2 ^ k)) := by ring
        rw [this]; linarith
      have := r.fit2 (a := 1) (b := F * ((X + 1 / 2 ^ k) * (V + 0))) (c := 1) (d := 1) (e := 1) (by positivity) (by norm_num) (by norm_num) (by norm_num) (by linarith) h1 (by linarith) (by linarith) (by linarith)
      simpa using this
    · rw [div_unit]
      exact le_of_eq (by ring)
  refine Sat.bind (P := fun z => Near k z (fun i => ∑ f, xv (i, f) * w f + b) (F * (V * (1 / 2 ^ k)) + n * (1 / 2 ^ k))) ?_ fun z hz => ?_
  · have hbr : Near k (q.b.reindex fun _ : Fin N => ()) (fun _ => b) 0 := hb.reindex _
    refine SatX.sat ((near_add (B := F * (X * V) + V) hz hbr (fun i => (residual_abs r hxv hyv hwv hbv i).1) (r.small (by positivity) ?_)).mono fun z hz => hz.mono (by rw [add_zero]))
    linarith
  · refine SatX.sat ((near_sub (B := D) hz hy (fun i => (residual_abs r hxv hyv hwv hbv i).2) (r.small (by linarith [r.D1]) ?_)).mono fun z hz => hz)
    linarith [r.D1]

/-- The loss. -/
theorem near_loss [NeZero n] {X Y V D lr : ℚ} (r : Room n k F N X Y V D lr) {d : AST n (Fin N)} {v : Fin N → ℚ} (hd : Near k d v (resErr n k F V)) (hv : ∀ i, |v i| ≤ D) :
    Sat (lossOf d) fun z => Near k z (fun _ => (∑ i, v i ^ 2) / N) (lossErr n k D (resErr n k F V)) := by
  have hX := r.X1
  have hl := r.lr0
  have hD := r.D1
  have he := r.errs
  have hu : (0 : ℚ) ≤ 1 / 2 ^ k := by positivity
  have hn : (0 : ℚ) ≤ n * (1 / 2 ^ k) := by positivity
  have hN : (1 : ℚ) ≤ N := by exact_mod_cast r.N0
  obtain ⟨h0, -, -, -, -, h1, h2⟩ := he
  have hc0 : 0 ≤ resErr n k F V * (2 * D + resErr n k F V) + n / 2 ^ k := by positivity
  refine Sat.bind (near_square (B := D) r.parties r.k62 hd hv ?_) fun z hz => ?_
  · have := r.fit2 (a := 1) (b := D + resErr n k F V) (c := D + resErr n k F V) (d := 1) (e := 1) (by linarith) (by linarith) (by norm_num) (by norm_num) (by linarith) (by linarith) (by linarith) (by linarith) (by linarith)
    rw [sq]
    simpa using this
  have hz1 : Near k (z.reindex (κ := Fin N × Unit) Prod.fst) (fun p => v p.1 * v p.1) (resErr n k F V * (2 * D + resErr n k F V) + n / 2 ^ k) := hz.reindex _
  have hz2 := near_sumFirst (B := N * (D * D)) hz1 (fun i => by
    refine (Finset.abs_sum_le_sum_abs _ _).trans ((Finset.sum_le_sum fun j _ => ?_).trans (by rw [Finset.sum_const, Finset.card_univ, Fintype.card_fin, nsmul_eq_mul]))
    rw [abs_mul]
    exact mul_le_mul (hv _) (hv _) (abs_nonneg _) (by linarith)) (by
      have h3 : N * (D * D) + N * (resErr n k F V * (2 * D + resErr n k F V) + n / 2 ^ k) ≤ N * ((D + 1) * ((D + 2) * (1 * 1))) := by
        rw [← mul_add]
        refine mul_le_mul_of_nonneg_left ?_ (by linarith)
        rw [div_unit]
        nlinarith
      refine lt_of_le_of_lt (mul_le_mul_of_nonneg_left h3 (by positivity)) (r.fit1 (by linarith) (by linarith) (by linarith) (by norm_num) (by norm_num) (by linarith) (by linarith) (by linarith) (by linarith) (by linarith)))
  refine (near_divInt r.parties hz2 (N : ℤ) (by exact_mod_cast r.N0) r.N_lt).mono fun z hz => Near.mono (hz.congr fun i => ?_) ?_
  · push_cast
    congr 1
    exact Finset.sum_congr rfl fun j _ => (sq _).symm
  · push_cast
    rw [mul_div_cancel_left₀ _ (by linarith), div_unit, div_unit]
    unfold lossErr
    exact le_of_eq (by ring)

/-- The gradient in the predictions. -/
theorem near_outGrad [NeZero n] {X Y V D lr : ℚ} (r : Room n k F N X Y V D lr) {d : AST n (Fin N)} {v : Fin N → ℚ} (hd : Near k d v (resErr n k F V)) (hv : ∀ i, |v i| ≤ D) :
    Sat (outGrad k d) fun z => Near k z (fun i => 1 / N * (v i * 2)) (outErr n k N D (twiceErr n k D (resErr n k F V))) := by
  have hX := r.X1
  have hl := r.lr0
  have hD := r.D1
  have he := r.errs
  have hu : (0 : ℚ) ≤ 1 / 2 ^ k := by positivity
  have hn : (0 : ℚ) ≤ n * (1 / 2 ^ k) := by positivity
  have hN : (1 : ℚ) ≤ N := by exact_mod_cast r.N0
  have hN1 : (1 : ℚ) / N ≤ 1 := by rw [div_le_one (by linarith)]; exact hN
  have hN0 : (0 : ℚ) ≤ 1 / N := by positivity
  obtain ⟨h0, h0', -, -, h1', h1, h2⟩ := he
  have hu1 : (1 / 2 ^ k : ℚ) ≤ 1 := by linarith
  refine Sat.bind (Svm.near_encrypt (B := 1) (e := 0) (fun i => by exact_mod_cast trunc_int k 1) (fun i => by norm_num) (r.small (by norm_num) (by linarith))).sat fun one h1e => ?_
  refine Sat.bind (P := fun z => Near k z (fun _ => 1 / (N : ℚ)) ((n + 1) * (1 / 2 ^ k))) ?_ fun m hm => ?_
  · refine (near_bilinearPub (L := 1) (A := 1) (C := 1 / N) r.parties r.k0 r.k62 (scalarTimes N) (fun _ => 1 / (N : ℚ)) (fun j => le_rfl) le_rfl (by norm_num) hN0 h1e (fun i => by norm_num)
      (fun i => by rw [abs_of_nonneg hN0]) (r.small hN0 (by linarith)) ?_).mono fun z hz => Near.mono (hz.congr fun i => by rw [bilinearQ_scalarTimes, one_mul]) ?_
    · have := r.fit2 (a := 1) (b := 1 / N + 1 / 2 ^ k) (c := 1) (d := 1) (e := 1) (by linarith) (by linarith) (by norm_num) (by norm_num) (by linarith) (by linarith) (by linarith) (by linarith) (by linarith)
      simpa using this
    · rw [div_unit]
      exact le_of_eq (by push_cast; ring)
  refine Sat.bind (P := fun z => Near k z (fun i => v i * 2) (twiceErr n k D (resErr n k F V))) ?_ fun t ht => ?_
  · refine (near_bilinearPub (L := 1) (A := D) (C := 2) r.parties r.k0 r.k62 (elementwise (Fin N)) (fun _ => 2) (fun j => le_rfl) h0 (by linarith) (by norm_num) hd hv
      (fun i => by norm_num) (r.small (by norm_num) (by linarith)) ?_).mono fun z hz => Near.mono (hz.congr fun i => by rw [bilinearQ_elementwise]) ?_
    · have := r.fit2 (a := 1) (b := D + resErr n k F V) (c := 2 + 1 / 2 ^ k) (d := 1) (e := 1) (by linarith) (by linarith) (by norm_num) (by norm_num) (by linarith) (by linarith) (by linarith) (by linarith) (by linarith)
      simpa using this
    · rw [div_unit]
      unfold twiceErr
      exact le_of_eq (by push_cast; ring)
  · refine (near_bilinear (L := 1) (A := 1 / N) (C := 2 * D) r.parties r.k0 r.k62 (elementwise (Fin N)) (fun j => le_rfl) (by positivity) h0' hN0 (by linarith) hm ht (fun i => by rw [abs_of_nonneg hN0])
      (fun i => ?_) ?_).mono fun z hz => Near.mono (hz.congr fun i => by rw [bilinearQ_elementwise]) ?_
    · rw [abs_mul, abs_of_pos (show (0 : ℚ) < 2 by norm_num)]
      linarith [hv i]
    · have := r.fit2 (a := 1) (b := 2 * D + twiceErr n k D (resErr n k F V)) (c := 1 / N + (n + 1) * (1 / 2 ^ k)) (d := 1) (e := 1) (by linarith) (by positivity) (by norm_num) (by norm_num) (by linarith) (by linarith) (by linarith) (by linarith) (by linarith)
      rw [mul_comm (1 / (N : ℚ) + _)]
      simpa using this
    · rw [div_unit]
      unfold outErr
      exact le_of_eq (by push_cast; ring)

/-- An update. -/
theorem near_update [NeZero n] {X Y V D lr G e : ℚ} (r : Room n k F N X Y V D lr) {p g : AST n ι} {pv gv : ι → ℚ} (he0 : 0 ≤ e) (he1 : e ≤ 1) (hG0 : 0 ≤ G) (hG : G ≤ 2 * D * X) (hs : e * lr + G * (1 / 2 ^ k) + e * (1 / 2 ^ k) + n * (1 / 2 ^ k) ≤ 2)
    (hp : Near k p pv 0) (hg : Near k g gv e) (hgv : ∀ i, |gv i| ≤ G) (hpv : ∀ i, |pv i - gv i * lr| ≤ 2 * D) :
    Sat (update lr p g) fun z => Near k z (fun i => pv i - gv i * lr) (e * lr + G * (1 / 2 ^ k) + e * (1 / 2 ^ k) + n * (1 / 2 ^ k)) := by
  have hX := r.X1
  have hl := r.lr0
  have hD := r.D1
  have hN : (1 : ℚ) ≤ N := by exact_mod_cast r.N0
  have hu : (0 : ℚ) ≤ 1 / 2 ^ k := by positivity
  have hn : (0 : ℚ) ≤ n * (1 / 2 ^ k) := by positivity
  obtain ⟨h0, h0', -, -, h1', h1, h2⟩ := r.errs
  have hu1 : (1 / 2 ^ k : ℚ) ≤ 1 := by linarith
  refine Sat.bind (P := fun z => Near k z (fun i => gv i * lr) (e * lr + G * (1 / 2 ^ k) + e * (1 / 2 ^ k) + n * (1 / 2 ^ k))) ?_ fun z hz => ?_
  · refine (near_bilinearPub (L := 1) (A := G) (C := lr) r.parties r.k0 r.k62 (elementwise ι) (fun _ => lr) (fun j => le_rfl) he0 hG0 hl hg hgv (fun i => by rw [abs_of_nonneg hl]) ?_ ?_).mono
      fun z hz => Near.mono (hz.congr fun i => by rw [bilinearQ_elementwise]) ?_
    · have := r.fit1 (a := 1) (b := 1) (c := 1) (d := 1) (e := lr) (by norm_num) (by norm_num) (by norm_num) (by norm_num) hl (by linarith) (by linarith) (by linarith) (by linarith) (by linarith)
      simpa using this
    · have h3 : (1 : ℕ) * ((G + e) * (lr + 1 / 2 ^ k)) ≤ 1 * ((2 * D + 1) * (1 * (X * (lr + 1 / 2 ^ k)))) := by
        have : G + e ≤ (2 * D + 1) * X := by nlinarith
        have := mul_le_mul_of_nonneg_right this (show 0 ≤ lr + 1 / 2 ^ k by linarith)
        push_cast
        linarith
      exact lt_of_le_of_lt (mul_le_mul_of_nonneg_left h3 (by positivity)) (r.fit2 (by linarith) (by linarith) (by linarith) (by linarith) (by linarith) (by linarith) (by linarith) (by linarith) (by linarith))
    · rw [div_unit]
      exact le_of_eq (by push_cast; ring)
  · refine SatX.sat ((near_sub (B := 2 * D) hp hz hpv (r.small (by positivity) ?_)).mono fun z hz => hz.mono (by rw [zero_add]))
    linarith

theorem stepErr_nonneg {X Y V D lr : ℚ} (r : Room n k F N X Y V D lr) : 0 ≤ gradErr n k F N X D V ∧ 0 ≤ stepErr n k F N X D V lr := by
  have hX := r.X1
  have hl := r.lr0
  have hD := r.D1
  have h := r.errs
  have h1 : 0 ≤ gradErr n k F N X D V := le_trans (mul_nonneg (by positivity) h.2.2.1) h.2.2.2.1
  refine ⟨h1, ?_⟩
  unfold stepErr
  positivity

theorem sum_abs_le {X Y V D lr X' : ℚ} (r : Room n k F N X' Y V D lr) (hD : 1 ≤ D) (x g : Fin N → ℚ) (hx : ∀ i, |x i| ≤ X) (hg : ∀ i, |g i| ≤ 2 * D / N) : |∑ i, x i * g i| ≤ 2 * D * X := by
  have hN : (1 : ℚ) ≤ N := by exact_mod_cast r.N0
  have h1 : ∀ i, |x i * g i| ≤ X * (2 * D / N) := fun i => by
    rw [abs_mul]
    exact mul_le_mul (hx i) (hg i) (abs_nonneg _) ((abs_nonneg _).trans (hx i))
  have h2 := (Finset.abs_sum_le_sum_abs (fun i => x i * g i) Finset.univ).trans (Finset.sum_le_sum fun i _ => h1 i)
  rw [Finset.sum_const, Finset.card_univ, Fintype.card_fin, nsmul_eq_mul, mul_left_comm, mul_div_cancel₀ _ (show (N : ℚ) ≠ 0 by positivity), mul_comm] at h2
  exact h2

theorem near_sumRow {g : AST n (Fin N)} {v : Fin N → ℚ} {e B : ℚ} (hg : Near k g v e) (hB : |∑ i, v i| ≤ B) (hfit : 2 ^ k * (B + N * e) < 2 ^ 63) :
    Near k (g.reindex (κ := Fin N × Unit) Prod.fst).sumFirst (fun _ => ∑ i, v i) (N * e) :=
  near_sumFirst (v := fun p : Fin N × Unit => v p.1) (hg.reindex _) (fun _ => hB) hfit

/-- **C95.** One pass of the training loop, from any encrypted weights: the new weights and bias differ from a step of gradient descent from these weights, on exact numbers, by at most
`stepErr` in each coordinate, and the loss from the exact one by at most `lossErr`. -/
theorem C95_epoch [NeZero n] {X Y V D lr : ℚ} (r : Room n k F N X Y V D lr) {x : AST n (Fin N × Fin F)} {y : AST n (Fin N)} {q : Params n F} {xv : Fin N × Fin F → ℚ} {yv : Fin N → ℚ}
    (hx : Near k x xv (1 / 2 ^ k)) (hy : Near k y yv (1 / 2 ^ k)) (hqw : q.w.scale = 2 ^ k) (hqb : q.b.scale = 2 ^ k) (hxv : ∀ p, |xv p| ≤ X) (hyv : ∀ i, |yv i| ≤ Y)
    (hwv : ∀ f, |q.w.value f| ≤ V) (hbv : |q.b.value ()| ≤ V) (hwv' : ∀ f, |(step lr xv yv (q.w.value, q.b.value ())).1 f| ≤ V) (hbv' : |(step lr xv yv (q.w.value, q.b.value ())).2| ≤ V)
    (hs : stepErr n k F N X D V lr ≤ 1) :
    Sat (epoch k lr x y q) fun z => z.1.w.scale = 2 ^ k ∧ z.1.b.scale = 2 ^ k ∧ (∀ f, |z.1.w.value f - (step lr xv yv (q.w.value, q.b.value ())).1 f| ≤ stepErr n k F N X D V lr) ∧
      |z.1.b.value () - (step lr xv yv (q.w.value, q.b.value ())).2| ≤ stepErr n k F N X D V lr ∧
      |z.2.value () - Plain.loss xv yv q.w.value (q.b.value ())| ≤ lossErr n k D (resErr n k F V) := by
  have hX := r.X1
  have hV := r.V1
  have hY := r.Y0
  have hl := r.lr0
  have hD := r.D1
  have hN : (1 : ℚ) ≤ N := by exact_mod_cast r.N0
  have hu : (0 : ℚ) ≤ 1 / 2 ^ k := by positivity
  have hn : (0 : ℚ) ≤ n * (1 / 2 ^ k) := by positivity
  obtain ⟨h0, h0', h0'', hNo, h1', h1, h2⟩ := r.errs
  have hgr := (stepErr_nonneg r).1
  have hVD : V ≤ D := by
    have : 0 ≤ F * (X * V) := by positivity
    rw [r.hD]; linarith
  have hw : Near k q.w q.w.value 0 := ⟨hqw, fun i => by rw [sub_self, abs_zero]⟩
  have hb : Near k q.b (fun _ => q.b.value ()) 0 := ⟨hqb, fun i => by rw [sub_self, abs_zero]⟩
  have hres := fun i => (residual_abs r hxv hyv hwv hbv i).2
  have hg1 : ∀ i, |1 / (N : ℚ) * (Plain.residual xv yv q.w.value (q.b.value ()) i * 2)| ≤ 2 * D / N := fun i => by
    rw [abs_mul, abs_mul, abs_of_pos (show (0 : ℚ) < 1 / N by positivity), abs_of_pos (show (0 : ℚ) < 2 by norm_num), div_mul_eq_mul_div, one_mul]
    exact div_le_div_of_nonneg_right (by linarith [hres i]) (by linarith)
  unfold epoch
  refine Sat.bind (near_residual r hx hy hw hb hxv hyv hwv hbv) fun d hd => ?_
  refine Sat.bind (near_loss r hd hres) fun loss hloss => ?_
  refine Sat.bind (near_outGrad r hd hres) fun g hg => ?_
  refine Sat.bind (P := fun _ => True) (fun _ _ _ _ => trivial) fun _ _ => ?_
  refine Sat.bind (P := fun z => Near k z (gradW xv yv q.w.value (q.b.value ())) (gradErr n k F N X D V)) ?_ fun gw hgw => ?_
  · refine (near_bilinear (L := N) (A := X) (C := 2 * D / N) r.parties r.k0 r.k62 (transVec F N) (fun j => by rw [transVec, List.length_map, List.length_finRange]) hu h0'' (by linarith)
      (by positivity) hx hg hxv hg1 ?_).mono fun z hz => Near.mono (hz.congr fun f => by rw [bilinearQ_transVec]; rfl) ?_
    · have h3 : N * ((X + 1 / 2 ^ k) * (2 * D / N + outErr n k N D (twiceErr n k D (resErr n k F V)))) ≤ 1 * ((2 * D + 1) * (1 * ((X + 1 / 2 ^ k) * 1))) := by
        have e : N * ((X + 1 / 2 ^ k) * (2 * D / N + outErr n k N D (twiceErr n k D (resErr n k F V)))) = (X + 1 / 2 ^ k) * (2 * D + N * outErr n k N D (twiceErr n k D (resErr n k F V))) := by
          have hN0 : (N : ℚ) ≠ 0 := by positivity
          generalize outErr n k N D (twiceErr n k D (resErr n k F V)) = o
          rw [mul_left_comm, mul_add (N : ℚ), mul_div_cancel₀ _ hN0]
        rw [e]
        have := mul_le_mul_of_nonneg_left (show 2 * D + N * outErr n k N D (twiceErr n k D (resErr n k F V)) ≤ 2 * D + 1 by linarith [r.err]) (show 0 ≤ X + 1 / 2 ^ k by linarith)
        linarith
      exact lt_of_le_of_lt (mul_le_mul_of_nonneg_left h3 (by positivity)) (r.fit2 (by linarith) (by norm_num) (by linarith) (by norm_num) (by linarith) (by linarith) (by linarith) (by linarith) (by linarith))
    · rw [div_unit (n : ℚ)]
      unfold gradErr
      generalize outErr n k N D (twiceErr n k D (resErr n k F V)) = o
      have e : (N : ℚ) * (1 / 2 ^ k * (2 * D / N)) = 2 * D * (1 / 2 ^ k) := by
        have hN0 : (N : ℚ) ≠ 0 := by positivity
        rw [mul_left_comm, mul_div_cancel₀ _ hN0, mul_comm]
      rw [mul_add, mul_add, e]
      exact le_of_eq (by ring)
  have hgw1 : ∀ f, |gradW xv yv q.w.value (q.b.value ()) f| ≤ 2 * D * X := fun f => sum_abs_le r hD (fun i => xv (i, f)) _ (fun i => hxv _) hg1
  have hgb1 : |gradB xv yv q.w.value (q.b.value ())| ≤ 2 * D := by
    have := sum_abs_le (X := 1) r hD (fun _ => 1) _ (fun i => by norm_num) hg1
    unfold gradB
    simpa only [one_mul, mul_one] using this
  have hgb : Near k (g.reindex (κ := Fin N × Unit) Prod.fst).sumFirst (fun _ => gradB xv yv q.w.value (q.b.value ())) (N * outErr n k N D (twiceErr n k D (resErr n k F V))) := by
    have h3 : 0 ≤ N * outErr n k N D (twiceErr n k D (resErr n k F V)) := mul_nonneg (by linarith) h0''
    have h4 : N * outErr n k N D (twiceErr n k D (resErr n k F V)) ≤ 1 := hNo.trans r.err
    unfold gradB at hgb1 ⊢
    exact near_sumRow hg hgb1 (r.small (by linarith) (by linarith))
  have hsb : N * outErr n k N D (twiceErr n k D (resErr n k F V)) * lr + 2 * D * (1 / 2 ^ k) + N * outErr n k N D (twiceErr n k D (resErr n k F V)) * (1 / 2 ^ k) + n * (1 / 2 ^ k) ≤ stepErr n k F N X D V lr := by
    unfold stepErr
    have h3 := mul_le_mul_of_nonneg_right hNo hl
    have h4 := mul_le_mul_of_nonneg_right hNo hu
    have h5 : 2 * D * (1 / 2 ^ k) ≤ 2 * D * X * (1 / 2 ^ k) := mul_le_mul_of_nonneg_right (by nlinarith) hu
    linarith
  refine Sat.bind (near_update (G := 2 * D * X) r hgr r.err (by positivity) le_rfl (by change stepErr n k F N X D V lr ≤ 2; linarith) hw hgw hgw1 fun f => (hwv' f).trans (by linarith)) fun w' hw' => ?_
  refine Sat.bind (near_update (G := 2 * D) r (by positivity) (by linarith [r.err]) (by linarith) (by nlinarith) (by linarith) hb hgb (fun _ => hgb1) fun _ => hbv'.trans (by linarith)) fun b' hb' => ?_
  exact Sat.pure ⟨hw'.1, hb'.1, hw'.2, (hb'.2 ()).trans hsb, hloss.2 ()⟩

/-! ## Exact gradient descent does not increase distances -/

theorem contraction (x : Fin N × Fin F → ℚ) {lr : ℚ} (hl : 0 ≤ lr) (hN : 0 < N) (h : lr * ∑ i, (∑ f, x (i, f) ^ 2 + 1) ≤ N) (v : Fin F → ℚ) (c : ℚ) :
    ∑ f, (v f - lr * ∑ i, x (i, f) * (1 / N * ((∑ f, x (i, f) * v f + c) * 2))) ^ 2 + (c - lr * ∑ i, 1 / N * ((∑ f, x (i, f) * v f + c) * 2)) ^ 2 ≤ ∑ f, v f ^ 2 + c ^ 2 := by
  have hNq : (0 : ℚ) < N := by exact_mod_cast hN
  set a : Fin N → ℚ := fun i => ∑ f, x (i, f) * v f + c with ha
  set s : ℚ := 2 * lr / N with hs
  set p : Fin F → ℚ := fun f => ∑ i, x (i, f) * a i with hp
  set S : ℚ := ∑ i, a i ^ 2 with hS
  have e1 : ∀ f, v f - lr * ∑ i, x (i, f) * (1 / N * ((∑ f, x (i, f) * v f + c) * 2)) = v f - s * p f := fun f => by
    rw [hp, hs]
    congr 1
    rw [Finset.mul_sum, Finset.mul_sum]
    exact Finset.sum_congr rfl fun i _ => by rw [ha]; ring
  have e2 : c - lr * ∑ i, 1 / N * ((∑ f, x (i, f) * v f + c) * 2) = c - s * ∑ i, a i := by
    rw [hs]
    congr 1
    rw [Finset.mul_sum, Finset.mul_sum]
    exact Finset.sum_congr rfl fun i _ => by rw [ha]; ring
  have e3 : ∑ f, v f * p f + c * ∑ i, a i = S := by
    rw [hS, hp]
    simp only [Finset.mul_sum]
    rw [Finset.sum_comm, ← Finset.sum_add_distrib]
    refine Finset.sum_congr rfl fun i _ => ?_
    have : ∑ f, v f * (x (i, f) * a i) = (∑ f, x (i, f) * v f) * a i := by
      rw [Finset.sum_mul]; exact Finset.sum_congr rfl fun f _ => by ring
    rw [this]
    have : a i = ∑ f, x (i, f) * v f + c := rfl
    rw [sq]
    nth_rewrite 3 [this]
    ring
  have e4 : ∀ f, p f ^ 2 ≤ (∑ i, x (i, f) ^ 2) * S := fun f => Finset.sum_mul_sq_le_sq_mul_sq _ _ _
  have e5 : (∑ i, a i) ^ 2 ≤ N * S := by
    have := sq_sum_le_card_mul_sum_sq (s := Finset.univ) (f := a)
    rwa [Finset.card_univ, Fintype.card_fin] at this
  have e6 : ∑ f, p f ^ 2 + (∑ i, a i) ^ 2 ≤ (∑ i, (∑ f, x (i, f) ^ 2 + 1)) * S := by
    have h1 := Finset.sum_le_sum fun f (_ : f ∈ Finset.univ) => e4 f
    rw [← Finset.sum_mul, Finset.sum_comm] at h1
    have h2 : ∑ i, (∑ f, x (i, f) ^ 2 + 1) = ∑ i, ∑ f, x (i, f) ^ 2 + N := by
      rw [Finset.sum_add_distrib, Finset.sum_const, Finset.card_univ, Fintype.card_fin, nsmul_eq_mul, mul_one]
    rw [h2, add_mul]
    exact add_le_add h1 e5
  have hS0 : 0 ≤ S := Finset.sum_nonneg fun i _ => sq_nonneg _
  have hs0 : 0 ≤ s := by rw [hs]; positivity
  have hsA : s * ∑ i, (∑ f, x (i, f) ^ 2 + 1) ≤ 2 := by
    rw [hs, div_mul_eq_mul_div, div_le_iff₀ hNq]
    linarith
  simp only [e1]
  rw [e2]
  have e7 : ∑ f, (v f - s * p f) ^ 2 = ∑ f, v f ^ 2 - 2 * s * ∑ f, v f * p f + s ^ 2 * ∑ f, p f ^ 2 := by
    rw [Finset.mul_sum, Finset.mul_sum, ← Finset.sum_sub_distrib, ← Finset.sum_add_distrib]
    exact Finset.sum_congr rfl fun f _ => by ring
  rw [e7]
  have e8 : s ^ 2 * (∑ f, p f ^ 2 + (∑ i, a i) ^ 2) ≤ 2 * s * S := by
    have h1 := mul_le_mul_of_nonneg_left e6 (sq_nonneg s)
    have h2 := mul_le_mul_of_nonneg_right hsA (mul_nonneg hs0 hS0)
    nlinarith
  nlinarith

theorem dist2_step {x : Fin N × Fin F → ℚ} {y : Fin N → ℚ} {lr : ℚ} (hl : 0 ≤ lr) (hN : 0 < N) (h : lr * ∑ i, (∑ f, x (i, f) ^ 2 + 1) ≤ N) (w w' : Fin F → ℚ) (b b' : ℚ) :
    dist2 (step lr x y (w, b)).1 (step lr x y (w, b)).2 (step lr x y (w', b')).1 (step lr x y (w', b')).2 ≤ dist2 w b w' b' := by
  have h1 := contraction x hl hN h (fun f => w f - w' f) (b - b')
  have e0 : ∀ i, Plain.residual x y w b i - Plain.residual x y w' b' i = ∑ f, x (i, f) * (w f - w' f) + (b - b') := fun i => by
    unfold Plain.residual
    simp only [mul_sub, Finset.sum_sub_distrib]
    ring
  unfold dist2
  refine le_trans (le_of_eq ?_) h1
  congr 1
  · refine Finset.sum_congr rfl fun f _ => ?_
    congr 1
    have h2 : gradW x y w b f - gradW x y w' b' f = ∑ i, x (i, f) * (1 / N * ((∑ f, x (i, f) * (w f - w' f) + (b - b')) * 2)) := by
      rw [gradW, gradW, ← Finset.sum_sub_distrib]
      exact Finset.sum_congr rfl fun i _ => by rw [← e0]; ring
    show w f - gradW x y w b f * lr - (w' f - gradW x y w' b' f * lr) = _
    rw [← h2]; ring
  · congr 1
    have h2 : gradB x y w b - gradB x y w' b' = ∑ i, 1 / N * ((∑ f, x (i, f) * (w f - w' f) + (b - b')) * 2) := by
      rw [gradB, gradB, ← Finset.sum_sub_distrib]
      exact Finset.sum_congr rfl fun i _ => by rw [← e0]; ring
    show b - gradB x y w b * lr - (b' - gradB x y w' b' * lr) = _
    rw [← h2]; ring

theorem dist2_add {w w' z : Fin F → ℚ} {b b' c a δ : ℚ} (ha : 0 ≤ a) (hd : 0 ≤ δ) (h : dist2 w b w' b' ≤ (F + 1) * a ^ 2) (hw : ∀ f, |z f - w f| ≤ δ) (hb : |c - b| ≤ δ) :
    dist2 z c w' b' ≤ (F + 1) * (a + δ) ^ 2 := by
  have hF : (0 : ℚ) ≤ F := by positivity
  have key : ∀ {s t u : ℚ}, |s - t| ≤ δ → (s - u) ^ 2 ≤ (t - u) ^ 2 + 2 * δ * |t - u| + δ ^ 2 := fun {s t u} h => by
    have h1 : |s - u| ≤ |t - u| + δ := by
      have := abs_add_le (s - t) (t - u)
      rw [sub_add_sub_cancel] at this
      linarith
    rw [← sq_abs (s - u), ← sq_abs (t - u)]
    nlinarith [abs_nonneg (s - u), abs_nonneg (t - u)]
  set A := ∑ f, |w f - w' f| + |b - b'| with hA
  have hA0 : 0 ≤ A := add_nonneg (Finset.sum_nonneg fun _ _ => abs_nonneg _) (abs_nonneg _)
  have h1 : A ^ 2 ≤ (F + 1) * dist2 w b w' b' := by
    have := sq_sum_le_card_mul_sum_sq (s := Finset.univ) (f := fun o : Option (Fin F) => match o with | none => |b - b'| | some f => |w f - w' f|)
    rw [Finset.card_univ, Fintype.card_option, Fintype.card_fin, Fintype.sum_option, Fintype.sum_option] at this
    simp only [sq_abs] at this
    push_cast at this
    rw [hA, dist2, add_comm (∑ f, |w f - w' f|), add_comm (∑ f, (w f - w' f) ^ 2)]
    exact this
  have h2 : A ≤ (F + 1) * a := by
    refine abs_le_of_sq_le_sq' ?_ (by positivity) |>.2
    calc A ^ 2 ≤ (F + 1) * dist2 w b w' b' := h1
      _ ≤ (F + 1) * ((F + 1) * a ^ 2) := mul_le_mul_of_nonneg_left h (by positivity)
      _ = ((F + 1) * a) ^ 2 := by ring
  have h3 : dist2 z c w' b' ≤ dist2 w b w' b' + 2 * δ * A + (F + 1) * δ ^ 2 := by
    have h4 := Finset.sum_le_sum fun f (_ : f ∈ Finset.univ) => key (u := w' f) (hw f)
    have h5 := key (u := b') hb
    rw [Finset.sum_add_distrib, Finset.sum_add_distrib, ← Finset.mul_sum, Finset.sum_const, Finset.card_univ, Fintype.card_fin, nsmul_eq_mul] at h4
    unfold dist2
    rw [hA]
    linarith
  nlinarith [mul_le_mul_of_nonneg_left h2 hd]

theorem dist2_coord {w w' : Fin F → ℚ} {b b' : ℚ} (h : dist2 w b w' b' ≤ 1) : (∀ f, |w f - w' f| ≤ 1) ∧ |b - b'| ≤ 1 := by
  have h0 : ∀ f, 0 ≤ (w f - w' f) ^ 2 := fun f => sq_nonneg _
  unfold dist2 at h
  constructor
  · intro f
    have := Finset.single_le_sum (fun f _ => h0 f) (Finset.mem_univ f)
    exact abs_le_one_iff_mul_self_le_one.2 (by nlinarith [sq_nonneg (b - b')])
  · have := Finset.sum_nonneg fun f (_ : f ∈ Finset.univ) => h0 f
    exact abs_le_one_iff_mul_self_le_one.2 (by nlinarith)

theorem sat_train [NeZero n] {X Y W D lr : ℚ} (r : Room n k F N X Y (W + 1) D lr) {x : AST n (Fin N × Fin F)} {y : AST n (Fin N)} {xv : Fin N × Fin F → ℚ} {yv : Fin N → ℚ} {w0 : Fin F → ℚ} {b0 : ℚ} {T : ℕ}
    (hx : Near k x xv (1 / 2 ^ k)) (hy : Near k y yv (1 / 2 ^ k)) (hxv : ∀ p, |xv p| ≤ X) (hyv : ∀ i, |yv i| ≤ Y) (hlr : lr * ∑ i, (∑ f, xv (i, f) ^ 2 + 1) ≤ N)
    (hT : (F + 1) * (1 / 2 ^ k + T * stepErr n k F N X D (W + 1) lr) ^ 2 ≤ 1)
    (hW : ∀ t ≤ T, (∀ f, |(weights lr xv yv w0 b0 t).1 f| ≤ W) ∧ |(weights lr xv yv w0 b0 t).2| ≤ W) : ∀ (m s : ℕ), s + m = T → ∀ q : Params n F, q.w.scale = 2 ^ k → q.b.scale = 2 ^ k →
    dist2 q.w.value (q.b.value ()) (weights lr xv yv w0 b0 s).1 (weights lr xv yv w0 b0 s).2 ≤ (F + 1) * (1 / 2 ^ k + s * stepErr n k F N X D (W + 1) lr) ^ 2 →
    Sat (train k lr x y m q) fun z => dist2 z.w.value (z.b.value ()) (weights lr xv yv w0 b0 T).1 (weights lr xv yv w0 b0 T).2 ≤ (F + 1) * (1 / 2 ^ k + T * stepErr n k F N X D (W + 1) lr) ^ 2 := by
  have hs0 := (stepErr_nonneg r).2
  have hu : (0 : ℚ) ≤ 1 / 2 ^ k := by positivity
  have hF : (0 : ℚ) ≤ F := by positivity
  have hbig : ∀ {s : ℕ}, s ≤ T → 1 / 2 ^ k + s * stepErr n k F N X D (W + 1) lr ≤ 1 / 2 ^ k + T * stepErr n k F N X D (W + 1) lr := fun {s} h => by
    have : (s : ℚ) ≤ T := by exact_mod_cast h
    nlinarith
  have hE0 : ∀ s : ℕ, 0 ≤ 1 / 2 ^ k + s * stepErr n k F N X D (W + 1) lr := fun s => by positivity
  have hle : ∀ {s : ℕ}, s ≤ T → (F + 1) * (1 / 2 ^ k + s * stepErr n k F N X D (W + 1) lr) ^ 2 ≤ 1 := fun {s} h =>
    le_trans (mul_le_mul_of_nonneg_left (pow_le_pow_left₀ (hE0 s) (hbig h) 2) (by linarith)) hT
  intro m
  induction m with
  | zero =>
    intro s hs q _ _ h
    rw [add_zero] at hs
    subst hs
    exact Sat.pure h
  | succ m ih =>
    intro s hs q hqw hqb h
    have e2 : weights lr xv yv w0 b0 (s + 1) = step lr xv yv ((weights lr xv yv w0 b0 s).1, (weights lr xv yv w0 b0 s).2) := Function.iterate_succ_apply' _ _ _
    have h1 := dist2_step (y := yv) r.lr0 r.N0 hlr q.w.value (weights lr xv yv w0 b0 s).1 (q.b.value ()) (weights lr xv yv w0 b0 s).2
    rw [← e2] at h1
    have hc := dist2_coord (h.trans (hle (by omega)))
    have hc' := dist2_coord ((h1.trans h).trans (hle (by omega)))
    have near : ∀ {a b : ℚ}, |a - b| ≤ 1 → |b| ≤ W → |a| ≤ W + 1 := fun {a b} h h' => by
      have := abs_add_le (a - b) b
      rw [sub_add_cancel] at this
      linarith
    have hs1 : stepErr n k F N X D (W + 1) lr ≤ 1 := by
      have h2 := hle (s := 1) (by omega)
      have h3 := hE0 1
      push_cast at h2 h3
      nlinarith [sq_nonneg (1 / 2 ^ k + 1 * stepErr n k F N X D (W + 1) lr - 1)]
    refine Sat.bind (C95_epoch r hx hy hqw hqb hxv hyv (fun f => near (hc.1 f) ((hW s (by omega)).1 f)) (near hc.2 (hW s (by omega)).2) (fun f => near (hc'.1 f) ((hW (s + 1) (by omega)).1 f))
      (near hc'.2 (hW (s + 1) (by omega)).2) hs1) fun z hz => ?_
    refine ih (s + 1) (by omega) z.1 hz.1 hz.2.1 ?_
    have := dist2_add (hE0 s) hs0 (h1.trans h) hz.2.2.1 hz.2.2.2.1
    have e3 : 1 / 2 ^ k + ((s + 1 : ℕ) : ℚ) * stepErr n k F N X D (W + 1) lr = 1 / 2 ^ k + s * stepErr n k F N X D (W + 1) lr + stepErr n k F N X D (W + 1) lr := by push_cast; ring
    rw [e3]
    exact this

/-- **C95.** If the learning rate is at most the inverse of the mean square norm of the examples (with a 1 for the bias), the weights and the bias after `T` passes are within
`sqrt (F + 1) · (1 / 2 ^ k + T · stepErr)` of those of gradient descent on exact numbers, in Euclidean distance: the errors of the passes add up and are not magnified. -/
theorem C95_train [NeZero n] {X Y W D lr : ℚ} (r : Room n k F N X Y (W + 1) D lr) {xv : Fin N × Fin F → ℚ} {yv : Fin N → ℚ} {w0 : Fin F → ℚ} {b0 : ℚ} {T : ℕ}
    (hxv : ∀ p, |xv p| ≤ X) (hyv : ∀ i, |yv i| ≤ Y) (hlr : lr * ∑ i, (∑ f, xv (i, f) ^ 2 + 1) ≤ N)
    (hT : (F + 1) * (1 / 2 ^ k + T * stepErr n k F N X D (W + 1) lr) ^ 2 ≤ 1)
    (hW : ∀ t ≤ T, (∀ f, |(weights lr xv yv w0 b0 t).1 f| ≤ W) ∧ |(weights lr xv yv w0 b0 t).2| ≤ W) :
    Sat (run (n := n) k T lr xv yv w0 b0) fun z =>
      dist2 z.w.value (z.b.value ()) (weights lr xv yv w0 b0 T).1 (weights lr xv yv w0 b0 T).2 ≤ (F + 1) * (1 / 2 ^ k + T * stepErr n k F N X D (W + 1) lr) ^ 2 := by
  have hX := r.X1
  have hY := r.Y0
  have hV := r.V1
  have hu : (0 : ℚ) ≤ 1 / 2 ^ k := by positivity
  have hn : (0 : ℚ) ≤ n * (1 / 2 ^ k) := by positivity
  have h2 := r.errs.2.2.2.2.2.2
  have hu1 : (1 / 2 ^ k : ℚ) ≤ 1 := by linarith
  have hN : (1 : ℚ) ≤ N := by exact_mod_cast r.N0
  have hYD : Y ≤ D ∧ W + 1 ≤ D := by
    have : 0 ≤ F * (X * (W + 1)) := by positivity
    rw [r.hD]; constructor <;> linarith
  have h0 := hW 0 (Nat.zero_le _)
  have hXfit : 2 ^ k * (X + 1 / 2 ^ k) < (2 : ℚ) ^ 63 := by
    have := r.fit1 (a := 1) (b := 1) (c := 1) (d := X + 1 / 2 ^ k) (e := 1) (by norm_num) (by norm_num) (by norm_num) (by linarith) (by norm_num) (by linarith) (by linarith) (by linarith) (by linarith) (by linarith [r.lr0])
    simpa using this
  refine Sat.bind (Svm.near_encrypt (e := 1 / 2 ^ k) (fun i => trunc_any k _) hxv hXfit).sat fun x hx => ?_
  refine Sat.bind (Svm.near_encrypt (e := 1 / 2 ^ k) (fun i => trunc_any k _) hyv (r.small (by linarith) (by linarith))).sat fun y hy => ?_
  refine Sat.bind (Svm.near_encrypt (B := W + 1) (e := 1 / 2 ^ k) (fun i => trunc_any k _) (fun f => (h0.1 f).trans (by linarith)) (r.small (by linarith) (by linarith))).sat fun w hw => ?_
  refine Sat.bind (Svm.near_encrypt (B := W + 1) (e := 1 / 2 ^ k) (fun i => trunc_any k _) (fun _ => h0.2.trans (by linarith)) (r.small (by linarith) (by linarith))).sat fun b hb => ?_
  refine sat_train r hx hy hxv hyv hlr hT hW T 0 (Nat.zero_add T) ⟨w, b⟩ hw.1 hb.1 ?_
  have h3 := dist2_add (w := w0) (w' := w0) (b := b0) (b' := b0) (a := 0) le_rfl hu (by simp [dist2]) hw.2 (hb.2 ())
  rw [Nat.cast_zero, zero_mul, add_zero]
  rw [zero_add] at h3
  exact h3

/-- **C95.** The gradients of the specification are the derivatives of the loss: a change `d` of the weights and `e` of the bias changes the loss by their product with the change, up to a term of
second order. -/
theorem C95_gradient (x : Fin N × Fin F → ℚ) (y : Fin N → ℚ) (w d : Fin F → ℚ) (b e : ℚ) :
    Plain.loss x y (fun f => w f + d f) (b + e) = Plain.loss x y w b + (∑ f, gradW x y w b f * d f + gradB x y w b * e) + (∑ i, (∑ f, x (i, f) * d f + e) ^ 2) / N := by
  have h1 : ∀ i, Plain.residual x y (fun f => w f + d f) (b + e) i = Plain.residual x y w b i + (∑ f, x (i, f) * d f + e) := fun i => by
    unfold Plain.residual
    simp only [mul_add, Finset.sum_add_distrib]
    ring
  have h2 : ∑ f, gradW x y w b f * d f = ∑ i, 1 / (N : ℚ) * (Plain.residual x y w b i * 2) * ∑ f, x (i, f) * d f := by
    unfold gradW
    simp only [Finset.sum_mul, Finset.mul_sum]
    rw [Finset.sum_comm]
    exact Finset.sum_congr rfl fun i _ => Finset.sum_congr rfl fun f _ => by ring
  unfold Plain.loss gradB
  rw [h2, Finset.sum_mul, ← Finset.sum_add_distrib, div_eq_mul_inv (G := ℚ), div_eq_mul_inv (∑ i, Plain.residual x y w b i ^ 2), div_eq_mul_inv (∑ i, (∑ f, x (i, f) * d f + e) ^ 2), Finset.sum_mul, Finset.sum_mul, Finset.sum_mul, ← Finset.sum_add_distrib, ← Finset.sum_add_distrib]
  exact Finset.sum_congr rfl fun i _ => by rw [h1]; ring

/-- Two examples with one feature, `1` and `-1`, and targets `1` and `0`. -/
def exampleX : Fin 2 × Fin 1 → ℚ := fun p => if p.1 = 0 then 1 else -1

def exampleY : Fin 2 → ℚ := fun i => if i = 0 then 1 else 0

/-- The hypotheses of `C95_train` are met: two parties, the default precision, the examples above, weight and bias `0` at first, `lr = 1/4`, three passes, which bring the loss from `1/2` to less
than `1/100`. -/
example : Room 2 16 1 2 1 1 (1 + 1) 5 (1 / 4) ∧ (∀ p, |exampleX p| ≤ 1) ∧ (∀ i, |exampleY i| ≤ 1) ∧ (1 / 4 : ℚ) * ∑ i, (∑ f, exampleX (i, f) ^ 2 + 1) ≤ (2 : ℕ) ∧
    ((1 : ℕ) + 1) * (1 / 2 ^ 16 + (3 : ℕ) * stepErr 2 16 1 2 1 5 (1 + 1) (1 / 4)) ^ 2 ≤ 1 ∧
    (∀ t ≤ 3, (∀ f, |(weights (1 / 4) exampleX exampleY (fun _ => 0) 0 t).1 f| ≤ 1) ∧ |(weights (1 / 4) exampleX exampleY (fun _ => 0) 0 t).2| ≤ 1) ∧
    Plain.loss exampleX exampleY (fun _ => 0) 0 = 1 / 2 ∧
    Plain.loss exampleX exampleY (weights (1 / 4) exampleX exampleY (fun _ => 0) 0 3).1 (weights (1 / 4) exampleX exampleY (fun _ => 0) 0 3).2 < 1 / 100 := by
  refine ⟨⟨by norm_num, by norm_num, by norm_num, by norm_num, by norm_num, by norm_num, by norm_num, by norm_num, by norm_num, ?_, ?_⟩, ?_, ?_, ?_, ?_, ?_, ?_, ?_⟩ <;> decide +kernel

/-- The hypotheses of `C95_epoch` are met by these examples, encrypted by the first party, and zero weights. -/
example : Near 16 (⟨fun p => if p = 0 then encodePublic (2 ^ 16) exampleX else 0, 2 ^ 16⟩ : AST 2 _) exampleX (1 / 2 ^ 16) ∧
    Near 16 (⟨fun p => if p = 0 then encodePublic (2 ^ 16) exampleY else 0, 2 ^ 16⟩ : AST 2 _) exampleY (1 / 2 ^ 16) ∧
    (∀ f, |(step (1 / 4) exampleX exampleY (AST.value (⟨0, 2 ^ 16⟩ : AST 2 (Fin 1)), AST.value (⟨0, 2 ^ 16⟩ : AST 2 Unit) ())).1 f| ≤ 2) ∧
    |(step (1 / 4) exampleX exampleY (AST.value (⟨0, 2 ^ 16⟩ : AST 2 (Fin 1)), AST.value (⟨0, 2 ^ 16⟩ : AST 2 Unit) ())).2| ≤ 2 ∧ stepErr 2 16 1 2 1 5 2 (1 / 4) ≤ 1 := by
  refine ⟨⟨rfl, ?_⟩, ⟨rfl, ?_⟩, ?_, ?_, ?_⟩ <;> decide +kernel

/-! ## Runs that no wrap-around spoils -/

theorem calm_update [NeZero n] {lr : ℚ} {p g : AST n ι} (hp : p.Alone) (hg : g.Alone) : Calm (update lr p g) AST.Alone := Calm.bind (calm_mulPub _ hg _) fun _ h => calm_sub hp h

theorem calm_residual [NeZero n] {x : AST n (Fin N × Fin F)} {y : AST n (Fin N)} {q : Params n F} (hy : y.Alone) (hb : q.b.Alone) : Calm (residual x y q) AST.Alone :=
  Calm.bind (calm_mul _ _ _) fun _ h => Calm.bind (calm_add h (hb.reindex _)) fun _ h => calm_sub h hy

theorem calm_epoch [NeZero n] {lr : ℚ} {x : AST n (Fin N × Fin F)} {y : AST n (Fin N)} {q : Params n F} (hy : y.Alone) (hw : q.w.Alone) (hb : q.b.Alone) :
    Calm (epoch k lr x y q) fun z => z.1.w.Alone ∧ z.1.b.Alone :=
  Calm.bind (calm_residual hy hb) fun _ hd => Calm.bind (P := AST.Alone) (Calm.bind (calm_square _) fun _ h => Svm.calm_meanRow h) fun _ _ =>
    Calm.bind (P := AST.Alone) (Calm.bind (Svm.calm_encrypt _) fun _ h1 => Calm.bind (calm_mulPub _ h1 _) fun _ _ => Calm.bind (calm_mulPub _ hd _) fun _ _ => calm_mul _ _ _) fun _ hg =>
    Calm.bind (calm_mul _ _ _) fun _ _ => Calm.bind (calm_mul _ _ _) fun _ hgw => Calm.bind (calm_update hw hgw) fun _ hw =>
    Calm.bind (calm_update hb (AST.Alone.sumFirst (hg.reindex _))) fun _ hb => Calm.pure ⟨hw, hb⟩

theorem calm_train [NeZero n] {lr : ℚ} {x : AST n (Fin N × Fin F)} {y : AST n (Fin N)} (hy : y.Alone) (T : ℕ) {q : Params n F} (hw : q.w.Alone) (hb : q.b.Alone) : Calm (train k lr x y T q) fun _ => True := by
  induction T generalizing q with
  | zero => exact Calm.pure trivial
  | succ T ih => exact Calm.bind (calm_epoch hy hw hb) fun z hz => ih hz.1 hz.2

/-- **C95.** For every number of parties and all data there is a run that no wrap-around spoils. -/
theorem C95_good_run [NeZero n] (T : ℕ) (lr : ℚ) (xv : Fin N × Fin F → ℚ) (yv : Fin N → ℚ) (w0 : Fin F → ℚ) (b0 : ℚ) : ∃ t : Tuples n, t.Valid ∧ (run k T lr xv yv w0 b0 t 0).good := by
  have h : Calm (run (n := n) k T lr xv yv w0 b0) fun _ => True :=
    Calm.bind (Svm.calm_encrypt _) fun x _ => Calm.bind (Svm.calm_encrypt _) fun y hy => Calm.bind (Svm.calm_encrypt _) fun _ hw => Calm.bind (Svm.calm_encrypt _) fun _ hb => calm_train hy T hw hb
  obtain ⟨v, c, -, -, h⟩ := h 0
  exact ⟨quiet n, quiet_valid, (h (fun _ _ => 0) fun _ _ _ => rfl).2.2⟩

/-! ## Large batches -/

section Zero
variable [NeZero n] {ι' κ : Type}

theorem alone_zero : Alone (0 : Shares n ι) := fun _ _ _ => rfl

theorem div_zero_shares (y : ι → ℤ) : divInt (⟨0, 0⟩ : WrapPair n ι) (0 : Shares n ι) y = 0 := by
  have h1 : truncLocal (0 : Shares n ι) y = 0 := by funext p i; exact tdiv_zero _
  unfold divInt
  split
  · have h2 : wrapsProtocol (⟨0, 0⟩ : WrapPair n ι) (0 : Shares n ι) = 0 := by
      funext p i
      have h3 : countWraps [(0 : I64), 0#64] = 0#64 := countWraps_alone _ _ (by simp)
      have h4 : countWraps (List.ofFn fun _ : Fin n => (0 : I64) + 0#64) = 0#64 := by
        obtain ⟨l, e1, e2⟩ := ofFn_alone (n := n) (fun _ => (0 : I64) + 0#64) fun _ _ => rfl
        rw [e1]; exact countWraps_alone _ _ e2
      show (if p = 0 then countWraps [(0 : I64), 0#64] - 0 + countWraps (List.ofFn fun _ : Fin n => (0 : I64) + 0#64) else countWraps [(0 : I64), 0#64] - 0) = 0
      rw [h3, h4]
      split <;> rfl
    show subShares (truncLocal 0 y) (mulInt (mulInt (wrapsProtocol (⟨0, 0⟩ : WrapPair n ι) 0) (fun _ => 4)) _) = 0
    rw [h1, h2]
    funext p i
    show (0 : I64) - 0 * 4 * _ = 0
    rw [zero_mul, zero_mul, sub_zero]
  · exact h1

theorem calm_div_zero (y : ι → ℤ) : Calm (Proto.divInt (0 : Shares n ι) y) fun z => z = 0 := fun c => ⟨_, c + 1, by omega, div_zero_shares y, fun _ _ => ⟨rfl, rfl, good_div alone_zero⟩⟩

theorem reveal_zero' : reveal (0 : Shares n ι) = 0 := funext fun i => reveal_zero i

theorem product_zero (B : BilinearOp ι ι' κ) (x : Shares n ι) (y : Shares n ι') (h : x = 0 ∨ y = 0) : beaverProduct B ⟨0, 0, 0⟩ x y = 0 := by
  have hsub : ∀ {ι : Type} (x : Shares n ι), subShares x 0 = x := fun x => by funext p i; exact sub_zero _
  have h1 : B.apply (reveal x) (reveal y) = 0 := by
    rcases h with h | h <;> rw [h, reveal_zero']
    · exact Program.apply_zero_left _ _
    · exact Program.apply_zero_right _ _
  show addPublic (fun p => (0 : Shares n κ) p + B.apply (reveal (subShares x 0)) ((0 : Shares n ι') p) + B.apply ((0 : Shares n ι) p) (reveal (subShares y 0))) (B.apply (reveal (subShares x 0)) (reveal (subShares y 0))) = 0
  rw [hsub, hsub, h1]
  funext p i
  show (if p = 0 then (0 + B.apply (reveal x) 0 + B.apply 0 (reveal y)) + 0 else 0 + B.apply (reveal x) 0 + B.apply 0 (reveal y)) i = 0
  rw [Program.apply_zero_left, Program.apply_zero_right]
  split <;> rfl

theorem calm_product_zero (B : BilinearOp ι ι' κ) (x : Shares n ι) (y : Shares n ι') (h : x = 0 ∨ y = 0) : Calm (Proto.mul B x y) fun z => z = 0 :=
  fun c => ⟨_, c + 1, by omega, product_zero B x y h, fun _ _ => ⟨rfl, rfl, trivial⟩⟩

/-- Nothing, at the usual scale. -/
def Nothing (k : ℕ) (x : AST n ι) : Prop := x.share = 0 ∧ x.scale = 2 ^ k

theorem calm_mul_zero (hk : 0 < k) (B : BilinearOp ι ι' κ) {x : AST n ι} {y : AST n ι'} (hx : x.scale = 2 ^ k) (hy : y.scale = 2 ^ k) (h : x.share = 0 ∨ y.share = 0) : Calm (AST.mul B x y) (Nothing k) := by
  refine Calm.bind (calm_product_zero B _ _ h) fun s hs => ?_
  have h1 : 1 < 2 ^ k := Nat.one_lt_two_pow hk.ne'
  rw [hx, hy, if_pos ⟨h1, h1⟩, hs]
  exact Calm.bind (calm_div_zero _) fun s hs => Calm.pure ⟨hs, rfl⟩

theorem calm_mulPub_zero (hk : 0 < k) (B : BilinearOp ι ι' κ) {x : AST n ι} (y : ι' → ℚ) (hx : x.scale = 2 ^ k) (h : x.share = 0 ∨ encodePublic (2 ^ k) y = 0) : Calm (AST.mulPub B x y) (Nothing k) := by
  have h1 : 1 < 2 ^ k := Nat.one_lt_two_pow hk.ne'
  have h2 : bilinearPublic B x.share (encodePublic (2 ^ k) y) = 0 := by
    funext p
    show B.apply (x.share p) (encodePublic (2 ^ k) y) = 0
    rcases h with h | h <;> rw [h]
    · exact Program.apply_zero_left _ _
    · exact Program.apply_zero_right _ _
  unfold AST.mulPub
  dsimp only
  rw [hx, if_pos h1, h2]
  exact Calm.bind (calm_div_zero _) fun s hs => Calm.pure ⟨hs, rfl⟩

theorem calm_update_zero (hk : 0 < k) {lr : ℚ} {p g : AST n ι} (hp : p.scale = 2 ^ k) (hg : Nothing k g) : Calm (update lr p g) fun z => z = p := by
  refine Calm.bind (calm_mulPub_zero hk _ _ hg.2 (Or.inl hg.1)) fun s hs => ?_
  unfold AST.sub
  rw [hp, hs.2, if_neg (lt_irrefl _), if_neg (lt_irrefl _), hs.1]
  refine Calm.pure ?_
  obtain ⟨ps, psc⟩ := p
  subst hp
  congr 1
  funext q i
  exact sub_zero _

end Zero

theorem calm_encrypt_eq [NeZero n] (x : ι → ℚ) : Calm (Svm.encrypt (n := n) k x) fun z => z = ⟨fun p => if p = 0 then encodePublic (2 ^ k) x else 0, 2 ^ k⟩ := by
  refine Calm.bind (P := fun s => s = fun p => if p = 0 then encodePublic (2 ^ k) x else 0) (fun c => ?_) fun s hs => Calm.pure (by rw [hs])
  refine ⟨_, c + 1, by omega, rfl, fun Z hZ => ⟨?_, rfl, trivial⟩⟩
  show (fun p => if p = 0 then Z c ι p + encodePublic (2 ^ k) x else Z c ι p) = _
  rw [hZ c le_rfl (by omega)]
  funext p
  split
  · exact zero_add _
  · rfl

/-- If there are more than `2 ^ k` examples, nothing changes. -/
theorem calm_epoch_large [NeZero n] (hk : 0 < k) (hN : 2 ^ k < N) {lr : ℚ} {x : AST n (Fin N × Fin F)} {y : AST n (Fin N)} {q : Params n F} (hx : x.scale = 2 ^ k) (hys : y.scale = 2 ^ k)
    (hws : q.w.scale = 2 ^ k) (hbs : q.b.scale = 2 ^ k) (hy : y.Alone) (hw : q.w.Alone) (hb : q.b.Alone) : Calm (epoch k lr x y q) fun z => z.1 = q := by
  have h1 : 1 < 2 ^ k := Nat.one_lt_two_pow hk.ne'
  have hres : Calm (residual x y q) fun z => z.Alone ∧ z.scale = 2 ^ k := by
    have hm : Calm (AST.mul (matVec F N) x q.w) fun z => z.Alone ∧ z.scale = 2 ^ k := by
      refine Calm.bind (calm_product _ _ _) fun s hs => ?_
      rw [hx, hws, if_pos ⟨h1, h1⟩]
      exact Calm.bind (calm_div hs _) fun s hs => Calm.pure ⟨hs, rfl⟩
    refine Calm.bind hm fun z hz => ?_
    have ha : Calm (z.add (q.b.reindex fun _ => ())) fun z => z.Alone ∧ z.scale = 2 ^ k := by
      unfold AST.add
      have e : (q.b.reindex fun _ : Fin N => ()).scale = 2 ^ k := hbs
      rw [hz.2, e, if_neg (lt_irrefl _), if_neg (lt_irrefl _)]
      exact Calm.pure ⟨Alone.add hz.1 (hb.reindex _), rfl⟩
    refine Calm.bind ha fun z hz => ?_
    unfold AST.sub
    rw [hz.2, hys, if_neg (lt_irrefl _), if_neg (lt_irrefl _)]
    exact Calm.pure ⟨Alone.sub hz.1 hy, rfl⟩
  have henc : encodePublic (2 ^ k) (fun _ : Fin N => 1 / (N : ℚ)) = 0 := by
    funext i
    rw [encodePublic_ofInt]
    have hNq : (2 : ℚ) ^ k < N := by exact_mod_cast hN
    have h0 : (0 : ℚ) < 2 ^ k := by positivity
    have h2 : truncQ (((2 ^ k : ℕ) : ℚ) * (1 / (N : ℚ))) = 0 := by
      push_cast
      have h3 : (0 : ℚ) ≤ 2 ^ k * (1 / N) := by positivity
      have h4 : (2 : ℚ) ^ k * (1 / N) < 1 := by
        rw [mul_one_div, div_lt_one (by linarith)]; exact hNq
      rw [truncQ, if_pos h3]
      exact Int.floor_eq_iff.2 ⟨by simpa using h3, by simpa using h4⟩
    rw [h2]; rfl
  unfold epoch
  refine Calm.bind hres fun d hd => ?_
  refine Calm.bind (P := AST.Alone) (Calm.bind (calm_square _) fun _ h => Svm.calm_meanRow h) fun _ _ => ?_
  refine Calm.bind (P := Nothing k) ?_ fun g hg => ?_
  · refine Calm.bind (calm_encrypt_eq _) fun one h1e => ?_
    refine Calm.bind (calm_mulPub_zero hk _ _ (by rw [h1e]) (Or.inr henc)) fun m hm => ?_
    have h2 : Calm (AST.mulPub (elementwise (Fin N)) d fun _ => 2) fun z => z.scale = 2 ^ k := by
      unfold AST.mulPub
      dsimp only
      rw [hd.2, if_pos h1]
      exact Calm.bind (calm_div (Alone.bilinear hd.1 _ _) _) fun s hs => Calm.pure rfl
    exact Calm.bind h2 fun t ht => calm_mul_zero hk _ hm.2 ht (Or.inl hm.1)
  refine Calm.bind (calm_mul _ _ _) fun _ _ => ?_
  refine Calm.bind (calm_mul_zero hk _ hx hg.2 (Or.inr hg.1)) fun gw hgw => ?_
  have hgb : Nothing k (g.reindex (κ := Fin N × Unit) Prod.fst).sumFirst := by
    refine ⟨?_, hg.2⟩
    funext p i
    show ∑ j : Fin N, g.share p j = 0
    rw [hg.1]
    exact Finset.sum_eq_zero fun j _ => rfl
  refine Calm.bind (calm_update_zero hk hws hgw) fun w' hw' => ?_
  refine Calm.bind (calm_update_zero hk hbs hgb) fun b' hb' => ?_
  refine Calm.pure ?_
  rw [hw', hb']

/-- **C95.** With more than `2 ^ k` examples in a batch (65536 at the default precision) the claim fails: the factor `1 / N` in the gradient of the mean is encoded as `0`, so training changes
nothing: for all data and every number of passes there is a run, which no wrap-around spoils, that returns the weights it started with, as they were encoded. -/
theorem C95_large_batch_wrong [NeZero n] (hk : 0 < k) (hN : 2 ^ k < N) (T : ℕ) (lr : ℚ) (xv : Fin N × Fin F → ℚ) (yv : Fin N → ℚ) (w0 : Fin F → ℚ) (b0 : ℚ) :
    ∃ t : Tuples n, t.Valid ∧ (run k T lr xv yv w0 b0 t 0).good ∧ (run k T lr xv yv w0 b0 t 0).val.w = ⟨fun p => if p = 0 then encodePublic (2 ^ k) w0 else 0, 2 ^ k⟩ ∧
      (run k T lr xv yv w0 b0 t 0).val.b = ⟨fun p => if p = 0 then encodePublic (2 ^ k) (fun _ => b0) else 0, 2 ^ k⟩ := by
  have hal : ∀ {ι : Type} (x : Tensor ι), AST.Alone (⟨fun p : Fin n => if p = 0 then x else 0, 2 ^ k⟩ : AST n ι) := fun x p hp i => by
    show (if p = 0 then x else 0) i = 0
    rw [if_neg hp]; rfl
  have htr : ∀ (x : AST n (Fin N × Fin F)) (y : AST n (Fin N)), x.scale = 2 ^ k → y.scale = 2 ^ k → y.Alone → ∀ (T : ℕ) (q : Params n F), q.w.scale = 2 ^ k → q.b.scale = 2 ^ k → q.w.Alone → q.b.Alone →
      Calm (train k lr x y T q) fun z => z = q := by
    intro x y hx hys hy T q hws hbs hw hb
    induction T with
    | zero => exact Calm.pure rfl
    | succ T ih =>
      refine Calm.bind (calm_epoch_large hk hN hx hys hws hbs hy hw hb) fun z hz => ?_
      rw [hz]; exact ih
  have h : Calm (run (n := n) k T lr xv yv w0 b0) fun z => z = ⟨⟨fun p => if p = 0 then encodePublic (2 ^ k) w0 else 0, 2 ^ k⟩, ⟨fun p => if p = 0 then encodePublic (2 ^ k) (fun _ => b0) else 0, 2 ^ k⟩⟩ := by
    refine Calm.bind (calm_encrypt_eq _) fun x hx => Calm.bind (calm_encrypt_eq _) fun y hy => Calm.bind (calm_encrypt_eq _) fun w hw => Calm.bind (calm_encrypt_eq _) fun b hb => ?_
    subst hx hy hw hb
    exact htr _ _ rfl rfl (hal _) T _ rfl rfl (hal _) (hal _)
  obtain ⟨v, c, -, hv, h⟩ := h 0
  have h1 := h (fun _ _ => 0) fun _ _ _ => rfl
  have e : (run k T lr xv yv w0 b0 (quiet n) 0).val = v := h1.1
  exact ⟨quiet n, quiet_valid, h1.2.2, by rw [e, hv], by rw [e, hv]⟩

/-- In plaintext the weight moves: with features and targets `1`, one pass with `lr = 1/2` takes weight and bias from `0` to `1`, for every number of examples. -/
example (hN : 0 < N) : weights (F := 1) (N := N) (1 / 2) (fun _ => 1) (fun _ => 1) (fun _ => 0) 0 1 = (fun _ => 1, 1) := by
  have hNq : (N : ℚ) ≠ 0 := by positivity
  simp only [weights, Function.iterate_one, step, gradW, gradB, Plain.residual]
  have h : ∑ _i : Fin N, (1 / (N : ℚ) * (((∑ _f : Fin 1, (1 : ℚ) * 0) + 0 - 1) * 2)) = -2 := by
    simp only [mul_zero, Finset.sum_const_zero, Finset.sum_const, Finset.card_univ, Fintype.card_fin, nsmul_eq_mul]
    field_simp
    norm_num
  simp only [one_mul] at h ⊢
  rw [h]
  norm_num

end CrypTen.Regression

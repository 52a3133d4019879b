import Verif.Model.Logistic
import Verif.Spec.Logistic
import Verif.Props.Regression
import Verif.Props.Sigmoid
import Verif.Props.Lipschitz
import Mathlib.Analysis.SpecialFunctions.Log.Deriv

/-!
# C97: logistic regression on encrypted data
-/

namespace CrypTen.Logistic
open Plain
open Regression (matVec transVec outer Params update bilinearQ_matVec bilinearQ_transVec near_sumRow)
variable {F N : ℕ} {ι : Type}

theorem unit_pos : 0 < unit := by unfold unit; positivity
theorem unit_eq : (1 / 2 ^ 16 : ℚ) = unit := rfl
theorem unit_le : unit ≤ 1 / 65536 := by unfold unit; norm_num

section
variable {X V lr : ℚ} (r : Room F N X V lr)
include r

theorem Plain.Room.errs : 0 ≤ outErr N ∧ N * outErr N ≤ gradErr N X ∧ 10 * unit * N ≤ 1 ∧ 0 ≤ logitErr F V ∧ logitErr F V ≤ 1 / 100 ∧ 0 ≤ predErr F V ∧ predErr F V ≤ 1 := by
  have hu := unit_pos
  have hu' := unit_le
  have hN : (1 : ℚ) ≤ N := by exact_mod_cast r.N0
  have hX := r.X1
  have hV := r.V1
  have h0 : 0 ≤ outErr N := by unfold outErr; positivity
  have h1 : N * outErr N ≤ gradErr N X := by
    unfold gradErr
    have : N * outErr N ≤ N * ((X + unit) * outErr N) := mul_le_mul_of_nonneg_left (by nlinarith) (by linarith)
    linarith
  have h2 : 10 * unit * N ≤ 1 := by
    have : N * (10 * unit) ≤ N * outErr N := mul_le_mul_of_nonneg_left (by unfold outErr; have : 0 ≤ unit / N := by positivity
                                                                           linarith) (by linarith)
    linarith [r.err]
  have h3 : 0 ≤ logitErr F V := by unfold logitErr; positivity
  have hFV : F * V ≤ F * (X * V) := mul_le_mul_of_nonneg_left (by nlinarith) (by positivity)
  have h4 : logitErr F V ≤ 1 / 100 := by
    unfold logitErr
    have : F * (V * unit) = F * V * unit := by ring
    rw [this]
    have : F * V ≤ 127 := by linarith [r.range]
    nlinarith
  refine ⟨h0, h1, h2, h3, h4, ?_, ?_⟩ <;> unfold predErr <;> linarith

theorem Plain.Room.N_lt : (N : ℤ) < 2 ^ 63 := by
  have h := r.errs.2.2.1
  have : (N : ℚ) < 2 ^ 63 := by unfold unit at h; linarith
  exact_mod_cast this

theorem Plain.Room.hX28 : X + 1 < 2 ^ 27 ∧ lr + 2 < 2 ^ 28 := by
  have h := r.fit
  have h1 := r.X1
  have h2 := r.lr0
  constructor <;> nlinarith

end

theorem stepErr_nonneg {X V lr : ℚ} (r : Room F N X V lr) : 0 ≤ gradErr N X ∧ 0 ≤ stepErr F N X V lr := by
  have hX := r.X1
  have hl := r.lr0
  have hu := unit_pos
  obtain ⟨h0, h1, -, -, -, h5, -⟩ := r.errs
  have hg : 0 ≤ gradErr N X := le_trans (mul_nonneg (by positivity) h0) h1
  refine ⟨hg, ?_⟩
  unfold stepErr
  positivity

/-- Logits. -/
theorem near_logits {X V lr : ℚ} (r : Room F N X V lr) {x : AST 2 (Fin N × Fin F)} {q : Params 2 F} {xv : Fin N × Fin F → ℚ} {w : Fin F → ℚ} {b : ℚ}
    (hx : Near 16 x xv unit) (hw : Near 16 q.w w 0) (hb : Near 16 q.b (fun _ => b) 0) (hxv : ∀ p, |xv p| ≤ X) (hwv : ∀ f, |w f| ≤ V) (hbv : |b| ≤ V) :
    (∀ i, |∑ f, xv (i, f) * w f + b| ≤ 127) ∧ Sat (logits x q) fun z => Near 16 z (fun i => ∑ f, xv (i, f) * w f + b) (logitErr F V) := by
  have hX := r.X1
  have hV := r.V1
  have hu := unit_pos
  have hu' := unit_le
  have hF : (0 : ℚ) ≤ F := by positivity
  have her := r.errs
  have habs : ∀ i, |∑ f, xv (i, f) * w f + b| ≤ 127 := fun i => by
    have h1 : |∑ f, xv (i, f) * w f| ≤ F * (X * V) := by
      refine (Finset.abs_sum_le_sum_abs _ _).trans ((Finset.sum_le_sum fun f _ => ?_).trans (by rw [Finset.sum_const, Finset.card_univ, Fintype.card_fin, nsmul_eq_mul]))
      rw [abs_mul]
      exact mul_le_mul (hxv _) (hwv _) (abs_nonneg _) (by linarith)
    exact (abs_add_le _ _).trans ((add_le_add h1 hbv).trans r.range)
  have hFXV : 0 ≤ F * (X * V) := by positivity
  have hFV : F * V ≤ F * (X * V) := mul_le_mul_of_nonneg_left (by nlinarith) hF
  refine ⟨habs, ?_⟩
  refine Sat.bind (P := fun z => Near 16 z (fun i => ∑ f, xv (i, f) * w f) (logitErr F V)) ?_ fun z hz => ?_
  · refine (near_bilinear (L := F) (A := X) (C := V) (by norm_num) (by norm_num) (by norm_num) (matVec F N) (fun j => by rw [matVec, List.length_map, List.length_finRange]) hu.le le_rfl (by linarith) (by linarith) hx hw hxv hwv ?_).mono
      fun z hz => Near.mono (hz.congr fun i => by rw [bilinearQ_matVec]) ?_
    · have : F * ((X + unit) * (V + 0)) = F * (X * V) + F * V * unit := by ring
      rw [this]
      have := r.range
      nlinarith
    · unfold logitErr
      refine le_of_eq ?_
      rw [div_eq_mul_one_div ((2 : ℕ) : ℚ), unit_eq]
      push_cast
      ring
  · have hbr : Near 16 (q.b.reindex fun _ : Fin N => ()) (fun _ => b) 0 := hb.reindex _
    refine SatX.sat ((near_add (B := 127) hz hbr habs ?_).mono fun z hz => hz.mono (by rw [add_zero]))
    linarith [her.2.2.2.2.1]

/-- The gradient in the logits, given the predictions `s`. -/
theorem near_outGrad {X V lr : ℚ} (r : Room F N X V lr) {s y : AST 2 (Fin N)} {sv yv : Fin N → ℚ} (hs : Near 16 s sv 0) (hy : Near 16 y yv unit) (hd : ∀ i, |sv i - yv i| ≤ 3) :
    Sat (outGrad 16 s y) fun z => Near 16 z (fun i => (sv i - yv i) / N) (outErr N) := by
  have hu := unit_pos
  have hu' := unit_le
  have hN : (1 : ℚ) ≤ N := by exact_mod_cast r.N0
  have hq : 0 ≤ unit / N := by positivity
  have hq' : unit / N ≤ unit := div_le_self hu.le hN
  refine Sat.bind (Svm.near_encrypt (B := 1) (e := 0) (fun i => by exact_mod_cast trunc_int 16 1) (fun i => by norm_num) (by norm_num)).sat fun one h1e => ?_
  refine Sat.bind (P := fun z => Near 16 z (fun i => sv i - yv i) unit) (SatX.sat ((near_sub (B := 3) hs hy hd (by linarith)).mono fun z hz => hz.mono (by rw [zero_add]))) fun d hd' => ?_
  refine Sat.bind (P := fun z => Near 16 z (fun i => (sv i - yv i) / N) (unit / N + 8 * unit)) ?_ fun m hm => ?_
  · refine (near_divInt (by norm_num) hd' (N : ℤ) (by exact_mod_cast r.N0) r.N_lt).mono fun z hz => Near.mono (hz.congr fun i => by push_cast; rfl) ?_
    push_cast
    refine le_of_eq ?_
    unfold unit
    ring
  · have hdN : ∀ i, |(sv i - yv i) / N| ≤ 3 := fun i => by
      rw [abs_div, abs_of_nonneg (show (0 : ℚ) ≤ N by positivity)]
      exact (div_le_self (abs_nonneg _) hN).trans (hd i)
    refine (near_bilinear (L := 1) (A := 3) (C := 1) (by norm_num) (by norm_num) (by norm_num) (timesScalar N) (fun j => le_rfl) (by positivity) le_rfl (by norm_num) (by norm_num) hm h1e hdN (fun i => by norm_num) ?_).mono
      fun z hz => Near.mono (hz.congr fun i => by simp [bilinearQ, timesScalar]) ?_
    · push_cast
      linarith
    · unfold outErr
      refine le_of_eq ?_
      rw [div_eq_mul_one_div ((2 : ℕ) : ℚ), unit_eq]
      push_cast
      ring

/-- An update. -/
theorem near_update {X V lr G e : ℚ} (r : Room F N X V lr) {p g : AST 2 ι} {pv gv : ι → ℚ} (he0 : 0 ≤ e) (he1 : e ≤ 1) (hG0 : 0 ≤ G) (hG : G ≤ 3 * X) (hs : e * lr + G * unit + e * unit + 2 * unit ≤ 2)
    (hp : Near 16 p pv 0) (hg : Near 16 g gv e) (hgv : ∀ i, |gv i| ≤ G) (hpv : ∀ i, |pv i - gv i * lr| ≤ 200) :
    Sat (update lr p g) fun z => Near 16 z (fun i => pv i - gv i * lr) (e * lr + G * unit + e * unit + 2 * unit) := by
  have hX := r.X1
  have hl := r.lr0
  have hu := unit_pos
  have hu' := unit_le
  have hfit := r.fit
  have h28 := r.hX28
  refine Sat.bind (P := fun z => Near 16 z (fun i => gv i * lr) (e * lr + G * unit + e * unit + 2 * unit)) ?_ fun z hz => ?_
  · refine (near_bilinearPub (L := 1) (A := G) (C := lr) (by norm_num) (by norm_num) (by norm_num) (elementwise ι) (fun _ => lr) (fun j => le_rfl) he0 hG0 hl hg hgv (fun i => by rw [abs_of_nonneg hl]) ?_ ?_).mono
      fun z hz => Near.mono (hz.congr fun i => by rw [bilinearQ_elementwise]) ?_
    · linarith [h28.2]
    · rw [unit_eq]
      push_cast
      have h1 : (G + e) * (lr + unit) ≤ 3 * (X + 1) * (lr + 2) := mul_le_mul (by linarith) (by linarith) (by linarith) (by linarith)
      linarith
    · refine le_of_eq ?_
      rw [div_eq_mul_one_div ((2 : ℕ) : ℚ), unit_eq]
      push_cast
      ring
  · refine SatX.sat ((near_sub (B := 200) hp hz hpv ?_).mono fun z hz => hz.mono (by rw [zero_add]))
    linarith

theorem mean_abs_le {K : Type} [Field K] [LinearOrder K] [IsStrictOrderedRing K] (hN : 0 < N) {X D : K} (x g : Fin N → K) (hx : ∀ i, |x i| ≤ X) (hg : ∀ i, |g i| ≤ D) : |∑ i, x i * (g i / N)| ≤ X * D := by
  have hN' : (0 : K) < N := by exact_mod_cast hN
  have h1 : ∀ i, |x i * (g i / N)| ≤ X * (D / N) := fun i => by
    rw [abs_mul, abs_div, abs_of_pos hN']
    exact mul_le_mul (hx i) (div_le_div_of_nonneg_right (hg i) hN'.le) (by positivity) ((abs_nonneg _).trans (hx i))
  have h2 := (Finset.abs_sum_le_sum_abs (fun i => x i * (g i / N)) Finset.univ).trans (Finset.sum_le_sum fun i _ => h1 i)
  rw [Finset.sum_const, Finset.card_univ, Fintype.card_fin, nsmul_eq_mul, mul_left_comm, mul_div_cancel₀ _ hN'.ne'] at h2
  exact h2

theorem logistic_mem (z : ℝ) : 0 < logistic z ∧ logistic z < 1 := by
  have h := Real.exp_pos (-z)
  unfold logistic
  exact ⟨by positivity, by rw [div_lt_one (by positivity)]; linarith⟩

/-- **C97.** One pass of the training loop, from any encrypted weights, with or without the value of the loss: the new weights and bias differ from a step of gradient descent from these weights, on real numbers, by at most
`stepErr` in each coordinate. -/
theorem C97_epoch (method : MaxMethod) (coeffs : ℕ → ℚ) (skip : Bool) {X V lr : ℚ} (r : Room F N X V lr) {x : AST 2 (Fin N × Fin F)} {y : AST 2 (Fin N)} {q : Params 2 F} {xv : Fin N × Fin F → ℚ} {yv : Fin N → ℚ}
    (hx : Near 16 x xv (1 / 2 ^ 16)) (hy : Near 16 y yv (1 / 2 ^ 16)) (hqw : q.w.scale = 2 ^ 16) (hqb : q.b.scale = 2 ^ 16) (hxv : ∀ p, |xv p| ≤ X) (hyv : ∀ i, |yv i| ≤ 1)
    (hwv : ∀ f, |q.w.value f| ≤ V) (hbv : |q.b.value ()| ≤ V) {st : (Fin F → ℝ) × ℝ} (hst : st = step lr (fun p => xv p) (fun i => yv i) (fun f => q.w.value f, q.b.value ())) (hwv' : ∀ f, |st.1 f| ≤ V) (hbv' : |st.2| ≤ V)
    (hs : stepErr F N X V lr ≤ 1) :
    Sat (epoch 16 method {} coeffs skip lr x y q) fun z => z.1.w.scale = 2 ^ 16 ∧ z.1.b.scale = 2 ^ 16 ∧ (∀ f, |(z.1.w.value f : ℝ) - st.1 f| ≤ stepErr F N X V lr) ∧ |(z.1.b.value () : ℝ) - st.2| ≤ stepErr F N X V lr := by
  rw [unit_eq] at hx hy
  have hX := r.X1
  have hV := r.V1
  have hl := r.lr0
  have hu := unit_pos
  have hu' := unit_le
  have hN : (1 : ℚ) ≤ N := by exact_mod_cast r.N0
  obtain ⟨h0, hNo, -, hl0, hl1, hp0, hp1⟩ := r.errs
  have hgr := (stepErr_nonneg r).1
  have hV127 : V ≤ 127 := by
    have : 0 ≤ F * (X * V) := by positivity
    linarith [r.range]
  have hw : Near 16 q.w q.w.value 0 := Near.self hqw
  have hb : Near 16 q.b (fun _ => q.b.value ()) 0 := Near.self hqb
  obtain ⟨hlog, hlogits⟩ := near_logits r hx hw hb hxv hwv hbv
  unfold epoch
  refine Sat.bind hlogits fun z hz => ?_
  refine Sat.bind (C53_sigmoid_default_encrypted method coeffs z hz.1 fun i => ?_) fun s hs' => ?_
  · have h1 := abs_add_le (z.value i - (∑ f, xv (i, f) * q.w.value f + q.b.value ())) (∑ f, xv (i, f) * q.w.value f + q.b.value ())
    rw [sub_add_cancel] at h1
    linarith [hz.2 i, hlog i]
  have hlogit : ∀ i, ((∑ f, xv (i, f) * q.w.value f + q.b.value () : ℚ) : ℝ) = logit (fun p => (xv p : ℝ)) (fun f => (q.w.value f : ℝ)) (q.b.value () : ℝ) i := fun i => by unfold logit; push_cast; rfl
  have hpred : ∀ i, |(s.value i : ℝ) - logistic (logit (fun p => (xv p : ℝ)) (fun f => (q.w.value f : ℝ)) (q.b.value () : ℝ) i)| ≤ predErr F V := fun i => by
    have h1 := hs'.2 i
    have h2 := Network.lip_sigmoid (z.value i : ℝ) (logit (fun p => (xv p : ℝ)) (fun f => (q.w.value f : ℝ)) (q.b.value () : ℝ) i)
    have h3 : |(z.value i : ℝ) - logit (fun p => (xv p : ℝ)) (fun f => (q.w.value f : ℝ)) (q.b.value () : ℝ) i| ≤ (logitErr F V : ℚ) := by
      rw [← hlogit]
      have := (Rat.cast_le (K := ℝ)).2 (hz.2 i)
      rwa [Rat.cast_abs, Rat.cast_sub] at this
    have h4 := abs_add_le ((s.value i : ℝ) - 1 / (1 + Real.exp (-(z.value i : ℝ)))) (1 / (1 + Real.exp (-(z.value i : ℝ))) - logistic (logit (fun p => (xv p : ℝ)) (fun f => (q.w.value f : ℝ)) (q.b.value () : ℝ) i))
    rw [sub_add_sub_cancel] at h4
    have h5 : ((predErr F V : ℚ) : ℝ) = 1 / 30 + (logitErr F V : ℚ) / 4 := by unfold predErr; push_cast; rfl
    rw [h5]
    unfold logistic at h4 ⊢
    linarith
  have hsv : ∀ i, |s.value i| ≤ 2 := fun i => by
    have h1 := hpred i
    have h2 := logistic_mem (logit (fun p => (xv p : ℝ)) (fun f => (q.w.value f : ℝ)) (q.b.value () : ℝ) i)
    have h3 : ((predErr F V : ℚ) : ℝ) ≤ 1 := by exact_mod_cast hp1
    have h4 : |(s.value i : ℝ)| ≤ 2 := by
      rw [abs_le] at h1 ⊢
      constructor <;> linarith
    exact_mod_cast h4
  have hd3 : ∀ i, |s.value i - yv i| ≤ 3 := fun i => (abs_sub _ _).trans (by linarith [hsv i, hyv i])
  refine Sat.bind (P := fun _ => True) (fun _ _ _ _ => trivial) fun loss _ => ?_
  refine Sat.bind (near_outGrad r (Near.self hs'.1) hy hd3) fun g hg => ?_
  refine Sat.bind (P := fun _ => True) (fun _ _ _ _ => trivial) fun _ _ => ?_
  have hg1 : ∀ i, |(s.value i - yv i) / N| ≤ 3 / N := fun i => by
    rw [abs_div, abs_of_nonneg (show (0 : ℚ) ≤ N by positivity)]
    exact div_le_div_of_nonneg_right (hd3 i) (by linarith)
  have hN0 : (N : ℚ) ≠ 0 := by positivity
  refine Sat.bind (P := fun z => Near 16 z (fun f => ∑ i, xv (i, f) * ((s.value i - yv i) / N)) (gradErr N X)) ?_ fun gw hgw => ?_
  · refine (near_bilinear (L := N) (A := X) (C := 3 / N) (by norm_num) (by norm_num) (by norm_num) (transVec F N) (fun j => by rw [transVec, List.length_map, List.length_finRange]) hu.le h0 (by linarith)
      (by positivity) hx hg hxv hg1 ?_).mono fun z hz => Near.mono (hz.congr fun f => by rw [bilinearQ_transVec]) ?_
    · have e : N * ((X + unit) * (3 / N + outErr N)) = (X + unit) * (3 + N * outErr N) := by
        generalize outErr N = o
        rw [mul_left_comm, mul_add (N : ℚ), mul_div_cancel₀ _ hN0]
      rw [e]
      have h1 : (X + unit) * (3 + N * outErr N) ≤ (X + 1) * 4 := mul_le_mul (by linarith) (by linarith [r.err]) (by positivity) (by linarith)
      linarith [r.hX28.1]
    · have e : (N : ℚ) * (unit * (3 / N)) = 3 * unit := by rw [mul_left_comm, mul_div_cancel₀ _ hN0, mul_comm]
      rw [mul_add, mul_add, e]
      unfold gradErr
      refine le_of_eq ?_
      rw [div_eq_mul_one_div ((2 : ℕ) : ℚ), unit_eq]
      push_cast
      ring
  have hgw1 : ∀ f, |∑ i, xv (i, f) * ((s.value i - yv i) / N)| ≤ 3 * X := fun f => (mean_abs_le r.N0 (fun i => xv (i, f)) (fun i => s.value i - yv i) (fun i => hxv _) hd3).trans (by linarith)
  have hgb1 : |∑ i, (s.value i - yv i) / N| ≤ 3 := by
    have := mean_abs_le r.N0 (X := (1 : ℚ)) (fun _ => 1) (fun i => s.value i - yv i) (fun i => by norm_num) hd3
    simpa only [one_mul] using this
  have hgb : Near 16 (g.reindex (κ := Fin N × Unit) Prod.fst).sumFirst (fun _ => ∑ i, (s.value i - yv i) / N) (N * outErr N) := near_sumRow hg hgb1 (by linarith [r.err])
  -- the exact step, with the predictions as they are
  have hcw : ∀ f, |((q.w.value f - (∑ i, xv (i, f) * ((s.value i - yv i) / N)) * lr : ℚ) : ℝ) - st.1 f| ≤ ((X * predErr F V * lr : ℚ) : ℝ) := fun f => by
    have h1 := mean_abs_le r.N0 (X := (X : ℝ)) (fun i => (xv (i, f) : ℝ)) (fun i => (s.value i : ℝ) - logistic (logit (fun p => (xv p : ℝ)) (fun f => (q.w.value f : ℝ)) (q.b.value () : ℝ) i))
      (fun i => by exact_mod_cast hxv (i, f)) hpred
    have e : ((q.w.value f - (∑ i, xv (i, f) * ((s.value i - yv i) / N)) * lr : ℚ) : ℝ) - st.1 f =
        -((∑ i, (xv (i, f) : ℝ) * (((s.value i : ℝ) - logistic (logit (fun p => (xv p : ℝ)) (fun f => (q.w.value f : ℝ)) (q.b.value () : ℝ) i)) / N)) * lr) := by
      rw [hst]
      show _ - ((q.w.value f : ℝ) - gradW _ _ _ _ f * lr) = _
      unfold gradW
      push_cast
      rw [sub_sub_sub_cancel_left, ← sub_mul, ← neg_mul, ← Finset.sum_sub_distrib, ← Finset.sum_neg_distrib]
      congr 1
      exact Finset.sum_congr rfl fun i _ => by ring
    rw [e, abs_neg, abs_mul, abs_of_nonneg (show (0 : ℝ) ≤ lr by exact_mod_cast hl)]
    push_cast
    exact mul_le_mul_of_nonneg_right h1 (by exact_mod_cast hl)
  have hcb : |((q.b.value () - (∑ i, (s.value i - yv i) / N) * lr : ℚ) : ℝ) - st.2| ≤ ((X * predErr F V * lr : ℚ) : ℝ) := by
    have h1 := mean_abs_le r.N0 (X := (X : ℝ)) (fun _ => (1 : ℝ)) (fun i => (s.value i : ℝ) - logistic (logit (fun p => (xv p : ℝ)) (fun f => (q.w.value f : ℝ)) (q.b.value () : ℝ) i))
      (fun i => by rw [abs_one]; exact_mod_cast hX) hpred
    have e : ((q.b.value () - (∑ i, (s.value i - yv i) / N) * lr : ℚ) : ℝ) - st.2 =
        -((∑ i, 1 * (((s.value i : ℝ) - logistic (logit (fun p => (xv p : ℝ)) (fun f => (q.w.value f : ℝ)) (q.b.value () : ℝ) i)) / N)) * lr) := by
      rw [hst]
      show _ - ((q.b.value () : ℝ) - gradB _ _ _ _ * lr) = _
      unfold gradB
      push_cast
      rw [sub_sub_sub_cancel_left, ← sub_mul, ← neg_mul, ← Finset.sum_sub_distrib, ← Finset.sum_neg_distrib]
      congr 1
      exact Finset.sum_congr rfl fun i _ => by ring
    rw [e, abs_neg, abs_mul, abs_of_nonneg (show (0 : ℝ) ≤ lr by exact_mod_cast hl)]
    push_cast
    exact mul_le_mul_of_nonneg_right h1 (by exact_mod_cast hl)
  have hstep : gradErr N X * lr + 3 * X * unit + gradErr N X * unit + 2 * unit + X * predErr F V * lr = stepErr F N X V lr := rfl
  have hpl : 0 ≤ X * predErr F V * lr := by positivity
  have hge : 0 ≤ gradErr N X * lr := by positivity
  have hgu : 0 ≤ gradErr N X * unit := by positivity
  have hXu : 0 ≤ 3 * X * unit := by positivity
  have small : ∀ {a : ℚ} {c : ℝ}, |(a : ℝ) - c| ≤ ((X * predErr F V * lr : ℚ) : ℝ) → |c| ≤ V → |a| ≤ 200 := fun {a c} h h' => by
    have h1 : ((X * predErr F V * lr : ℚ) : ℝ) ≤ 1 := by exact_mod_cast (by linarith : X * predErr F V * lr ≤ 1)
    have h2 : (V : ℝ) ≤ 127 := by exact_mod_cast hV127
    have h3 := abs_add_le ((a : ℝ) - c) c
    rw [sub_add_cancel] at h3
    have h4 : |(a : ℝ)| ≤ 200 := by linarith
    exact_mod_cast h4
  have total : ∀ {a b : ℚ} {c : ℝ} {e : ℚ}, |a - b| ≤ e → e + X * predErr F V * lr ≤ stepErr F N X V lr → |(b : ℝ) - c| ≤ ((X * predErr F V * lr : ℚ) : ℝ) → |(a : ℝ) - c| ≤ stepErr F N X V lr := fun {a b c e} h h' h'' => by
    have h1 : |(a : ℝ) - b| ≤ (e : ℝ) := by
      have := (Rat.cast_le (K := ℝ)).2 h
      rwa [Rat.cast_abs, Rat.cast_sub] at this
    have h2 : (e : ℝ) + ((X * predErr F V * lr : ℚ) : ℝ) ≤ stepErr F N X V lr := by exact_mod_cast h'
    have h3 := abs_add_le ((a : ℝ) - b) (b - c)
    rw [sub_add_sub_cancel] at h3
    linarith
  have hsb : N * outErr N * lr + 3 * unit + N * outErr N * unit + 2 * unit + X * predErr F V * lr ≤ stepErr F N X V lr := by
    have h3 := mul_le_mul_of_nonneg_right hNo hl
    have h4 := mul_le_mul_of_nonneg_right hNo hu.le
    have h5 : 3 * unit ≤ 3 * X * unit := mul_le_mul_of_nonneg_right (by linarith) hu.le
    linarith
  have hNo0 : 0 ≤ N * outErr N := by positivity
  refine Sat.bind (near_update (G := 3 * X) r hgr r.err (by positivity) le_rfl (by linarith) hw hgw hgw1 fun f => small (hcw f) (hwv' f)) fun w' hw' => ?_
  refine Sat.bind (near_update (G := 3) r hNo0 (by linarith [r.err]) (by norm_num) (by linarith) (by linarith) hb hgb (fun _ => hgb1) fun _ => small hcb hbv') fun b' hb' => ?_
  exact Sat.pure ⟨hw'.1, hb'.1, fun f => total (hw'.2 f) hstep.le (hcw f), total (hb'.2 ()) hsb hcb⟩

/-! ## Exact gradient descent does not increase distances -/

theorem logistic_slope (z z' : ℝ) : ∃ d, 0 ≤ d ∧ d ≤ 1 / 4 ∧ logistic z - logistic z' = d * (z - z') := by
  have key : ∀ {a b : ℝ}, a < b → logistic a ≤ logistic b := fun {a b} h => by
    unfold logistic
    exact one_div_le_one_div_of_le (by positivity) (by linarith [Real.exp_le_exp.2 (neg_le_neg h.le)])
  have main : ∀ {a b : ℝ}, a < b → ∃ d, 0 ≤ d ∧ d ≤ 1 / 4 ∧ logistic b - logistic a = d * (b - a) := fun {a b} h => by
    have h1 := Network.lip_sigmoid b a
    have h2 := key h
    have h3 : 0 < b - a := by linarith
    rw [abs_of_pos h3] at h1
    refine ⟨(logistic b - logistic a) / (b - a), div_nonneg (by linarith) h3.le, ?_, (div_mul_cancel₀ _ h3.ne').symm⟩
    rw [div_le_iff₀ h3]
    have h4 := (le_abs_self _).trans h1
    unfold logistic
    linarith
  rcases lt_trichotomy z z' with h | h | h
  · obtain ⟨d, h0, h1, h2⟩ := main h
    exact ⟨d, h0, h1, by linarith⟩
  · subst h
    exact ⟨0, le_rfl, by norm_num, by ring⟩
  · exact main h

theorem contraction (x : Fin N × Fin F → ℝ) {lr : ℝ} (hl : 0 ≤ lr) (hN : 0 < N) (h : lr * ∑ i, (∑ f, x (i, f) ^ 2 + 1) ≤ 8 * N) (v : Fin F → ℝ) (c : ℝ) (d : Fin N → ℝ) (hd0 : ∀ i, 0 ≤ d i) (hd1 : ∀ i, d i ≤ 1 / 4) :
    ∑ f, (v f - lr * ∑ i, x (i, f) * (d i * (∑ f, x (i, f) * v f + c) / N)) ^ 2 + (c - lr * ∑ i, d i * (∑ f, x (i, f) * v f + c) / N) ^ 2 ≤ ∑ f, v f ^ 2 + c ^ 2 := by
  have hNq : (0 : ℝ) < N := by exact_mod_cast hN
  set a : Fin N → ℝ := fun i => ∑ f, x (i, f) * v f + c with ha
  set s : ℝ := lr / N with hs
  set p : Fin F → ℝ := fun f => ∑ i, x (i, f) * (d i * a i) with hp
  set S : ℝ := ∑ i, d i * a i ^ 2 with hS
  have e1 : ∀ f, v f - lr * ∑ i, x (i, f) * (d i * (∑ f, x (i, f) * v f + c) / N) = v f - s * p f := fun f => by
    rw [hp, hs]
    congr 1
    rw [Finset.mul_sum, Finset.mul_sum]
    exact Finset.sum_congr rfl fun i _ => by rw [ha]; ring
  have e2 : c - lr * ∑ i, d i * (∑ f, x (i, f) * v f + c) / N = c - s * ∑ i, d i * a i := by
    rw [hs]
    congr 1
    rw [Finset.mul_sum, Finset.mul_sum]
    exact Finset.sum_congr rfl fun i _ => by rw [ha]; ring
  have e3 : ∑ f, v f * p f + c * ∑ i, d i * a i = S := by
    rw [hS, hp]
    simp only [Finset.mul_sum]
    rw [Finset.sum_comm, ← Finset.sum_add_distrib]
    refine Finset.sum_congr rfl fun i _ => ?_
    have : ∑ f, v f * (x (i, f) * (d i * a i)) = (∑ f, x (i, f) * v f) * (d i * a i) := by
      rw [Finset.sum_mul]; exact Finset.sum_congr rfl fun f _ => by ring
    rw [this]
    have : a i = ∑ f, x (i, f) * v f + c := rfl
    rw [sq]
    nth_rewrite 3 [this]
    ring
  have e0 : ∑ i, (d i * a i) ^ 2 ≤ S / 4 := by
    rw [hS, Finset.sum_div]
    refine Finset.sum_le_sum fun i _ => ?_
    have := mul_le_mul_of_nonneg_right (hd1 i) (mul_nonneg (hd0 i) (sq_nonneg (a i)))
    linarith [mul_pow (d i) (a i) 2, sq (d i), mul_assoc (d i) (d i) (a i ^ 2)]
  have e4 : ∀ f, p f ^ 2 ≤ (∑ i, x (i, f) ^ 2) * (S / 4) := fun f => (Finset.sum_mul_sq_le_sq_mul_sq _ _ _).trans (mul_le_mul_of_nonneg_left e0 (Finset.sum_nonneg fun i _ => sq_nonneg _))
  have e5 : (∑ i, d i * a i) ^ 2 ≤ N * (S / 4) := by
    have := sq_sum_le_card_mul_sum_sq (s := Finset.univ) (f := fun i => d i * a i)
    rw [Finset.card_univ, Fintype.card_fin] at this
    exact this.trans (mul_le_mul_of_nonneg_left e0 hNq.le)
  have e6 : ∑ f, p f ^ 2 + (∑ i, d i * a i) ^ 2 ≤ (∑ i, (∑ f, x (i, f) ^ 2 + 1)) * (S / 4) := by
    have h1 := Finset.sum_le_sum fun f (_ : f ∈ Finset.univ) => e4 f
    rw [← Finset.sum_mul, Finset.sum_comm] at h1
    have h2 : ∑ i, (∑ f, x (i, f) ^ 2 + 1) = ∑ i, ∑ f, x (i, f) ^ 2 + N := by
      rw [Finset.sum_add_distrib, Finset.sum_const, Finset.card_univ, Fintype.card_fin, nsmul_eq_mul, mul_one]
    rw [h2, add_mul]
    exact add_le_add h1 e5
  have hS0 : 0 ≤ S := Finset.sum_nonneg fun i _ => mul_nonneg (hd0 i) (sq_nonneg _)
  have hs0 : 0 ≤ s := by rw [hs]; positivity
  have hsA : s * ∑ i, (∑ f, x (i, f) ^ 2 + 1) ≤ 8 := by
    rw [hs, div_mul_eq_mul_div, div_le_iff₀ hNq]
    linarith
  simp only [e1]
  rw [e2]
  have e7 : ∑ f, (v f - s * p f) ^ 2 = ∑ f, v f ^ 2 - 2 * s * ∑ f, v f * p f + s ^ 2 * ∑ f, p f ^ 2 := by
    rw [Finset.mul_sum, Finset.mul_sum, ← Finset.sum_sub_distrib, ← Finset.sum_add_distrib]
    exact Finset.sum_congr rfl fun f _ => by ring
  rw [e7]
  have e8 : s ^ 2 * (∑ f, p f ^ 2 + (∑ i, d i * a i) ^ 2) ≤ 2 * s * S := by
    have h1 := mul_le_mul_of_nonneg_left e6 (sq_nonneg s)
    have h2 := mul_le_mul_of_nonneg_right hsA (mul_nonneg hs0 hS0)
    nlinarith
  nlinarith

theorem dist2_step {x : Fin N × Fin F → ℝ} {y : Fin N → ℝ} {lr : ℝ} (hl : 0 ≤ lr) (hN : 0 < N) (h : lr * ∑ i, (∑ f, x (i, f) ^ 2 + 1) ≤ 8 * N) (w w' : Fin F → ℝ) (b b' : ℝ) :
    dist2 (step lr x y (w, b)).1 (step lr x y (w, b)).2 (step lr x y (w', b')).1 (step lr x y (w', b')).2 ≤ dist2 w b w' b' := by
  choose d hd0 hd1 hd using fun i => logistic_slope (logit x w b i) (logit x w' b' i)
  have h1 := contraction x hl hN h (fun f => w f - w' f) (b - b') d hd0 hd1
  have e0 : ∀ i, logit x w b i - logit x w' b' i = ∑ f, x (i, f) * (w f - w' f) + (b - b') := fun i => by
    unfold logit
    simp only [mul_sub, Finset.sum_sub_distrib]
    ring
  unfold dist2
  refine le_trans (le_of_eq ?_) h1
  congr 1
  · refine Finset.sum_congr rfl fun f _ => ?_
    congr 1
    have h2 : gradW x y w b f - gradW x y w' b' f = ∑ i, x (i, f) * (d i * (∑ f, x (i, f) * (w f - w' f) + (b - b')) / N) := by
      rw [gradW, gradW, ← Finset.sum_sub_distrib]
      exact Finset.sum_congr rfl fun i _ => by rw [← e0, ← hd]; ring
    show w f - gradW x y w b f * lr - (w' f - gradW x y w' b' f * lr) = _
    rw [← h2]; ring
  · congr 1
    have h2 : gradB x y w b - gradB x y w' b' = ∑ i, d i * (∑ f, x (i, f) * (w f - w' f) + (b - b')) / N := by
      rw [gradB, gradB, ← Finset.sum_sub_distrib]
      exact Finset.sum_congr rfl fun i _ => by rw [← e0, ← hd]; ring
    show b - gradB x y w b * lr - (b' - gradB x y w' b' * lr) = _
    rw [← h2]; ring

theorem dist2_add {w w' z : Fin F → ℝ} {b b' c a δ : ℝ} (ha : 0 ≤ a) (hd : 0 ≤ δ) (h : dist2 w b w' b' ≤ (F + 1) * a ^ 2) (hw : ∀ f, |z f - w f| ≤ δ) (hb : |c - b| ≤ δ) :
    dist2 z c w' b' ≤ (F + 1) * (a + δ) ^ 2 := by
  have hF : (0 : ℝ) ≤ F := by positivity
  have key : ∀ {s t u : ℝ}, |s - t| ≤ δ → (s - u) ^ 2 ≤ (t - u) ^ 2 + 2 * δ * |t - u| + δ ^ 2 := fun {s t u} h => by
    have h1 : |s - u| ≤ |t - u| + δ := by
      have := abs_add_le (s - t) (t - u)
      rw [sub_add_sub_cancel] at this
      linarith
    rw [← sq_abs (s - u), ← sq_abs (t - u)]
    nlinarith [abs_nonneg (s - u), abs_nonneg (t - u)]
  set A := ∑ f, |w f - w' f| + |b - b'| with hA
  have hA0 : 0 ≤ A := add_nonneg (Finset.sum_nonneg fun _ _ => abs_nonneg _) (abs_nonneg _)
  have h1 : A ^ 2 ≤ (F + 1) * dist2 w b w' b' := by
    have := sq_sum_le_card_mul_sum_sq (s := Finset.univ) (f := fun o : Option (Fin F) => match o with | none => |b - b'| | some f => |w f - w' f|)
    rw [Finset.card_univ, Fintype.card_option, Fintype.card_fin, Fintype.sum_option, Fintype.sum_option] at this
    simp only [sq_abs] at this
    push_cast at this
    rw [hA, dist2, add_comm (∑ f, |w f - w' f|), add_comm (∑ f, (w f - w' f) ^ 2)]
    exact this
  have h2 : A ≤ (F + 1) * a := by
    refine abs_le_of_sq_le_sq' ?_ (by positivity) |>.2
    calc A ^ 2 ≤ (F + 1) * dist2 w b w' b' := h1
      _ ≤ (F + 1) * ((F + 1) * a ^ 2) := mul_le_mul_of_nonneg_left h (by positivity)
      _ = ((F + 1) * a) ^ 2 := by ring
  have h3 : dist2 z c w' b' ≤ dist2 w b w' b' + 2 * δ * A + (F + 1) * δ ^ 2 := by
    have h4 := Finset.sum_le_sum fun f (_ : f ∈ Finset.univ) => key (u := w' f) (hw f)
    have h5 := key (u := b') hb
    rw [Finset.sum_add_distrib, Finset.sum_add_distrib, ← Finset.mul_sum, Finset.sum_const, Finset.card_univ, Fintype.card_fin, nsmul_eq_mul] at h4
    unfold dist2
    rw [hA]
    linarith
  nlinarith [mul_le_mul_of_nonneg_left h2 hd]

theorem dist2_coord {w w' : Fin F → ℝ} {b b' : ℝ} (h : dist2 w b w' b' ≤ 1) : (∀ f, |w f - w' f| ≤ 1) ∧ |b - b'| ≤ 1 := by
  have h0 : ∀ f, 0 ≤ (w f - w' f) ^ 2 := fun f => sq_nonneg _
  unfold dist2 at h
  constructor
  · intro f
    have := Finset.single_le_sum (fun f _ => h0 f) (Finset.mem_univ f)
    exact abs_le_one_iff_mul_self_le_one.2 (by nlinarith [sq_nonneg (b - b')])
  · have := Finset.sum_nonneg fun f (_ : f ∈ Finset.univ) => h0 f
    exact abs_le_one_iff_mul_self_le_one.2 (by nlinarith)


theorem sat_train (method : MaxMethod) (coeffs : ℕ → ℚ) (skip : Bool) {X W lr : ℚ} (r : Room F N X (W + 1) lr) {x : AST 2 (Fin N × Fin F)} {y : AST 2 (Fin N)} {xv : Fin N × Fin F → ℚ} {yv : Fin N → ℚ}
    {w0 : Fin F → ℝ} {b0 : ℝ} {T : ℕ} (hx : Near 16 x xv (1 / 2 ^ 16)) (hy : Near 16 y yv (1 / 2 ^ 16)) (hxv : ∀ p, |xv p| ≤ X) (hyv : ∀ i, |yv i| ≤ 1) (hlr : lr * ∑ i, (∑ f, xv (i, f) ^ 2 + 1) ≤ 8 * N)
    (hT : (F + 1) * (1 / 2 ^ 16 + T * stepErr F N X (W + 1) lr) ^ 2 ≤ 1)
    (hW : ∀ t ≤ T, (∀ f, |(weights lr (fun p => xv p) (fun i => yv i) w0 b0 t).1 f| ≤ W) ∧ |(weights lr (fun p => xv p) (fun i => yv i) w0 b0 t).2| ≤ W) : ∀ (m s : ℕ), s + m = T → ∀ q : Params 2 F,
    q.w.scale = 2 ^ 16 → q.b.scale = 2 ^ 16 →
    dist2 (fun f => q.w.value f) (q.b.value ()) (weights lr (fun p => xv p) (fun i => yv i) w0 b0 s).1 (weights lr (fun p => xv p) (fun i => yv i) w0 b0 s).2 ≤ (F + 1) * (1 / 2 ^ 16 + s * stepErr F N X (W + 1) lr) ^ 2 →
    Sat (train 16 method {} coeffs skip lr x y m q) fun z =>
      dist2 (fun f => z.w.value f) (z.b.value ()) (weights lr (fun p => xv p) (fun i => yv i) w0 b0 T).1 (weights lr (fun p => xv p) (fun i => yv i) w0 b0 T).2 ≤ (F + 1) * (1 / 2 ^ 16 + T * stepErr F N X (W + 1) lr) ^ 2 := by
  have hs0q := (stepErr_nonneg r).2
  generalize hE : stepErr F N X (W + 1) lr = E at hT hs0q ⊢
  have hs0 : (0 : ℝ) ≤ E := by exact_mod_cast hs0q
  have hF : (0 : ℝ) ≤ F := by positivity
  have hT' : ((F : ℝ) + 1) * (1 / 2 ^ 16 + T * (E : ℝ)) ^ 2 ≤ 1 := by
    have := (Rat.cast_le (K := ℝ)).2 hT
    push_cast at this
    exact this
  have hlr' : (lr : ℝ) * ∑ i, (∑ f, (xv (i, f) : ℝ) ^ 2 + 1) ≤ 8 * N := by exact_mod_cast hlr
  have hbig : ∀ {s : ℕ}, s ≤ T → (1 / 2 ^ 16 + s * E : ℝ) ≤ 1 / 2 ^ 16 + T * E := fun {s} h => by
    have : (s : ℝ) ≤ T := by exact_mod_cast h
    nlinarith
  have hE0 : ∀ s : ℕ, (0 : ℝ) ≤ 1 / 2 ^ 16 + s * E := fun s => by positivity
  have hle : ∀ {s : ℕ}, s ≤ T → ((F : ℝ) + 1) * (1 / 2 ^ 16 + s * E) ^ 2 ≤ 1 := fun {s} h =>
    le_trans (mul_le_mul_of_nonneg_left (pow_le_pow_left₀ (hE0 s) (hbig h) 2) (by linarith)) hT'
  intro m
  induction m with
  | zero =>
    intro s hs q _ _ h
    rw [add_zero] at hs
    subst hs
    exact Sat.pure h
  | succ m ih =>
    intro s hs q hqw hqb h
    have e2 : weights lr (fun p => (xv p : ℝ)) (fun i => (yv i : ℝ)) w0 b0 (s + 1) =
        step lr (fun p => xv p) (fun i => yv i) ((weights lr (fun p => xv p) (fun i => yv i) w0 b0 s).1, (weights lr (fun p => xv p) (fun i => yv i) w0 b0 s).2) := Function.iterate_succ_apply' _ _ _
    have h1 := dist2_step (x := fun p => (xv p : ℝ)) (y := fun i => (yv i : ℝ)) (show (0 : ℝ) ≤ lr by exact_mod_cast r.lr0) r.N0 hlr' (fun f => q.w.value f) (weights lr (fun p => xv p) (fun i => yv i) w0 b0 s).1 (q.b.value ()) (weights lr (fun p => xv p) (fun i => yv i) w0 b0 s).2
    rw [← e2] at h1
    have hc := dist2_coord (h.trans (hle (by omega)))
    have hc' := dist2_coord ((h1.trans h).trans (hle (by omega)))
    have near : ∀ {a b : ℝ}, |a - b| ≤ 1 → |b| ≤ W → |a| ≤ ((W + 1 : ℚ) : ℝ) := fun {a b} h h' => by
      have := abs_add_le (a - b) b
      rw [sub_add_cancel] at this
      push_cast
      linarith
    have hs1 : E ≤ 1 := by
      have h2 := hle (s := 1) (by omega)
      have h3 := hE0 1
      push_cast at h2 h3
      have : (E : ℝ) ≤ 1 := by nlinarith [sq_nonneg (1 / 2 ^ 16 + 1 * (E : ℝ) - 1)]
      exact_mod_cast this
    refine Sat.bind (C97_epoch method coeffs skip r hx hy hqw hqb hxv hyv (fun f => by exact_mod_cast near (hc.1 f) ((hW s (by omega)).1 f)) (by exact_mod_cast near hc.2 (hW s (by omega)).2) rfl
      (fun f => near (hc'.1 f) ((hW (s + 1) (by omega)).1 f)) (near hc'.2 (hW (s + 1) (by omega)).2) (hE ▸ hs1)) fun z hz => ?_
    rw [hE] at hz
    refine ih (s + 1) (by omega) z.1 hz.1 hz.2.1 ?_
    have := dist2_add (hE0 s) hs0 (h1.trans h) hz.2.2.1 hz.2.2.2
    have e3 : (1 / 2 ^ 16 + ((s + 1 : ℕ) : ℝ) * E) = 1 / 2 ^ 16 + s * E + E := by push_cast; ring
    rw [e3]
    exact this

/-- **C97.** If the learning rate is at most eight times the inverse of the mean square norm of the examples (with a 1 for the bias), the weights and the bias after `T` passes are within
`sqrt (F + 1) · (1 / 2 ^ 16 + T · stepErr)` of those of gradient descent on real numbers, in Euclidean distance: the errors of the passes add up and are not magnified. -/
theorem C97_train (method : MaxMethod) (coeffs : ℕ → ℚ) (skip : Bool) {X W lr : ℚ} (r : Room F N X (W + 1) lr) {xv : Fin N × Fin F → ℚ} {yv : Fin N → ℚ} {w0 : Fin F → ℚ} {b0 : ℚ} {T : ℕ}
    (hxv : ∀ p, |xv p| ≤ X) (hyv : ∀ i, |yv i| ≤ 1) (hlr : lr * ∑ i, (∑ f, xv (i, f) ^ 2 + 1) ≤ 8 * N)
    (hT : (F + 1) * (1 / 2 ^ 16 + T * stepErr F N X (W + 1) lr) ^ 2 ≤ 1)
    (hW : ∀ t ≤ T, (∀ f, |(weights lr (fun p => xv p) (fun i => yv i) (fun f => w0 f) b0 t).1 f| ≤ W) ∧ |(weights lr (fun p => xv p) (fun i => yv i) (fun f => w0 f) b0 t).2| ≤ W) :
    Sat (run (n := 2) 16 method {} coeffs skip T lr xv yv w0 b0) fun z =>
      dist2 (fun f => z.w.value f) (z.b.value ()) (weights lr (fun p => xv p) (fun i => yv i) (fun f => w0 f) b0 T).1 (weights lr (fun p => xv p) (fun i => yv i) (fun f => w0 f) b0 T).2 ≤
        (F + 1) * (1 / 2 ^ 16 + T * stepErr F N X (W + 1) lr) ^ 2 := by
  have hX := r.X1
  have hV := r.V1
  have h0 := hW 0 (Nat.zero_le _)
  have h0w : ∀ f, |w0 f| ≤ W := fun f => by have := h0.1 f; exact_mod_cast (show |(w0 f : ℝ)| ≤ W from this)
  have h0b : |b0| ≤ W := by exact_mod_cast (show |(b0 : ℝ)| ≤ W from h0.2)
  have hW127 : W + 1 ≤ 127 := by
    have : 0 ≤ F * (X * (W + 1)) := by positivity
    linarith [r.range]
  have hX28 := r.hX28.1
  refine Sat.bind (Svm.near_encrypt (e := 1 / 2 ^ 16) (fun i => trunc_any 16 _) hxv (by norm_num; linarith)).sat fun x hx => ?_
  refine Sat.bind (Svm.near_encrypt (e := 1 / 2 ^ 16) (fun i => trunc_any 16 _) hyv (by norm_num)).sat fun y hy => ?_
  refine Sat.bind (Svm.near_encrypt (e := 1 / 2 ^ 16) (fun i => trunc_any 16 _) h0w (by norm_num; linarith)).sat fun w hw => ?_
  refine Sat.bind (Svm.near_encrypt (e := 1 / 2 ^ 16) (fun i => trunc_any 16 _) (fun _ => h0b) (by norm_num; linarith)).sat fun b hb => ?_
  refine sat_train method coeffs skip r hx hy hxv hyv hlr hT hW T 0 (Nat.zero_add T) ⟨w, b⟩ hw.1 hb.1 ?_
  have cast : ∀ {a c : ℚ}, |a - c| ≤ 1 / 2 ^ 16 → |(a : ℝ) - c| ≤ 1 / 2 ^ 16 := fun {a c} h => by
    have := (Rat.cast_le (K := ℝ)).2 h
    rw [Rat.cast_abs, Rat.cast_sub] at this
    push_cast at this
    exact this
  have h3 := dist2_add (w := fun f => (w0 f : ℝ)) (w' := fun f => (w0 f : ℝ)) (b := b0) (b' := b0) (a := 0) le_rfl (show (0 : ℝ) ≤ 1 / 2 ^ 16 by positivity) (by simp [dist2]) (fun f => cast (hw.2 f)) (cast (hb.2 ()))
  rw [Nat.cast_zero, zero_mul, add_zero]
  rw [zero_add] at h3
  exact h3

/-- With labels in `[0, 1]` a step of gradient descent moves no weight by more than `lr · X`. -/
theorem weights_le {x : Fin N × Fin F → ℝ} {y : Fin N → ℝ} {lr X B : ℝ} {w0 : Fin F → ℝ} {b0 : ℝ} (hl : 0 ≤ lr) (hN : 0 < N) (hX : 1 ≤ X) (hx : ∀ p, |x p| ≤ X) (hy : ∀ i, 0 ≤ y i ∧ y i ≤ 1)
    (hw : ∀ f, |w0 f| ≤ B) (hb : |b0| ≤ B) (t : ℕ) : (∀ f, |(weights lr x y w0 b0 t).1 f| ≤ B + t * (lr * X)) ∧ |(weights lr x y w0 b0 t).2| ≤ B + t * (lr * X) := by
  induction t with
  | zero =>
    simp only [Nat.cast_zero, zero_mul, add_zero]
    exact ⟨hw, hb⟩
  | succ t ih =>
    have e2 : weights lr x y w0 b0 (t + 1) = step lr x y (weights lr x y w0 b0 t) := Function.iterate_succ_apply' _ _ _
    rw [e2]
    generalize weights lr x y w0 b0 t = q at ih ⊢
    have hd : ∀ i, |logistic (logit x q.1 q.2 i) - y i| ≤ 1 := fun i => by
      have h1 := logistic_mem (logit x q.1 q.2 i)
      rw [abs_le]
      constructor <;> linarith [(hy i).1, (hy i).2]
    have hgw : ∀ f, |gradW x y q.1 q.2 f| ≤ X := fun f => by
      have := mean_abs_le hN (fun i => x (i, f)) (fun i => logistic (logit x q.1 q.2 i) - y i) (fun i => hx _) hd
      rwa [mul_one] at this
    have hgb : |gradB x y q.1 q.2| ≤ X := by
      have := mean_abs_le hN (X := X) (fun _ => (1 : ℝ)) (fun i => logistic (logit x q.1 q.2 i) - y i) (fun i => by rw [abs_one]; exact hX) hd
      simp only [one_mul] at this
      rwa [mul_one] at this
    have key : ∀ {a g : ℝ}, |a| ≤ B + t * (lr * X) → |g| ≤ X → |a - g * lr| ≤ B + ((t + 1 : ℕ) : ℝ) * (lr * X) := fun {a g} h h' => by
      have h1 := abs_sub a (g * lr)
      rw [abs_mul, abs_of_nonneg hl] at h1
      have h2 := mul_le_mul_of_nonneg_right h' hl
      push_cast
      linarith
    exact ⟨fun f => key (ih.1 f) (hgw f), key ih.2 hgb⟩

/-- The cross-entropy of a logit. -/
theorem entropy_eq (y z : ℝ) : -(y * Real.log (logistic z) + (1 - y) * Real.log (1 - logistic z)) = Real.log (1 + Real.exp (-z)) + (1 - y) * z := by
  have h := Real.exp_pos (-z)
  have h1 : Real.log (logistic z) = -Real.log (1 + Real.exp (-z)) := by unfold logistic; rw [one_div, Real.log_inv]
  have h2 : Real.log (1 - logistic z) = -z - Real.log (1 + Real.exp (-z)) := by
    have : 1 - logistic z = Real.exp (-z) / (1 + Real.exp (-z)) := by
      unfold logistic
      have : (1 + Real.exp (-z)) ≠ 0 := by positivity
      field_simp
      ring
    rw [this, Real.log_div h.ne' (by positivity), Real.log_exp]
  rw [h1, h2]; ring

/-- **C97.** The gradients of the specification are the derivatives of the loss: along every line through the weights `w` and the bias `b`, the derivative of the loss is the product of the gradients with the direction. -/
theorem C97_gradient (x : Fin N × Fin F → ℝ) (y : Fin N → ℝ) (w d : Fin F → ℝ) (b e : ℝ) :
    HasDerivAt (fun t : ℝ => Plain.loss x y (fun f => w f + t * d f) (b + t * e)) (∑ f, gradW x y w b f * d f + gradB x y w b * e) 0 := by
  have h1 : ∀ i, ∀ t : ℝ, logit x (fun f => w f + t * d f) (b + t * e) i = logit x w b i + t * (∑ f, x (i, f) * d f + e) := fun i t => by
    unfold logit
    rw [mul_add, Finset.mul_sum, show ∀ a b c d : ℝ, a + b + (c + d) = (a + c) + (b + d) from fun a b c d => by ring, ← Finset.sum_add_distrib]
    congr 1
    exact Finset.sum_congr rfl fun f _ => by ring
  have h2 : ∑ f, gradW x y w b f * d f + gradB x y w b * e = (∑ i, (logistic (logit x w b i) - y i) * (∑ f, x (i, f) * d f + e)) / N := by
    unfold gradW gradB
    simp only [Finset.sum_mul]
    rw [Finset.sum_comm, ← Finset.sum_add_distrib, Finset.sum_div]
    refine Finset.sum_congr rfl fun i _ => ?_
    have : ∑ f, x (i, f) * ((logistic (logit x w b i) - y i) / N) * d f = ((logistic (logit x w b i) - y i) / N) * ∑ f, x (i, f) * d f := by
      rw [Finset.mul_sum]; exact Finset.sum_congr rfl fun f _ => by ring
    rw [this]; ring
  rw [h2]
  unfold Plain.loss
  simp only [entropy_eq, h1]
  refine HasDerivAt.div_const (HasDerivAt.fun_sum fun i _ => ?_) _
  generalize logit x w b i = z
  generalize ∑ f, x (i, f) * d f + e = a
  have hz : HasDerivAt (fun t : ℝ => z + t * a) a 0 := by simpa using ((hasDerivAt_id (0 : ℝ)).mul_const a).const_add z
  have h3 := ((hz.fun_neg.exp.const_add 1).log (by positivity)).fun_add (hz.const_mul (1 - y i))
  refine h3.congr_deriv ?_
  have : (1 + Real.exp (-z)) ≠ 0 := by positivity
  rw [zero_mul, add_zero]
  unfold logistic
  field_simp
  ring

/-- The hypotheses of `C97_train` are met: the two examples of `Regression` with one feature, `1` and `-1`, and labels `1` and `0`, weight and bias `0` at first, `lr = 1/4`, three passes. The first step sets the weight to `1/8`. -/
example : Room 1 2 1 (1 + 1) (1 / 4) ∧ (∀ p, |Regression.exampleX p| ≤ 1) ∧ (∀ i, |Regression.exampleY i| ≤ 1) ∧ (1 / 4 : ℚ) * ∑ i, (∑ f, Regression.exampleX (i, f) ^ 2 + 1) ≤ 8 * (2 : ℕ) ∧
    ((1 : ℕ) + 1) * (1 / 2 ^ 16 + (3 : ℕ) * stepErr 1 2 1 (1 + 1) (1 / 4)) ^ 2 ≤ 1 := by
  refine ⟨⟨by norm_num, by norm_num, by norm_num, by norm_num, ?_, ?_, ?_⟩, ?_, ?_, ?_, ?_⟩ <;> decide +kernel

example : ∀ t ≤ 3, (∀ f, |(weights ((1 / 4 : ℚ) : ℝ) (fun p => Regression.exampleX p) (fun i => Regression.exampleY i) (fun _ => ((0 : ℚ) : ℝ)) ((0 : ℚ) : ℝ) t).1 f| ≤ ((1 : ℚ) : ℝ)) ∧
    |(weights ((1 / 4 : ℚ) : ℝ) (fun p => Regression.exampleX p) (fun i => Regression.exampleY i) (fun _ : Fin 1 => ((0 : ℚ) : ℝ)) ((0 : ℚ) : ℝ) t).2| ≤ ((1 : ℚ) : ℝ) := fun t ht => by
  have hx : ∀ p, |Regression.exampleX p| ≤ 1 := by decide +kernel
  have hy : ∀ i, 0 ≤ Regression.exampleY i ∧ Regression.exampleY i ≤ 1 := by decide +kernel
  have h := weights_le (x := fun p => (Regression.exampleX p : ℝ)) (y := fun i => (Regression.exampleY i : ℝ)) (lr := ((1 / 4 : ℚ) : ℝ)) (X := 1) (B := 0) (w0 := fun _ => ((0 : ℚ) : ℝ)) (b0 := ((0 : ℚ) : ℝ)) (by norm_num) (by norm_num)
    le_rfl (fun p => by exact_mod_cast hx p) (fun i => ⟨by exact_mod_cast (hy i).1, by exact_mod_cast (hy i).2⟩) (fun _ => by simp) (by simp) t
  have ht' : (t : ℝ) ≤ 3 := by exact_mod_cast ht
  have hle : 0 + (t : ℝ) * (((1 / 4 : ℚ) : ℝ) * 1) ≤ ((1 : ℚ) : ℝ) := by push_cast; linarith
  exact ⟨fun f => (h.1 f).trans hle, h.2.trans hle⟩

example : (step (1 / 4) (fun p => (Regression.exampleX p : ℝ)) (fun i => (Regression.exampleY i : ℝ)) (fun _ => 0, 0)).1 0 = 1 / 8 := by
  simp only [step, gradW, logistic, logit, Regression.exampleX, Regression.exampleY, Fin.sum_univ_two]
  norm_num

/-- The hypotheses of `C97_epoch` are met by these examples, encrypted by the first party, and zero weights. -/
example : Near 16 (⟨fun p => if p = 0 then encodePublic (2 ^ 16) Regression.exampleX else 0, 2 ^ 16⟩ : AST 2 _) Regression.exampleX (1 / 2 ^ 16) ∧
    Near 16 (⟨fun p => if p = 0 then encodePublic (2 ^ 16) Regression.exampleY else 0, 2 ^ 16⟩ : AST 2 _) Regression.exampleY (1 / 2 ^ 16) ∧ stepErr 1 2 1 2 (1 / 4) ≤ 1 := by
  refine ⟨⟨rfl, ?_⟩, ⟨rfl, ?_⟩, ?_⟩ <;> decide +kernel

/-! ## Runs that no wrap-around spoils -/

section Calm
variable {n : ℕ} [NeZero n]

theorem calm_lossOf (k : ℕ) (method : MaxMethod) (c : FunCfg) (skip : Bool) {s : AST n (Fin N)} (y : AST n (Fin N)) (hs : s.Alone) : Calm (lossOf k method c skip s y) fun _ => True := by
  unfold lossOf
  split_ifs
  · exact Calm.pure trivial
  · refine Calm.bind (P := AST.Alone) (Calm.bind (calm_log k method c (AST.Alone.mulInt (fun q hq i => ?_) 100)) fun _ h => Calm.pure (h.subPub _)) fun _ _ => Calm.bind (calm_mul _ _ _) fun _ h1 => Calm.bind (calm_mul _ _ _) fun _ h2 =>
      Calm.bind (calm_add h1 h2) fun _ h3 => Calm.bind (Svm.calm_meanRow h3) fun _ _ => Calm.pure trivial
    obtain ⟨j, i⟩ := i
    show (if j = 0 then s else (mpcOps n k method).rsubNum 1 s).share q i = 0
    split_ifs
    · exact hs q hq i
    · exact (hs.rsub k method 1) q hq i

theorem calm_epoch (k : ℕ) (method : MaxMethod) (c : FunCfg) (hc : c.sigmoidMethod = .reciprocal) (coeffs : ℕ → ℚ) (skip : Bool) {lr : ℚ} {x : AST n (Fin N × Fin F)} {y : AST n (Fin N)} {q : Params n F} (hy : y.Alone) (hw : q.w.Alone)
    (hb : q.b.Alone) : Calm (epoch k method c coeffs skip lr x y q) fun z => z.1.w.Alone ∧ z.1.b.Alone := by
  have hsig : ∀ z, Calm ((mpcOps n k method).sigmoid c coeffs z) (AST.Alone (ι := Fin N)) := fun z => by
    unfold Ops.sigmoid
    rw [hc]
    exact calm_sigmoidReciprocal k method c z
  exact Calm.bind (P := AST.Alone) (Calm.bind (calm_mul _ _ _) fun _ h => calm_add h (hb.reindex _)) fun z _ => Calm.bind (hsig z) fun s hs => Calm.bind (calm_lossOf k method c skip y hs) fun _ _ =>
    Calm.bind (P := AST.Alone) (Calm.bind (Svm.calm_encrypt _) fun _ _ => Calm.bind (calm_sub hs hy) fun _ h => Calm.bind (calm_divInt h _) fun _ _ => calm_mul _ _ _) fun _ hg =>
    Calm.bind (calm_mul _ _ _) fun _ _ => Calm.bind (calm_mul _ _ _) fun _ hgw => Calm.bind (Regression.calm_update hw hgw) fun _ hw =>
    Calm.bind (Regression.calm_update hb (AST.Alone.sumFirst (hg.reindex _))) fun _ hb => Calm.pure ⟨hw, hb⟩

/-- **C97.** For every number of parties and all data there is a run that no wrap-around spoils. -/
theorem C97_good_run (k : ℕ) (method : MaxMethod) (c : FunCfg) (hc : c.sigmoidMethod = .reciprocal) (coeffs : ℕ → ℚ) (skip : Bool) (T : ℕ) (lr : ℚ) (xv : Fin N × Fin F → ℚ) (yv : Fin N → ℚ) (w0 : Fin F → ℚ) (b0 : ℚ) :
    ∃ t : Tuples n, t.Valid ∧ (run k method c coeffs skip T lr xv yv w0 b0 t 0).good := by
  have ht : ∀ (x : AST n (Fin N × Fin F)) {y : AST n (Fin N)}, y.Alone → ∀ (T : ℕ) {q : Params n F}, q.w.Alone → q.b.Alone → Calm (train k method c coeffs skip lr x y T q) fun _ => True := fun x y hy T => by
    induction T with
    | zero => exact fun _ _ => Calm.pure trivial
    | succ T ih => exact fun hw hb => Calm.bind (calm_epoch k method c hc coeffs skip hy hw hb) fun z hz => ih hz.1 hz.2
  have h : Calm (run (n := n) k method c coeffs skip T lr xv yv w0 b0) fun _ => True :=
    Calm.bind (Svm.calm_encrypt _) fun x _ => Calm.bind (Svm.calm_encrypt _) fun y hy => Calm.bind (Svm.calm_encrypt _) fun _ hw => Calm.bind (Svm.calm_encrypt _) fun _ hb => ht x hy T hw hb
  obtain ⟨v, c, -, -, h⟩ := h 0
  exact ⟨quiet n, quiet_valid, (h (fun _ _ => 0) fun _ _ _ => rfl).2.2⟩

end Calm

end CrypTen.Logistic

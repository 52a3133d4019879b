import Mathlib.Algebra.BigOperators.Field
import Mathlib.Algebra.Order.Group.MinMax
import Verif.Spec.Program
import Verif.Props.FixedPoint

/-!
# Errors of whole programs

C72: a program on encrypted tensors reveals, up to the error bound of `Spec/Program.lean`, what its text means for exact numbers.
-/

namespace CrypTen
variable {n : ℕ} {ι ι' κ : Type} {k : ℕ}

/-- Division of a shared tensor by any positive integer, for every number of parties. -/
theorem sat_divInt_any [NeZero n] (hn : n < 2 ^ 60) (x : Shares n ι) (z : ℤ) (hz : 0 < z) (hz' : z < 2 ^ 63) :
    Sat (Proto.divInt x fun _ => z) fun s => ∀ i, |((reveal s i).toInt : ℚ) - (reveal x i).toInt / z| ≤ 3 * n + 2 := by
  intro T hT c hg i
  have hgood : DivGood (T.wrap c ι) x i := hg i
  have hn0 : (0 : ℤ) ≤ n := Int.natCast_nonneg n
  have key : ∃ v : ℤ, reveal (divInt (T.wrap c ι) x fun _ => z) i = BitVec.ofInt 64 v ∧ |z * v - (reveal x i).toInt| ≤ (3 * n + 2) * (z - 1) := by
    unfold DivGood at hgood
    split at hgood
    · rename_i h2
      exact C15_truncation_any_divisor_partial h2 _ (hT.wrap c ι) x (fun _ => z) i hz hz' hgood.1 hgood.2
    · rename_i h2
      refine ⟨∑ p, (x p i).toInt.tdiv z, ?_, ?_⟩
      · rw [divInt, if_neg h2, reveal_apply, ofInt_sum]
        exact Finset.sum_congr rfl fun p _ => tdivI64_ofInt _ hz hz'
      · rw [← hgood, Finset.mul_sum, ← Finset.sum_sub_distrib]
        refine (Finset.abs_sum_le_sum_abs _ _).trans ?_
        have h0 : ∀ p ∈ Finset.univ, |z * (x p i).toInt.tdiv z - (x p i).toInt| ≤ z - 1 := by
          intro p _
          have h1 := Int.mul_tdiv_add_tmod (x p i).toInt z
          have h2 := Int.tmod_lt_of_pos (x p i).toInt hz
          have h3 := Int.lt_tmod_of_pos (x p i).toInt hz
          rw [abs_le]; constructor <;> linarith
        refine (Finset.sum_le_sum h0).trans ?_
        rw [Finset.sum_const, Finset.card_univ, Fintype.card_fin, nsmul_eq_mul]
        have : (0 : ℤ) ≤ z - 1 := by omega
        push_cast
        nlinarith
  obtain ⟨v, hv, hb⟩ := key
  have hX1 := toInt_ge (reveal x i)
  have hX2 := toInt_lt (reveal x i)
  have hn' : (n : ℤ) < 2 ^ 60 := by exact_mod_cast hn
  have hv' : (reveal (divInt (T.wrap c ι) x fun _ => z) i).toInt = v := by
    rw [hv]
    have hb' := abs_le.1 hb
    rcases (show z = 1 ∨ 2 ≤ z by omega) with h0 | h0
    · subst h0
      apply toInt_ofInt64 <;> simp at hb' <;> omega
    · apply toInt_ofInt64
      · by_contra hcon
        push Not at hcon
        nlinarith [hb'.1, mul_le_mul_of_nonneg_left (show v ≤ -2 ^ 63 - 1 by omega) (show 0 ≤ z by omega)]
      · by_contra hcon
        push Not at hcon
        nlinarith [hb'.2, mul_le_mul_of_nonneg_left (show (2 : ℤ) ^ 63 ≤ v by omega) (show 0 ≤ z by omega)]
  show |((reveal (divInt (T.wrap c ι) x fun _ => z) i).toInt : ℚ) - _| ≤ _
  rw [hv']
  have hzq : (0 : ℚ) < z := by exact_mod_cast hz
  have e1 : (v : ℚ) - (reveal x i).toInt / z = ((z * v - (reveal x i).toInt : ℤ) : ℚ) / z := by push_cast; field_simp
  rw [e1, abs_div, abs_of_pos hzq, div_le_iff₀ hzq]
  have hb2 : |((z * v - (reveal x i).toInt : ℤ) : ℚ)| ≤ (3 * n + 2) * ((z : ℚ) - 1) := by exact_mod_cast hb
  have : (0 : ℚ) ≤ 3 * n + 2 := by positivity
  nlinarith

theorem Near.reindex {x : AST n ι} {v : ι → ℚ} {e : ℚ} (h : Near k x v e) (g : κ → ι) : Near k (x.reindex g) (fun i => v (g i)) e :=
  ⟨h.1, fun i => by rw [value_reindex]; exact h.2 (g i)⟩

theorem near_divInt [NeZero n] (hn : n < 2 ^ 60) {x : AST n ι} {v : ι → ℚ} {e : ℚ} (hx : Near k x v e) (z : ℤ) (hz : 0 < z) (hz' : z < 2 ^ 63) :
    Sat (x.divInt fun _ => z) fun y => Near k y (fun i => v i / z) (e / z + (3 * n + 2) / 2 ^ k) := by
  refine Sat.bind (sat_divInt_any hn x.share z hz hz') fun s hs => Sat.pure ⟨hx.1, fun i => ?_⟩
  have hzq : (0 : ℚ) < z := by exact_mod_cast hz
  have h1 := hs i
  have h3 : |((reveal s i).toInt : ℚ) / 2 ^ k - x.value i / z| ≤ (3 * n + 2) / 2 ^ k := by
    have e1 : ((reveal s i).toInt : ℚ) / 2 ^ k - x.value i / z = (((reveal s i).toInt : ℚ) - (reveal x.share i).toInt / z) / 2 ^ k := by
      rw [AST.value, hx.scaleQ]; field_simp
    rw [e1, abs_div, abs_of_pos (a := (2 : ℚ) ^ k) (by positivity)]
    exact div_le_div_of_nonneg_right h1 (by positivity)
  have h4 : |x.value i / z - v i / z| ≤ e / z := by
    rw [← sub_div, abs_div, abs_of_pos hzq]
    exact div_le_div_of_nonneg_right (hx.2 i) hzq.le
  show |((reveal s i).toInt : ℚ) / (x.scale : ℚ) - _| ≤ _
  rw [hx.scaleQ]
  have h5 := abs_add_le (((reveal s i).toInt : ℚ) / 2 ^ k - x.value i / z) (x.value i / z - v i / z)
  rw [sub_add_sub_cancel] at h5
  linarith

/-! ## Sums of products -/

theorem abs_listSum_le {α : Type} (l : List α) (f : α → ℚ) {L : ℕ} {c : ℚ} (hc : 0 ≤ c) (hL : l.length ≤ L) (h : ∀ a ∈ l, |f a| ≤ c) :
    |(l.map f).sum| ≤ L * c := by
  have h1 : |(l.map f).sum| ≤ l.length * c := by
    clear hL
    induction l with
    | nil => simp
    | cons a l ih =>
      rw [List.map_cons, List.sum_cons, List.length_cons]
      have h2 := h a (by simp)
      have h3 := ih fun b hb => h b (by simp [hb])
      have h4 := abs_add_le (f a) (l.map f).sum
      push_cast; linarith
  have h2 : (l.length : ℚ) ≤ L := by exact_mod_cast hL
  exact h1.trans (mul_le_mul_of_nonneg_right h2 hc)

theorem bilinearQ_abs_le (B : BilinearOp ι ι' κ) {a : ι → ℚ} {b : ι' → ℚ} {A C : ℚ} {L : ℕ} (j : κ) (hL : (B j).length ≤ L) (hA : 0 ≤ A) (hC : 0 ≤ C)
    (ha : ∀ i, |a i| ≤ A) (hb : ∀ i, |b i| ≤ C) : |bilinearQ B a b j| ≤ L * (A * C) :=
  abs_listSum_le _ _ (mul_nonneg hA hC) hL fun ij _ => by rw [abs_mul]; exact mul_le_mul (ha _) (hb _) (abs_nonneg _) hA

theorem bilinearQ_sub_le (B : BilinearOp ι ι' κ) {a v : ι → ℚ} {b w : ι' → ℚ} {e f A C : ℚ} {L : ℕ} (j : κ) (hL : (B j).length ≤ L)
    (he : 0 ≤ e) (hf : 0 ≤ f) (hA : 0 ≤ A) (hC : 0 ≤ C)
    (ha : ∀ i, |a i - v i| ≤ e) (hb : ∀ i, |b i - w i| ≤ f) (hv : ∀ i, |v i| ≤ A) (hw : ∀ i, |w i| ≤ C) :
    |bilinearQ B a b j - bilinearQ B v w j| ≤ L * (e * C + A * f + e * f) := by
  have e1 : bilinearQ B a b j - bilinearQ B v w j = ((B j).map fun ij => a ij.1 * b ij.2 - v ij.1 * w ij.2).sum := by
    unfold bilinearQ
    generalize B j = l
    induction l with
    | nil => simp
    | cons x l ih => rw [List.map_cons, List.map_cons, List.map_cons, List.sum_cons, List.sum_cons, List.sum_cons, ← ih]; ring
  rw [e1]
  exact abs_listSum_le _ _ (by positivity) hL fun ij _ => abs_mul_sub_mul_le (ha _) (hb _) (hv _) (hw _)

/-- A bilinear function of two encrypted tensors. -/
theorem near_bilinear [NeZero n] (hn : n < 2 ^ 60) (hk0 : 0 < k) (hk : k ≤ 62) (B : BilinearOp ι ι' κ) {x : AST n ι} {y : AST n ι'} {v : ι → ℚ} {w : ι' → ℚ}
    {e f A C : ℚ} {L : ℕ} (hL : ∀ j, (B j).length ≤ L) (he : 0 ≤ e) (hf : 0 ≤ f) (hA : 0 ≤ A) (hC : 0 ≤ C) (hx : Near k x v e) (hy : Near k y w f)
    (hv : ∀ i, |v i| ≤ A) (hw : ∀ i, |w i| ≤ C) (hfit : 2 ^ k * 2 ^ k * (L * ((A + e) * (C + f))) < 2 ^ 63) :
    Sat (AST.mul B x y) fun z => Near k z (bilinearQ B v w) (L * (e * C + A * f + e * f) + n / 2 ^ k) := by
  have hfit' : ∀ j, Fits (x.scale * y.scale * bilinearQ B x.value y.value j) := fun j => by
    refine fits_of_abs ?_ hfit
    rw [hx.scaleQ, hy.scaleQ, abs_mul, abs_of_pos (a := (2 : ℚ) ^ k * 2 ^ k) (by positivity)]
    exact mul_le_mul_of_nonneg_left (bilinearQ_abs_le B j (hL j) (by positivity) (by positivity) (fun i => hx.abs_le (hv i)) fun i => hy.abs_le (hw i)) (by positivity)
  refine (C56_mul_equal_scales hn B x y k hk0 hk hx.1 hy.1 hfit').mono fun z hz => ⟨hz.1.trans hx.1, fun j => ?_⟩
  have h1 := hz.2 j
  rw [hx.scaleQ] at h1
  have h2 := bilinearQ_sub_le B j (hL j) he hf hA hC hx.2 hy.2 hv hw
  have h3 := abs_add_le (z.value j - bilinearQ B x.value y.value j) (bilinearQ B x.value y.value j - bilinearQ B v w j)
  rw [sub_add_sub_cancel] at h3
  linarith

/-- A bilinear function of an encrypted and a public tensor. -/
theorem near_bilinearPub [NeZero n] (hn : n < 2 ^ 60) (hk0 : 0 < k) (hk : k ≤ 62) (B : BilinearOp ι ι' κ) {x : AST n ι} {v : ι → ℚ} (y : ι' → ℚ)
    {e A C : ℚ} {L : ℕ} (hL : ∀ j, (B j).length ≤ L) (he : 0 ≤ e) (hA : 0 ≤ A) (hC : 0 ≤ C) (hx : Near k x v e) (hv : ∀ i, |v i| ≤ A) (hy : ∀ i, |y i| ≤ C)
    (hfity : 2 ^ k * C < 2 ^ 63) (hfit : 2 ^ k * 2 ^ k * (L * ((A + e) * (C + 1 / 2 ^ k))) < 2 ^ 63) :
    Sat (AST.mulPub B x y) fun z => Near k z (bilinearQ B v y) (L * (e * C + A * (1 / 2 ^ k) + e * (1 / 2 ^ k)) + n / 2 ^ k) := by
  have hb : ∀ i, |(truncQ (x.scale * y i) : ℚ) / x.scale - y i| ≤ 1 / 2 ^ k := fun i => by rw [hx.scaleQ]; exact trunc_any k (y i)
  have hb' : ∀ i, |(truncQ (x.scale * y i) : ℚ) / x.scale| ≤ C + 1 / 2 ^ k := fun i => by
    have := abs_add_le ((truncQ (x.scale * y i) : ℚ) / x.scale - y i) (y i)
    rw [sub_add_cancel] at this
    linarith [hb i, hy i]
  have hfit' : ∀ j, Fits (x.scale * x.scale * bilinearQ B x.value (fun i => (truncQ (x.scale * y i) : ℚ) / x.scale) j) := fun j => by
    refine fits_of_abs ?_ hfit
    rw [abs_mul]
    rw [show |(x.scale : ℚ) * x.scale| = 2 ^ k * 2 ^ k by rw [hx.scaleQ, abs_of_pos (by positivity)]]
    exact mul_le_mul_of_nonneg_left (bilinearQ_abs_le B j (hL j) (by positivity) (by positivity) (fun i => hx.abs_le (hv i)) hb') (by positivity)
  refine (C56_mul_public hn B x y k hk0 hk hx.1 (fun i => ?_) hfit').mono fun z hz => ⟨hz.1.trans hx.1, fun j => ?_⟩
  · rw [hx.scaleQ, abs_mul, abs_of_pos (a := (2 : ℚ) ^ k) (by positivity)]
    exact lt_of_le_of_lt (mul_le_mul_of_nonneg_left (hy i) (by positivity)) hfity
  have h1 := hz.2 j
  rw [show (n : ℚ) / x.scale = n / 2 ^ k by rw [hx.scaleQ]] at h1
  have h2 := bilinearQ_sub_le B j (hL j) he (f := 1 / 2 ^ k) (by positivity) hA hC hx.2 hb hv hy
  have h3 := abs_add_le (z.value j - bilinearQ B x.value (fun i => (truncQ (x.scale * y i) : ℚ) / x.scale) j)
    (bilinearQ B x.value (fun i => (truncQ (x.scale * y i) : ℚ) / x.scale) j - bilinearQ B v y j)
  rw [sub_add_sub_cancel] at h3
  linarith

/-! ## Linear functions -/

theorem near_addPub [NeZero n] {x : AST n ι} {v : ι → ℚ} {e B : ℚ} (hx : Near k x v e) (y : ι → ℚ)
    (hB : ∀ i, |v i + y i| ≤ B) (hfit : 2 ^ k * (B + (e + 1 / 2 ^ k)) < 2 ^ 63) : Near k (x.addPub y) (fun i => v i + y i) (e + 1 / 2 ^ k) := by
  have hd : ∀ i, |x.value i + (truncQ (2 ^ k * y i) : ℚ) / 2 ^ k - (v i + y i)| ≤ e + 1 / 2 ^ k := fun i => by
    have e1 : x.value i + (truncQ (2 ^ k * y i) : ℚ) / 2 ^ k - (v i + y i) = (x.value i - v i) + ((truncQ (2 ^ k * y i) : ℚ) / 2 ^ k - y i) := by ring
    rw [e1]; exact (abs_add_le _ _).trans (add_le_add (hx.2 i) (trunc_any k (y i)))
  refine ⟨hx.1, fun i => ?_⟩
  rw [addPub_value x _ (by rw [hx.1]; exact Nat.two_pow_pos k) i, hx.scaleQ]
  · exact hd i
  · rw [hx.scaleQ]
    refine fits_of_abs ?_ hfit
    rw [abs_mul, abs_of_pos (a := (2 : ℚ) ^ k) (by positivity)]
    refine mul_le_mul_of_nonneg_left ?_ (by positivity)
    have h1 := hd i
    have h2 := abs_add_le (x.value i + (truncQ (2 ^ k * y i) : ℚ) / 2 ^ k - (v i + y i)) (v i + y i)
    rw [sub_add_cancel] at h2
    have := hB i
    linarith

/-- A word computed as an integer linear combination of the revealed words has the corresponding value, if that fits. -/
theorem near_of_word {z : AST n ι} {v : ι → ℚ} {e B : ℚ} (hs : z.scale = 2 ^ k) (w : ι → ℤ) (hw : ∀ i, reveal z.share i = BitVec.ofInt 64 (w i))
    (h : ∀ i, |(w i : ℚ) / 2 ^ k - v i| ≤ e) (hB : ∀ i, |v i| ≤ B) (hfit : 2 ^ k * (B + e) < 2 ^ 63) : Near k z v e := by
  refine ⟨hs, fun i => ?_⟩
  have hk : (0 : ℚ) < 2 ^ k := by positivity
  have h1 : |(w i : ℚ)| < 2 ^ 63 := by
    have h2 : |(w i : ℚ) / 2 ^ k| ≤ B + e := by
      have := abs_add_le ((w i : ℚ) / 2 ^ k - v i) (v i)
      rw [sub_add_cancel] at this
      linarith [h i, hB i]
    rw [abs_div, abs_of_pos hk, div_le_iff₀ hk] at h2
    linarith
  have h2 : |w i| < 2 ^ 63 := by exact_mod_cast h1
  rw [abs_lt] at h2
  rw [AST.value, hs, hw, toInt_ofInt64 (by omega) (by omega)]
  push_cast
  exact h i

theorem near_mulInt [NeZero n] {x : AST n ι} {v : ι → ℚ} {e B : ℚ} (hx : Near k x v e) (z : ℤ) (hB : ∀ i, |v i * z| ≤ B)
    (hfit : 2 ^ k * (B + e * |(z : ℚ)|) < 2 ^ 63) : Near k (x.mulInt z) (fun i => v i * z) (e * |(z : ℚ)|) := by
  refine near_of_word hx.1 (fun i => (reveal x.share i).toInt * z) (fun i => ?_) (fun i => ?_) hB hfit
  · rw [AST.mulInt, reveal_apply, ofInt_mul64, ofInt_toInt, reveal_apply, Finset.sum_mul]; rfl
  · have h1 := hx.2 i
    rw [AST.value, hx.scaleQ] at h1
    have e1 : (((reveal x.share i).toInt * z : ℤ) : ℚ) / 2 ^ k - v i * z = (((reveal x.share i).toInt : ℚ) / 2 ^ k - v i) * z := by push_cast; ring
    rw [e1, abs_mul]
    exact mul_le_mul_of_nonneg_right h1 (abs_nonneg _)

theorem near_sumFirst {m : ℕ} {x : AST n (Fin m × ι)} {v : Fin m × ι → ℚ} {e B : ℚ} (hx : Near k x v e) (hB : ∀ i, |∑ j, v (j, i)| ≤ B)
    (hfit : 2 ^ k * (B + m * e) < 2 ^ 63) : Near k x.sumFirst (fun i => ∑ j, v (j, i)) (m * e) := by
  refine near_of_word hx.1 (fun i => ∑ j, (reveal x.share (j, i)).toInt) (fun i => ?_) (fun i => ?_) hB hfit
  · rw [reveal_sumFirst, ofInt_sum]
    exact Finset.sum_congr rfl fun j _ => (ofInt_toInt _).symm
  · have e1 : ((∑ j, (reveal x.share (j, i)).toInt : ℤ) : ℚ) / 2 ^ k - ∑ j, v (j, i) = ∑ j, (x.value (j, i) - v (j, i)) := by
      rw [Finset.sum_sub_distrib]
      simp only [AST.value, hx.scaleQ]
      rw [← Finset.sum_div]; push_cast; rfl
    rw [e1]
    refine (Finset.abs_sum_le_sum_abs _ _).trans ((Finset.sum_le_card_nsmul _ _ e fun j _ => hx.2 (j, i)).trans ?_)
    simp

theorem near_relu [NeZero n] {x : AST n ι} {v : ι → ℚ} {e : ℚ} (hx : Near k x v e) : SatX (x.relu (2 ^ k)) fun z => Near k z (fun i => max (v i) 0) e := by
  refine (C23_relu (Nat.two_pow_pos k) x (Or.inr hx.1)).mono fun z hz => ⟨hz.1.trans hx.1, fun i => ?_⟩
  rw [hz.2]
  exact (abs_max_sub_max_le_abs _ _ _).trans (hx.2 i)

theorem largest_isGreatest {m : ℕ} (hm : 0 < m) (v : Fin m → ℚ) : IsGreatest (Set.range v) (Program.largest v) := by
  unfold Program.largest
  have hne : List.ofFn v ≠ [] := by
    intro h; have := congrArg List.length h; rw [List.length_ofFn] at this; simp at this; omega
  obtain ⟨a, ha⟩ : ∃ a, (List.ofFn v).max? = some a := by
    cases h : (List.ofFn v).max? with
    | none => exact absurd (List.max?_eq_none_iff.1 h) hne
    | some a => exact ⟨a, rfl⟩
  rw [ha, Option.getD_some]
  rw [List.max?_eq_some_iff] at ha
  refine ⟨List.mem_ofFn.1 ha.1, ?_⟩
  rintro _ ⟨j, rfl⟩
  exact ha.2 _ (List.mem_ofFn.2 ⟨j, rfl⟩)

theorem near_max [NeZero n] (hk : k ≤ 62) {m : ℕ} (hm : 0 < m) (hm' : 2 ^ k * m < 2 ^ 63) (method : MaxMethod) {x : AST n (Fin m × ι)} {v : Fin m × ι → ℚ} {e B : ℚ}
    (hx : Near k x v e) (hB : ∀ i, |v i| ≤ B) (hfit : 2 ^ k * (2 * (B + e)) < 2 ^ 63) :
    SatX (x.maxFirst k method) fun z => Near k z (fun i => Program.largest fun j => v (j, i)) e := by
  have hd : DiffFits x := fun q i j => by
    refine fits_of_abs ?_ hfit
    rw [hx.scaleQ, abs_mul, abs_of_pos (a := (2 : ℚ) ^ k) (by positivity)]
    have h1 := hx.abs_le (hB (i, q))
    have h2 := hx.abs_le (hB (j, q))
    exact mul_le_mul_of_nonneg_left ((abs_sub _ _).trans (by linarith)) (by positivity)
  refine (C24_max k hk hm hm' method x (Or.inr hx.1) hd).mono fun z hz => ⟨hz.1.trans hx.1, fun i => ?_⟩
  obtain ⟨⟨j, hj⟩, h2⟩ := hz.2 i
  obtain ⟨⟨l, hl⟩, h4⟩ := largest_isGreatest hm fun j => v (j, i)
  have a1 := h2 ⟨l, rfl⟩
  have a2 := h4 ⟨j, rfl⟩
  have b1 := abs_le.1 (hx.2 (j, i))
  have b2 := abs_le.1 (hx.2 (l, i))
  beta_reduce at hj hl a1 a2
  rw [abs_le]
  constructor <;> linarith [b1.1, b1.2, b2.1, b2.2]

/-! ## Programs -/

namespace Program
variable {sh : ℕ → Type}

@[simp] theorem set_self {α : Type → Type} (R : ∀ r, α (sh r)) (d : ℕ) (x : α (sh d)) : set R d x d = x := by rw [set, dif_pos rfl]

theorem set_ne {α : Type → Type} (R : ∀ r, α (sh r)) {d r : ℕ} (x : α (sh d)) (h : r ≠ d) : set R d x r = R r := by rw [set, dif_neg h]

/-- The exact values and their bounds in every register. -/
def Bounded (V : Nums sh) (M : ℕ → ℚ) : Prop := ∀ r i, |V r i| ≤ M r

theorem sat_encryptA (src : Fin n) (x : Tensor ι) : SatX (Proto.encryptA src x) fun s => reveal s = x := by
  intro T hT c
  refine ⟨trivial, funext fun i => ?_⟩
  show reveal (fun p => if p = src then T.zeroA c ι p + x else T.zeroA c ι p) i = x i
  have h0 := hT.zeroA c ι i
  rw [reveal_apply] at h0 ⊢
  have : ∀ p, (if p = src then T.zeroA c ι p + x else T.zeroA c ι p) i = T.zeroA c ι p i + if p = src then x i else 0 := by
    intro p; split <;> simp
  rw [Finset.sum_congr rfl fun p _ => this p, Finset.sum_add_distrib, h0, zero_add, Finset.sum_ite_eq' Finset.univ src]
  simp

theorem sat_op [NeZero n] (hn : n < 2 ^ 60) (hk0 : 0 < k) (hk : k ≤ 62) {d : ℕ} (op : Op n sh d) (c : Info) {R : Regs n sh} {V : Nums sh} {M E : ℕ → ℚ}
    (hM : ∀ r, 0 ≤ M r) (hE : ∀ r, 0 ≤ E r) (hV : Bounded V M) (h : Holds k R V E) (hw : ∀ i, |op.exact V i| ≤ M d) (hs : op.Safe k M E c) :
    Sat (op.run k R) fun x => Near k x (op.exact V) (op.err n k M E c) := by
  have N : ∀ r, Near k (R r) (V r) (E r) := h
  cases op with
  | input src x =>
    refine Sat.bind (sat_encryptA src _).sat fun s hs' => Sat.pure (near_of_word rfl (fun i => truncQ (2 ^ k * x i)) (fun i => ?_) (fun i => trunc_any k (x i)) hw ?_)
    · show reveal s i = _
      rw [hs', encodePublic_ofInt]; push_cast; rfl
    · exact hs
  | add a b f g => exact (near_add ((N a).reindex f) ((N b).reindex g) hw hs).sat
  | sub a b f g => exact (near_sub ((N a).reindex f) ((N b).reindex g) hw hs).sat
  | neg a f => exact Sat.pure (near_neg ((N a).reindex f) (fun i => hV a _) hs)
  | addPub a f y => exact Sat.pure (near_addPub ((N a).reindex f) y hw hs)
  | mulInt a f z => exact Sat.pure (near_mulInt ((N a).reindex f) z hw hs)
  | mul a b B => exact near_bilinear hn hk0 hk B hs.1 (hE a) (hE b) (hM a) (hM b) (N a) (N b) (hV a) (hV b) hs.2
  | mulPub a m B y => exact near_bilinearPub hn hk0 hk B y hs.1 (hE a) (hM a) hs.2.1 (N a) (hV a) hs.2.2.1 hs.2.2.2.1 hs.2.2.2.2
  | square a f =>
    refine (near_square hn hk ((N a).reindex f) (fun i => hV a _) hs).mono fun x hx => hx.congr fun i => ?_
    exact (sq _).symm
  | divInt a f z => exact near_divInt hn ((N a).reindex f) z hs.1 hs.2
  | reindex a f => exact Sat.pure ((N a).reindex f)
  | sum a m f =>
    have hw' : ∀ i, |∑ j, V a (f (j, i))| ≤ M d := hw
    have hs' : (2 : ℚ) ^ k * (M d + m * E a) < 2 ^ 63 := hs
    have h1 := near_sumFirst (v := fun i => V a (f i)) ((N a).reindex f) hw' hs'
    show Sat (pure ((R a).reindex f).sumFirst) fun x => Near k x (fun i => ∑ j, V a (f (j, i))) (m * E a)
    exact Sat.pure h1
  | relu a f =>
    have h1 := (near_relu ((N a).reindex f)).sat
    show Sat (((R a).reindex f).relu (2 ^ k)) fun x => Near k x (fun i => Max.max (V a (f i)) 0) (E a)
    exact h1
  | max a m f method =>
    have hs' : 0 < m ∧ 2 ^ k * m < 2 ^ 63 ∧ (2 : ℚ) ^ k * (2 * (M a + E a)) < 2 ^ 63 := hs
    have h1 := (near_max hk hs'.1 hs'.2.1 method ((N a).reindex f) (fun i => hV a _) hs'.2.2).sat
    show Sat (((R a).reindex f).maxFirst k method) fun x => Near k x (fun i => largest fun j => V a (f (j, i))) (E a)
    exact h1

theorem err_nonneg {d : ℕ} (op : Op n sh d) (c : Info) {M E : ℕ → ℚ} (hM : ∀ r, 0 ≤ M r) (hE : ∀ r, 0 ≤ E r) (hs : op.Safe k M E c) : 0 ≤ op.err n k M E c := by
  have hk : (0 : ℚ) < 2 ^ k := by positivity
  cases op with
  | input => exact (by positivity : (0 : ℚ) ≤ 1 / 2 ^ k)
  | add a b => exact add_nonneg (hE a) (hE b)
  | sub a b => exact add_nonneg (hE a) (hE b)
  | neg a => exact hE a
  | addPub a => exact add_nonneg (hE a) (by positivity)
  | mulInt a f z => exact mul_nonneg (hE a) (abs_nonneg _)
  | mul a b B =>
    have := hE a; have := hE b; have := hM a; have := hM b
    show 0 ≤ (c.terms : ℚ) * (E a * M b + M a * E b + E a * E b) + n / 2 ^ k
    positivity
  | mulPub a m B y =>
    have := hE a; have := hM a; have := hs.2.1
    show 0 ≤ (c.terms : ℚ) * (E a * c.pub + M a * (1 / 2 ^ k) + E a * (1 / 2 ^ k)) + n / 2 ^ k
    positivity
  | square a f =>
    have := hE a; have := hM a
    show 0 ≤ E a * (2 * M a + E a) + n / 2 ^ k
    positivity
  | divInt a f z =>
    have := hE a
    have : (0 : ℚ) < z := by exact_mod_cast hs.1
    show 0 ≤ E a / z + (3 * n + 2) / 2 ^ k
    positivity
  | reindex a => exact hE a
  | sum a m f => exact mul_nonneg (Nat.cast_nonneg m) (hE a)
  | relu a => exact hE a
  | max a => exact hE a

theorem holds_set {R : Regs n sh} {V : Nums sh} {E : ℕ → ℚ} (h : Holds k R V E) (d : ℕ) {x : AST n (sh d)} {v : sh d → ℚ} {e : ℚ} (hx : Near k x v e) :
    Holds k (set (α := AST n) R d x) (set (α := fun ι => ι → ℚ) V d v) (Function.update E d e) := by
  intro r
  by_cases hr : r = d
  · subst hr
    rw [set_self, set_self, Function.update_self]; exact hx
  · rw [set_ne _ _ hr, set_ne _ _ hr, Function.update_of_ne hr]; exact h r

/-- **C72 (values).** -/
theorem C72_program [NeZero n] (hn : n < 2 ^ 60) (hk0 : 0 < k) (hk : k ≤ 62) (prog : Prog n sh) (cs : List Info) (R : Regs n sh) (V : Nums sh) (M E : ℕ → ℚ)
    (hM : ∀ r, 0 ≤ M r) (hE : ∀ r, 0 ≤ E r) (hV : ∀ r i, |V r i| ≤ M r) (h : Holds k R V E) (hw : Within M prog V) (hs : Safe k M cs prog E) :
    Sat (run k prog R) fun R' => Holds k R' (exact prog V) (errs k M cs prog E) := by
  induction prog generalizing cs R V E with
  | nil => cases cs <;> exact Sat.pure h
  | cons l rest ih =>
    obtain ⟨d, op⟩ := l
    cases cs with
    | nil => exact hs.elim
    | cons c cs =>
      refine Sat.bind (sat_op hn hk0 hk op c hM hE hV h hw.1 hs.1) fun x hx => ?_
      refine ih cs _ _ _ (fun r => ?_) (fun r i => ?_) (holds_set h d hx) hw.2 hs.2
      · by_cases hr : r = d
        · subst hr; rw [Function.update_self]; exact err_nonneg op c hM hE hs.1
        · rw [Function.update_of_ne hr]; exact hE r
      · by_cases hr : r = d
        · subst hr; rw [set_self]; exact hw.1 i
        · rw [set_ne _ _ hr]; exact hV r i

/-! ## What is revealed -/

/-- **C72 (revealed numbers).** Numbers not below -1 are revealed with the error of the computation alone. Missing: smaller numbers, see `C72_reveal_any_partial` and `C72_reveal_wrong`. -/
theorem C72_reveal_partial [NeZero n] (hn : n < 2 ^ 60) (hk0 : 0 < k) (hk : k ≤ 62) (prog : Prog n sh) (cs : List Info) (R : Regs n sh) (V : Nums sh) (M E : ℕ → ℚ)
    (hM : ∀ r, 0 ≤ M r) (hE : ∀ r, 0 ≤ E r) (hV : ∀ r i, |V r i| ≤ M r) (h : Holds k R V E) (hw : Within M prog V) (hs : Safe k M cs prog E)
    (r : ℕ) (i : sh r) (hlow : -1 + errs k M cs prog E r ≤ exact prog V r i) :
    Sat (run k prog R) fun R' => ∃ v, plain R' r i = some v ∧ |v - exact prog V r i| ≤ errs k M cs prog E r := by
  refine (C72_program hn hk0 hk prog cs R V M E hM hE hV h hw hs).mono fun R' h' => ?_
  obtain ⟨h1, h2⟩ := h' r
  refine ⟨(R' r).value i, ?_, h2 i⟩
  have h3 := (abs_le.1 (h2 i)).1
  unfold plain
  rw [h1, C06_decode_exact_partial (2 ^ k) (Nat.one_lt_two_pow hk0.ne') (Nat.pow_lt_pow_right (by norm_num) (by omega))]
  · rw [AST.value, h1]
  · have h4 : (-1 : ℚ) ≤ (R' r).value i := by linarith
    rw [AST.value, h1, le_div_iff₀ (by positivity)] at h4
    have h5 : (((-1 * (2 ^ k : ℕ) : ℤ)) : ℚ) ≤ ((reveal (R' r).share i).toInt : ℤ) := by push_cast at h4 ⊢; exact h4
    have := Int.cast_le.1 h5
    omega

/-- **C72 (revealed numbers, general).** The decoder adds at most `1 + |v| / (2 ^ k - 1)`, and only downwards. -/
theorem C72_reveal_any_partial [NeZero n] (hn : n < 2 ^ 60) (hk0 : 0 < k) (hk : k ≤ 62) (prog : Prog n sh) (cs : List Info) (R : Regs n sh) (V : Nums sh) (M E : ℕ → ℚ)
    (hM : ∀ r, 0 ≤ M r) (hE : ∀ r, 0 ≤ E r) (hV : ∀ r i, |V r i| ≤ M r) (h : Holds k R V E) (hw : Within M prog V) (hs : Safe k M cs prog E) (r : ℕ) (i : sh r) :
    Sat (run k prog R) fun R' => ∃ v, plain R' r i = some v ∧ v ≤ exact prog V r i + errs k M cs prog E r ∧
      exact prog V r i - errs k M cs prog E r - (1 + (|exact prog V r i| + errs k M cs prog E r) / (2 ^ k - 1)) ≤ v := by
  refine (C72_program hn hk0 hk prog cs R V M E hM hE hV h hw hs).mono fun R' h' => ?_
  obtain ⟨h1, h2⟩ := h' r
  have h2k : 2 ≤ 2 ^ k := Nat.one_lt_two_pow hk0.ne'
  obtain ⟨v, hv, hle, hge⟩ := C06_decode_error_bound_partial (2 ^ k) h2k (Nat.pow_lt_pow_right (by norm_num) (by omega)) (reveal (R' r).share i)
  have hval : (((reveal (R' r).share i).toInt : ℤ) : ℚ) / ((2 ^ k : ℕ) : ℚ) = (R' r).value i := by rw [AST.value, h1]
  rw [hval] at hle hge
  have h3 := abs_le.1 (h2 i)
  have h4 : |(R' r).value i| ≤ |exact prog V r i| + errs k M cs prog E r := by
    have := abs_add_le ((R' r).value i - exact prog V r i) (exact prog V r i)
    rw [sub_add_cancel] at this
    linarith [h2 i]
  have hq : (0 : ℚ) < 2 ^ k - 1 := by have : (2 : ℚ) ≤ 2 ^ k := by exact_mod_cast h2k
                                      linarith
  have h5 : |(R' r).value i| / (((2 ^ k : ℕ) : ℚ) - 1) ≤ (|exact prog V r i| + errs k M cs prog E r) / (2 ^ k - 1) := by
    push_cast
    exact div_le_div_of_nonneg_right h4 hq.le
  refine ⟨v, by unfold plain; rw [h1]; exact hv, by linarith [h3.2], by linarith [h3.1]⟩

/-- **C72 fails** for what is revealed (the decoder of C06): a program that encrypts -1000000 and does nothing else reveals -1000015. Its value was exact. -/
theorem C72_reveal_wrong [NeZero n] (src : Fin n) (R : Regs n fun _ => Unit) :
    SatX (run 16 [⟨0, .input src fun _ => -1000000⟩] R) fun R' => (R' 0).value () = -1000000 ∧ plain R' 0 () = some (-1000015) := by
  have h1 : SatX ((Op.input (sh := fun _ => Unit) (d := 0) src fun _ => -1000000).run 16 R) fun x => x.scale = 2 ^ 16 ∧ reveal x.share = encodePublic (2 ^ 16) fun _ => -1000000 :=
    SatX.bind (sat_encryptA src _) fun s hs => SatX.pure ⟨rfl, hs⟩
  refine SatX.bind h1 fun x hx => SatX.pure ?_
  have hword : reveal x.share () = BitVec.ofInt 64 (-65536000000) := by
    rw [hx.2, encodePublic_ofInt]
    have : ((2 ^ 16 : ℕ) : ℚ) * -1000000 = ((-65536000000 : ℤ) : ℚ) := by norm_num
    rw [this, truncQ_intCast]
  constructor
  · rw [set_self, AST.value, hword, hx.1]
    have : (BitVec.ofInt 64 (-65536000000)).toInt = -65536000000 := by decide
    rw [this]; norm_num
  · unfold plain
    rw [set_self, hx.1, hword]; exact C06_decode_not_exact.2

/-! ## There are such programs and runs -/

/-- With one party the truncations are never spoilt, and the theorem holds of every run. -/
theorem good_one_op {k : ℕ} (hk : k ≤ 62) {d : ℕ} (op : Op 1 sh d) (c : Info) {R : Regs 1 sh} {V : Nums sh} {M E : ℕ → ℚ} (hV : Bounded V M) (h : Holds k R V E)
    (hs : op.Safe k M E c) (T : Tuples 1) (hT : T.Valid) (ctr : ℕ) : (op.run k R T ctr).good := by
  have N : ∀ r, Near k (R r) (V r) (E r) := h
  have hadd : ∀ {ι : Type} {x y : AST 1 ι}, x.scale = y.scale → (x.add y T ctr).good := by
    intro ι x y hxy; unfold AST.add; rw [if_neg (by omega), if_neg (by omega)]; trivial
  have hsub : ∀ {ι : Type} {x y : AST 1 ι}, x.scale = y.scale → (x.sub y T ctr).good := by
    intro ι x y hxy; unfold AST.sub; rw [if_neg (by omega), if_neg (by omega)]; trivial
  cases op with
  | input src x => exact ⟨trivial, trivial⟩
  | add a b f g => exact hadd ((N a).1.trans (N b).1.symm)
  | sub a b f g => exact hsub ((N a).1.trans (N b).1.symm)
  | neg a f => trivial
  | addPub a f y => trivial
  | mulInt a f z => trivial
  | mul a b B => exact good_one_mul _ _ _ _ _
  | mulPub a m B y =>
    show Run.good ((if _ then _ else _ : Proto 1 _) T _)
    split
    · exact ⟨fun i => divGood_one _ _ i, trivial⟩
    · trivial
  | square a f => exact good_one_square _ _ _
  | divInt a f z => exact ⟨fun i => divGood_one _ _ i, trivial⟩
  | reindex a f => trivial
  | sum a m f => trivial
  | relu a f =>
    have h1 := near_relu ((N a).reindex f) T hT ctr
    exact h1.1
  | max a m f method =>
    have hs' : 0 < m ∧ 2 ^ k * m < 2 ^ 63 ∧ (2 : ℚ) ^ k * (2 * (M a + E a)) < 2 ^ 63 := hs
    have h1 := near_max hk hs'.1 hs'.2.1 method ((N a).reindex f) (fun i => hV a _) hs'.2.2 T hT ctr
    exact h1.1

/-- **C72 (one party).** No proviso about wrap-arounds. -/
theorem C72_one_party {k : ℕ} (hk0 : 0 < k) (hk : k ≤ 62) (prog : Prog 1 sh) (cs : List Info) (R : Regs 1 sh) (V : Nums sh) (M E : ℕ → ℚ)
    (hM : ∀ r, 0 ≤ M r) (hE : ∀ r, 0 ≤ E r) (hV : ∀ r i, |V r i| ≤ M r) (h : Holds k R V E) (hw : Within M prog V) (hs : Safe k M cs prog E) :
    SatX (run k prog R) fun R' => Holds k R' (exact prog V) (errs k M cs prog E) := by
  intro T hT c
  have hgood : (run k prog R T c).good := by
    induction prog generalizing cs R V E c with
    | nil => trivial
    | cons l rest ih =>
      obtain ⟨d, op⟩ := l
      cases cs with
      | nil => exact hs.elim
      | cons i cs =>
        have g1 := good_one_op hk op i hV h hs.1 T hT c
        have hx := sat_op (by norm_num) hk0 hk op i hM hE hV h hw.1 hs.1 T hT c g1
        refine ⟨g1, ih cs _ _ _ (fun r => ?_) (fun r j => ?_) (holds_set h d hx) hw.2 hs.2 _⟩
        · by_cases hr : r = d
          · subst hr; rw [Function.update_self]; exact err_nonneg op i hM hE hs.1
          · rw [Function.update_of_ne hr]; exact hE r
        · by_cases hr : r = d
          · subst hr; rw [set_self]; exact hw.1 j
          · rw [set_ne _ _ hr]; exact hV r j
  exact ⟨hgood, C72_program (by norm_num) hk0 hk prog cs R V M E hM hE hV h hw hs T hT c hgood⟩

/-- Index sets of the sample program. -/
def sampleShape : ℕ → Type
  | 0 => Fin 2
  | 1 => Fin 2
  | _ => Unit

/-- The scalar product. -/
def dot : BilinearOp (Fin 2) (Fin 2) Unit := fun _ => [(0, 0), (1, 1)]

/-- One neuron: data of party 0, weights of party 1, scalar product, `relu`. -/
def neuron : Prog 2 sampleShape :=
  [⟨0, .input 0 ![3 / 2, -1 / 4]⟩, ⟨1, .input 1 ![2, 3]⟩, ⟨2, .mul 0 1 dot⟩, ⟨3, .relu 2 id⟩]

theorem apply_zero_right (B : BilinearOp ι ι' κ) (x : Tensor ι) : B.apply x 0 = 0 := by
  funext j; simp [BilinearOp.apply]

theorem apply_zero_left (B : BilinearOp ι ι' κ) (y : Tensor ι') : B.apply 0 y = 0 := by
  funext j; simp [BilinearOp.apply]

theorem good_two_mul (B : BilinearOp ι ι' κ) (x : AST 2 ι) (y : AST 2 ι') (T : Tuples 2) (c : ℕ) (h0 : T.mul c B = ⟨0, 0, 0⟩) : (AST.mul B x y T c).good := by
  refine ⟨trivial, ?_⟩
  show Run.good ((if _ then _ else _ : Proto 2 _) T _)
  split
  · refine ⟨fun i => ?_, trivial⟩
    have h1 : (Proto.mul B x.share y.share T c).val 1 i = 0 := by
      show beaverProduct B (T.mul c B) x.share y.share 1 i = 0
      rw [h0]
      simp [beaverProduct, addPublic, apply_zero_right, apply_zero_left]
    unfold DivGood
    rw [if_neg (by decide), reveal_apply, Fin.sum_univ_two, Fin.sum_univ_two, h1]
    simp
  · split <;> trivial

/-- Registers before the program. -/
def zeros : Regs 2 sampleShape := fun _ => ⟨0, 2 ^ 16⟩

theorem zeros_holds : Holds 16 zeros (fun _ _ => 0) fun _ => 0 := by
  intro r
  refine ⟨rfl, fun i => ?_⟩
  have : reveal (zeros r).share i = 0 := by rw [reveal_apply]; simp [zeros]
  rw [AST.value, this]; simp

theorem neuron_within : Within (fun _ => 4) neuron fun _ _ => 0 := by
  refine ⟨?_, ?_, ?_, ?_, trivial⟩
  · show ∀ i : Fin 2, |(![3 / 2, -1 / 4] : Fin 2 → ℚ) i| ≤ 4
    intro i
    match i with
    | 0 => norm_num
    | 1 => norm_num [abs_le]
  · show ∀ i : Fin 2, |(![2, 3] : Fin 2 → ℚ) i| ≤ 4
    intro i
    match i with
    | 0 => norm_num
    | 1 => norm_num
  · intro i; show |bilinearQ dot ![3 / 2, -1 / 4] ![2, 3] ()| ≤ 4
    norm_num [bilinearQ, dot, abs_le]
  · intro i; show |Max.max (bilinearQ dot ![3 / 2, -1 / 4] ![2, 3] ()) 0| ≤ 4
    norm_num [bilinearQ, dot, abs_le]

theorem neuron_safe : Safe 16 (fun _ => 4) [{}, {}, { terms := 2 }, {}] neuron fun _ => 0 := by
  refine ⟨?_, ?_, ⟨?_, ?_⟩, trivial, trivial⟩
  · show (2 : ℚ) ^ 16 * (4 + 1 / 2 ^ 16) < 2 ^ 63; norm_num
  · show (2 : ℚ) ^ 16 * (4 + 1 / 2 ^ 16) < 2 ^ 63; norm_num
  · intro i; rfl
  · show (2 : ℚ) ^ 16 * 2 ^ 16 * (((2 : ℕ) : ℚ) * ((4 + 1 / 2 ^ 16) * (4 + 1 / 2 ^ 16))) < 2 ^ 63
    norm_num

theorem scale_mul (B : BilinearOp ι ι' κ) (x : AST 2 ι) (y : AST 2 ι') (T : Tuples 2) (c : ℕ) (hx : x.scale = 2 ^ 16) : (AST.mul B x y T c).val.scale = 2 ^ 16 := by
  have h1 : 1 < x.scale := by rw [hx]; norm_num
  show (Run.val ((if _ then _ else _ : Proto 2 (AST 2 κ)) T _)).scale = _
  split
  · exact hx
  · exact hx

/-- The hypotheses are met by a two-party program with a scalar product and `relu` in a run with a truncation; its result 9/4 is within `19 / 2 ^ 16`. -/
example : ∃ (T : Tuples 2) (R : Regs 2 sampleShape), T.Valid ∧ (run 16 neuron R T 0).good ∧ exact neuron (fun _ _ => 0) 3 () = 9 / 4 ∧
    |((run 16 neuron R T 0).val 3).value () - 9 / 4| ≤ 19 / 2 ^ 16 := by
  obtain ⟨T₀, hT₀, -⟩ := tuples_exist 2
  let T : Tuples 2 := { T₀ with mul := fun _ _ _ _ _ => ⟨0, 0, 0⟩ }
  have hT : T.Valid := { hT₀ with
    mul := fun c ι ι' κ B => by
      show reveal (0 : Shares 2 κ) = B.apply (reveal 0) (reveal 0)
      have : ∀ ι : Type, reveal (0 : Shares 2 ι) = 0 := fun ι => by funext i; rw [reveal_apply]; simp
      rw [this, this, this, apply_zero_left] }
  have hgood : (run 16 neuron zeros T 0).good := by
    refine ⟨⟨trivial, trivial⟩, ⟨trivial, trivial⟩, good_two_mul _ _ _ T _ rfl, ?_, trivial⟩
    exact (C23_relu (Nat.two_pow_pos 16) _ (Or.inr (scale_mul _ _ _ _ _ rfl)) T hT _).1
  have hex : exact neuron (fun _ _ => 0) 3 () = 9 / 4 := by
    show Max.max (bilinearQ dot ![3 / 2, -1 / 4] ![2, 3] ()) 0 = 9 / 4
    norm_num [bilinearQ, dot]
  refine ⟨T, zeros, hT, hgood, hex, ?_⟩
  have := C72_program (by norm_num) (by norm_num) (by norm_num) neuron [{}, {}, { terms := 2 }, {}] zeros (fun _ _ => 0) (fun _ => 4) (fun _ => 0) (fun _ => by norm_num)
    (fun _ => le_refl _) (fun _ _ => by norm_num) zeros_holds neuron_within neuron_safe T hT 0 hgood
  have h3 := (this 3).2 ()
  rw [hex] at h3
  refine h3.trans ?_
  show ((2 : ℕ) : ℚ) * (1 / 2 ^ 16 * 4 + 4 * (1 / 2 ^ 16) + 1 / 2 ^ 16 * (1 / 2 ^ 16)) + ((2 : ℕ) : ℚ) / 2 ^ 16 ≤ 19 / 2 ^ 16
  norm_num

end Program
end CrypTen

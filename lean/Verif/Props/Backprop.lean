import Verif.Spec.Backprop
import Verif.Props.Program
import Verif.Props.Recorded
import Verif.Props.Quiet

/-!
# The backward pass on encrypted tensors

C98: the values and gradients that a recorded computation on encrypted tensors gives are those of the computation on exact numbers, up to error bounds that are computed along the tape; and the gradients on exact numbers
are the derivatives.
-/

namespace CrypTen.Backprop
open Program (Regs Nums set set_self set_ne sat_encryptA)
variable {n k : ℕ} {sh : ℕ → Type}

theorem bilinearQ_times {α β γ : Type} (f : α → β) (g : α → γ) (u : β → ℚ) (v : γ → ℚ) (i : α) : bilinearQ (times f g) u v i = u (f i) * v (g i) := by
  simp [bilinearQ, times]

theorem near_times [NeZero n] (hn : n < 2 ^ 60) (hk0 : 0 < k) (hk : k ≤ 62) {α β γ : Type} (f : α → β) (g : α → γ) {x : AST n β} {y : AST n γ} {v : β → ℚ} {w : γ → ℚ} {e ε A C : ℚ} (he : 0 ≤ e) (hf : 0 ≤ ε)
    (hA : 0 ≤ A) (hC : 0 ≤ C) (hx : Near k x v e) (hy : Near k y w ε) (hv : ∀ i, |v i| ≤ A) (hw : ∀ i, |w i| ≤ C) (hfit : 2 ^ k * 2 ^ k * ((A + e) * (C + ε)) < 2 ^ 63) :
    Sat (AST.mul (times f g) x y) fun z => Near k z (fun i => v (f i) * w (g i)) (e * C + A * ε + e * ε + n / 2 ^ k) := by
  refine (near_bilinear hn hk0 hk (times f g) (L := 1) (fun _ => le_rfl) he hf hA hC hx hy hv hw (by rwa [Nat.cast_one, one_mul])).mono fun z hz => ?_
  rw [Nat.cast_one, one_mul] at hz
  exact hz.congr fun i => bilinearQ_times f g v w i

theorem near_timesPub [NeZero n] (hn : n < 2 ^ 60) (hk0 : 0 < k) (hk : k ≤ 62) {α β γ : Type} (f : α → β) (g : α → γ) {x : AST n β} {v : β → ℚ} (y : γ → ℚ) {e A C : ℚ} (he : 0 ≤ e)
    (hA : 0 ≤ A) (hC : 0 ≤ C) (hx : Near k x v e) (hv : ∀ i, |v i| ≤ A) (hw : ∀ i, |y i| ≤ C) (hf : 2 ^ k * C < 2 ^ 63) (hfit : 2 ^ k * 2 ^ k * ((A + e) * (C + 1 / 2 ^ k)) < 2 ^ 63) :
    Sat (AST.mulPub (times f g) x y) fun z => Near k z (fun i => v (f i) * y (g i)) (e * C + A * (1 / 2 ^ k) + e * (1 / 2 ^ k) + n / 2 ^ k) := by
  refine (near_bilinearPub hn hk0 hk (times f g) y (L := 1) (fun _ => le_rfl) he hA hC hx hv hw hf (by rwa [Nat.cast_one, one_mul])).mono fun z hz => ?_
  rw [Nat.cast_one, one_mul] at hz
  exact hz.congr fun i => bilinearQ_times f g v y i

theorem abs_sum_fin {m : ℕ} {f : Fin m → ℚ} {c : ℚ} (h : ∀ j, |f j| ≤ c) : |∑ j, f j| ≤ m * c := by
  refine (Finset.abs_sum_le_sum_abs _ _).trans ((Finset.sum_le_card_nsmul _ _ c fun j _ => h j).trans ?_)
  simp

theorem near_shrink {α β : Type} (f : Spread α β) {x : AST n α} {v : α → ℚ} {e κ : ℚ} (hx : Near k x v e) (hv : ∀ i, |v i| ≤ κ) (hfit : 2 ^ k * (f.size * κ + f.size * e) < 2 ^ 63) :
    Near k (shrink f x) (fun j => ∑ p, v (f.back (p, j))) (f.size * e) :=
  near_sumFirst (v := fun p => v (f.back p)) (hx.reindex f.back) (fun j => abs_sum_fin fun p => hv (f.back (p, j))) hfit

theorem near_choose {ι κ : Type} (f : κ → Option ι) {x : AST n ι} {v : ι → ℚ} {e : ℚ} (he : 0 ≤ e) (hx : Near k x v e) : Near k (x.choose f) (fun i => (f i).elim 0 v) e := by
  refine ⟨hx.1, fun i => ?_⟩
  have h1 : (x.choose f).value i = (f i).elim 0 x.value := by
    rw [AST.value, reveal_apply]
    simp only [AST.choose]
    cases f i with
    | none => simp
    | some j => simp only [Option.elim_some]; rw [AST.value, reveal_apply]
  rw [h1]
  beta_reduce
  cases f i with
  | none => simpa using he
  | some j => exact hx.2 j

theorem near_join {ι ι' κ : Type} (f : κ → ι ⊕ ι') {x : AST n ι} {y : AST n ι'} {v : ι → ℚ} {w : ι' → ℚ} {e ε : ℚ} (hx : Near k x v e) (hy : Near k y w ε) :
    Near k (AST.join f x y) (fun i => (f i).elim v w) (max e ε) := by
  refine ⟨hx.1, fun i => ?_⟩
  have h1 : (AST.join f x y).value i = (f i).elim x.value y.value := by
    rw [AST.value, reveal_apply]
    simp only [AST.join]
    cases f i with
    | inl j => simp only [Sum.elim_inl]; rw [AST.value, reveal_apply]
    | inr j => simp only [Sum.elim_inr]; rw [AST.value, reveal_apply, hx.1, hy.1]
  rw [h1]
  beta_reduce
  cases f i with
  | inl j => exact (hx.2 j).trans (le_max_left _ _)
  | inr j => exact (hy.2 j).trans (le_max_right _ _)

theorem abs_sum_list {ι : Type} {l : List ι} {L : ℕ} (hl : l.length ≤ L) {f : ι → ℚ} {c : ℚ} (hc : 0 ≤ c) (h : ∀ j, |f j| ≤ c) : |(l.map f).sum| ≤ L * c := by
  have h1 : |(l.map f).sum| ≤ l.length * c := by
    clear hl
    induction l with
    | nil => simp
    | cons j l ih =>
      rw [List.map_cons, List.sum_cons, List.length_cons]
      push_cast
      linarith [abs_add_le (f j) (l.map f).sum, h j]
  exact h1.trans (mul_le_mul_of_nonneg_right (by exact_mod_cast hl) hc)

theorem near_sums {ι κ : Type} (f : κ → List ι) {L : ℕ} (hL : ∀ i, (f i).length ≤ L) {x : AST n ι} {v : ι → ℚ} {e B : ℚ} (he : 0 ≤ e) (hx : Near k x v e) (hB : ∀ i, |((f i).map v).sum| ≤ B)
    (hfit : 2 ^ k * (B + L * e) < 2 ^ 63) : Near k (x.sums f) (fun i => ((f i).map v).sum) (L * e) := by
  refine near_of_word hx.1 (fun i => ((f i).map fun j => (reveal x.share j).toInt).sum) (fun i => ?_) (fun i => ?_) hB hfit
  · rw [reveal_apply]
    simp only [AST.sums]
    generalize f i = l
    induction l with
    | nil => simp
    | cons j l ih =>
      simp only [List.map_cons, List.sum_cons]
      rw [Finset.sum_add_distrib, ih, ← reveal_apply, BitVec.ofInt_add, ofInt_toInt]
  · have e1 : ∀ l : List ι, (((l.map fun j => (reveal x.share j).toInt).sum : ℤ) : ℚ) / 2 ^ k - (l.map v).sum = (l.map fun j => x.value j - v j).sum := fun l => by
      induction l with
      | nil => simp
      | cons j l ih =>
        simp only [List.map_cons, List.sum_cons]
        rw [← ih, AST.value, hx.scaleQ]
        push_cast
        ring
    rw [e1]
    exact abs_sum_list (hL i) he hx.2

/-! ## The forward pass -/

theorem le_top {m : ℕ} (y : Fin m → ℚ) (j : Fin m) : |y j| ≤ top y := (Finset.le_fold_max _).2 (Or.inr ⟨j, Finset.mem_univ j, le_rfl⟩)

theorem top_nonneg {m : ℕ} (y : Fin m → ℚ) : 0 ≤ top y := (Finset.le_fold_max _).2 (Or.inl le_rfl)

theorem err_nonneg {P M E : ℕ → ℚ} (hP : ∀ r, 0 ≤ P r) (hM : ∀ r, 0 ≤ M r) (hE : ∀ r, 0 ≤ E r) {d : ℕ} (c : Call n sh d) : 0 ≤ c.err n k P M E := by
  cases c with
  | leaf => simp only [Call.err]; positivity
  | param => exact hP d
  | neg a | view a | relu a | part a | maximum a => exact hE a
  | cat a b => exact (hE a).trans (le_max_left _ _)
  | add a b | sub a b => exact add_nonneg (hE a) (hE b)
  | mul a b | bil a b =>
    have := hE a; have := hE b; have := hM a; have := hM b
    simp only [Call.err]; positivity
  | bilPub a m B y =>
    have := hE a; have := hM a; have := top_nonneg y
    simp only [Call.err]; positivity
  | addPub a | mulNum a | square a | sum a | mean a | avg a =>
    have := hE a; have := hM a
    simp only [Call.err]; positivity

theorem errs_nonneg {P M : ℕ → ℚ} (hP : ∀ r, 0 ≤ P r) (hM : ∀ r, 0 ≤ M r) (t : Tape n sh) (r : ℕ) : 0 ≤ errs n k P M t r := by
  induction t generalizing r with
  | nil => exact le_rfl
  | cons x t ih =>
    obtain ⟨d, c⟩ := x
    by_cases h : r = d
    · subst h; rw [errs, Function.update_self]; exact err_nonneg hP hM ih c
    · rw [errs, Function.update_of_ne h]; exact ih r

/-- What `relu` saves are the signs of its operand, what a maximum saves are the places where it is attained. -/
def Call.Mask (V : Nums sh) {d : ℕ} (s : AST n (ℕ × sh d)) : Call n sh d → Prop
  | .relu a e => IsBit (s.reindex fun i => (0, i)) fun i => decide (0 < V a (e i))
  | .maximum a _ m f => s.scale = 1 ∧ ∀ (j : Fin (m + 1)) i, s.value (j.val, i) = if f.Best (V a) (j, i) then 1 else 0
  | _ => True

theorem sat_relu [NeZero n] (hk : k ≤ 62) {ι : Type} {x : AST n ι} {v : ι → ℚ} {e A : ℚ} (hx : Near k x v e) (hv : ∀ i, |v i| ≤ A) (hfit : 2 ^ k * (A + e) < 2 ^ 63) (hm : ∀ i, e < |v i|) :
    SatX (x.gt (2 ^ k) (.pub fun _ => 0) >>= fun mask => AST.mul (elementwise ι) x mask >>= fun z => pure (z, mask.reindex Prod.snd)) fun r =>
      Near k r.1 (fun i => max (v i) 0) e ∧ IsBit ((r.2 : AST n (ℕ × ι)).reindex fun i => (0, i)) fun i => decide (0 < v i) := by
  have hD : 0 < 2 ^ k := Nat.two_pow_pos k
  have hpos : 0 < x.scale := by rw [hx.1]; exact hD
  have h0 : ∀ i, (Operand.pub (n := n) fun _ : ι => (0 : ℚ)).valueAt x.scale i = 0 := by
    intro i
    show (truncQ (x.scale * 0) : ℚ) / x.scale = 0
    rw [mul_zero, truncQ_zero]; simp
  have hb : ∀ i, |(x.scale : ℚ) * x.value i| ≤ 2 ^ k * (A + e) := fun i => by
    rw [hx.scaleQ, abs_mul, abs_of_pos (a := (2 : ℚ) ^ k) (by positivity)]
    exact mul_le_mul_of_nonneg_left (hx.abs_le (hv i)) (by positivity)
  have hsign : ∀ i, decide ((Operand.pub (n := n) fun _ : ι => (0 : ℚ)).valueAt x.scale i < x.value i) = decide (0 < v i) := fun i => by
    rw [h0, decide_eq_decide]
    have h1 := abs_le.1 (hx.2 i)
    have h2 := hm i
    rcases lt_or_ge 0 (v i) with h | h
    · rw [abs_of_pos h] at h2
      exact ⟨fun _ => h, fun _ => by linarith [h1.1]⟩
    · rw [abs_of_nonpos h] at h2
      exact ⟨fun h3 => absurd h3 (by linarith [h1.2]), fun h3 => absurd h3 (not_lt.2 h)⟩
  refine SatX.bind (sat_gt_bit hD x (Or.inr hx.1) (.pub fun _ => 0) trivial fun i => ?_) fun g hg => ?_
  · rw [h0, zero_sub]
    show Fits (x.scale * -x.value i)
    refine fits_of_abs ?_ hfit
    rw [mul_neg, abs_neg]; exact hb i
  have hg' : IsBit g fun i => decide (0 < v i) := ⟨hg.1, fun i => by rw [hg.2]; exact congrArg boolI64 (hsign i)⟩
  have hgv : ∀ i, g.value i = if 0 < v i then 1 else 0 := fun i => by rw [hg'.value]; simp only [decide_eq_true_eq]
  refine SatX.bind (P := fun z => z.scale = x.scale * g.scale ∧ ∀ i, z.value i = bilinearQ (elementwise ι) x.value g.value i)
    (C56_mul_unscaled (elementwise ι) x g hpos (by rw [hg.1]; norm_num) (Or.inr hg.1) fun i => ?_) fun z hz => SatX.pure ⟨⟨?_, fun i => ?_⟩, hg'⟩
  · rw [bilinearQ_elementwise, hgv, hg.1, Nat.cast_one, mul_one]
    refine fits_of_abs ((?_ : _ ≤ |(x.scale : ℚ) * x.value i|).trans (hb i)) hfit
    split
    · rw [mul_one]
    · rw [mul_zero, mul_zero, abs_zero]; exact abs_nonneg _
  · rw [hz.1, hg.1, mul_one, hx.1]
  · rw [hz.2, bilinearQ_elementwise, hgv]
    beta_reduce
    split
    · rename_i h; rw [max_eq_left h.le, mul_one]; exact hx.2 i
    · rename_i h; rw [max_eq_right (not_lt.1 h), mul_zero, sub_zero, abs_zero]; exact (abs_nonneg _).trans (hx.2 i)

theorem sat_maxArgmax [NeZero n] (hk : k ≤ 62) {m : ℕ} (hm' : 2 ^ k * ((m + 1) * 2 ^ k) < 2 ^ 63) (method : MaxMethod) {κ : Type} (x : AST n (Fin (m + 1) × κ)) (hx : StdScale (2 ^ k) x.scale) (hfit : DiffFits x) :
    SatX (x.maxArgmax k method) fun r => (r.1.scale = x.scale ∧ ∀ i, IsGreatest (Set.range fun j => x.value (j, i)) (r.1.value i)) ∧ r.2.scale = 1 ∧ ∃ pick : κ → Fin (m + 1),
      (∀ i, IsGreatest (Set.range fun j => x.value (j, i)) (x.value (pick i, i))) ∧ ∀ j i, r.2.value (j, i) = if j = pick i then 1 else 0 := by
  have hm0 : 0 < m + 1 := Nat.succ_pos m
  have hm2 : 2 ^ k * (m + 1) < 2 ^ 63 := lt_of_le_of_lt (Nat.mul_le_mul_left _ (Nat.le_mul_of_pos_right _ (Nat.two_pow_pos k))) hm'
  have tree : ∀ method, SatX (do let mx ← x.maxFirst k method; let e ← x.eq (2 ^ k) (.enc (mx.reindex Prod.snd)); let oneHot ← e.weightedIndex k; pure (mx, oneHot)) fun r =>
      (r.1.scale = x.scale ∧ ∀ i, IsGreatest (Set.range fun j => x.value (j, i)) (r.1.value i)) ∧ r.2.scale = 1 ∧ ∃ pick : κ → Fin (m + 1),
      (∀ i, IsGreatest (Set.range fun j => x.value (j, i)) (x.value (pick i, i))) ∧ ∀ j i, r.2.value (j, i) = if j = pick i then 1 else 0 := by
    intro method
    refine SatX.bind (C24_max k hk hm0 hm2 method x hx hfit) fun mx hmx => ?_
    obtain ⟨K, hK, hK2, he⟩ := sat_eq_max k hk x mx hx hmx.1 hfit hmx.2
    refine SatX.bind he fun e he => ?_
    exact SatX.bind (sat_oneHot_max k hk hm0 x e he.1 K hK he.2 (lt_of_le_of_lt (Nat.mul_le_mul_left _ (Nat.mul_le_mul_left _ hK2)) hm')) fun z hz => SatX.pure ⟨hmx, hz⟩
  cases method with
  | pairwise =>
    refine SatX.bind (sat_argmaxOneHotPairwise k hk hm0 hm2 x hx hfit) fun z hz => ?_
    obtain ⟨hz1, pick, h1, h2⟩ := hz
    have h := sat_select x z (hx.pos (Nat.two_pow_pos k)) hz1 pick h2
    intro T hT c
    have h' := h T hT c
    refine ⟨⟨h'.1.1, trivial⟩, ⟨h'.2.1, fun i => ?_⟩, hz1, pick, h1, h2⟩
    have e1 := h'.2.2 i
    have e2 := h1 i
    rw [← e1] at e2
    exact e2
  | logReduction steps => exact tree _
  | doubleLog => exact tree _
  | cascade steps => exact tree _

theorem sat_maximum [NeZero n] (hk : k ≤ 62) {m : ℕ} (hm' : 2 ^ k * ((m + 1) * 2 ^ k) < 2 ^ 63) (method : MaxMethod) {α β : Type} (f : Places (m + 1) α β) {x : AST n β} {v : β → ℚ} {e A : ℚ} (hx : Near k x v e) (hv : ∀ i, |v i| ≤ A)
    (hfit : 2 ^ k * (2 * (A + e)) < 2 ^ 63) (hg : f.Gap v (2 * e)) :
    SatX ((x.reindex f.win).maxArgmax k method) fun r => Near k r.1 (fun i => Finset.univ.sup' ⟨0, Finset.mem_univ _⟩ fun l => v (f.win (l, i))) e ∧
      r.2.scale = 1 ∧ ∀ j i, r.2.value (j, i) = if f.Best v (j, i) then 1 else 0 := by
  have hx' : Near k (x.reindex f.win) (fun p => v (f.win p)) e := hx.reindex f.win
  have hd : DiffFits (x.reindex f.win) := fun q i j => by
    refine fits_of_abs ?_ hfit
    rw [hx'.scaleQ, abs_mul, abs_of_pos (a := (2 : ℚ) ^ k) (by positivity)]
    have h1 := hx'.abs_le (hv (f.win (i, q)))
    have h2 := hx'.abs_le (hv (f.win (j, q)))
    exact mul_le_mul_of_nonneg_left ((abs_sub _ _).trans (by linarith)) (by positivity)
  refine (sat_maxArgmax hk hm' method _ (Or.inr hx'.1) hd).mono fun r hr => ?_
  obtain ⟨⟨hs, hmax⟩, hs1, pick, hpick, hval⟩ := hr
  have hbest : ∀ i l, l ≠ pick i → v (f.win (l, i)) < v (f.win (pick i, i)) := fun i => by
    obtain ⟨j, hj⟩ := hg i
    have : pick i = j := by
      by_contra hne
      have h1 := hj _ hne
      have h2 := (hpick i).2 ⟨j, rfl⟩
      have h3 := abs_le.1 (hx'.2 (pick i, i))
      have h4 := abs_le.1 (hx'.2 (j, i))
      beta_reduce at h2 h3 h4
      linarith [h3.2, h4.1]
    intro l hl
    rw [this] at hl ⊢
    have h5 := abs_le.1 (hx'.2 (j, i))
    linarith [hj l hl, h5.1, h5.2]
  refine ⟨⟨hs.trans hx'.1, fun i => ?_⟩, hs1, fun j i => ?_⟩
  · have h1 : r.1.value i = (x.reindex f.win).value (pick i, i) := (hmax i).unique (hpick i)
    have h2 : Finset.univ.sup' ⟨0, Finset.mem_univ _⟩ (fun l => v (f.win (l, i))) = v (f.win (pick i, i)) := by
      refine le_antisymm (Finset.sup'_le _ _ fun l _ => ?_) (Finset.le_sup' (fun l => v (f.win (l, i))) (Finset.mem_univ _))
      by_cases hl : l = pick i
      · rw [hl]
      · exact (hbest i l hl).le
    rw [h1]
    beta_reduce
    rw [h2]
    exact hx'.2 (pick i, i)
  · rw [hval]
    by_cases hj : j = pick i
    · rw [if_pos hj, if_pos]
      intro l
      subst hj
      by_cases hl : l = pick i
      · subst hl; exact le_rfl
      · exact (hbest i l hl).le
    · rw [if_neg hj, if_neg]
      intro h
      exact absurd (h (pick i)) (not_le.2 (hbest i j hj))

theorem sat_call [NeZero n] (hn : n < 2 ^ 60) (hk0 : 0 < k) (hk : k ≤ 62) {P M E : ℕ → ℚ} {W V : Nums sh} {R : Regs n sh} (hM : ∀ r, 0 ≤ M r) (hE : ∀ r, 0 ≤ E r) {d : ℕ} (c : Call n sh d)
    (h : ∀ a ∈ c.operands, Near k (R a) (V a) (E a) ∧ ∀ i, |V a i| ≤ M a) (hp : c = .param → Near k (R d) (W d) (P d)) (hs : c.Safe k M E W V) :
    Sat (c.forward k R) fun z => Near k z.1 (c.eval W (fun _ _ => 0) V) (c.err n k P M E) ∧ c.Mask V z.2 := by
  obtain ⟨hw, hs⟩ := hs
  cases c with
  | leaf src x =>
    have hw' : ∀ i, |x i| ≤ M d := fun i => by have := hw i; simpa [Call.eval] using this
    refine Sat.bind (sat_encryptA src _).sat fun s hs' => Sat.pure ⟨?_, trivial⟩
    refine Near.congr (near_of_word rfl (fun i => truncQ (2 ^ k * x i)) (fun i => ?_) (fun i => trunc_any k (x i)) hw' hs) fun i => by simp [Call.eval]
    show reveal s i = _
    rw [hs', encodePublic_ofInt]; push_cast; rfl
  | param => exact Sat.pure ⟨(hp rfl).congr fun i => by simp [Call.eval], trivial⟩
  | addPub a f y =>
    have ha := h a (by simp [Call.operands])
    exact Sat.pure ⟨near_addPub (ha.1.reindex f.map) y hw hs, trivial⟩
  | bilPub a m B y =>
    have ha := h a (by simp [Call.operands])
    exact Sat.bind (near_bilinearPub hn hk0 hk B.op y hs.1.1 (hE a) (hM a) (top_nonneg y) ha.1 ha.2 (le_top y) hs.2.1 hs.2.2) fun z hz => Sat.pure ⟨hz, trivial⟩
  | add a b f g =>
    refine Sat.bind (near_add ((h a (by simp [Call.operands])).1.reindex f.map) ((h b (by simp [Call.operands])).1.reindex g.map) hw hs).sat fun z hz => Sat.pure ⟨hz, trivial⟩
  | sub a b f g =>
    refine Sat.bind (near_sub ((h a (by simp [Call.operands])).1.reindex f.map) ((h b (by simp [Call.operands])).1.reindex g.map) hw hs).sat fun z hz => Sat.pure ⟨hz, trivial⟩
  | neg a e =>
    have ha := h a (by simp [Call.operands])
    exact Sat.pure ⟨near_neg (ha.1.reindex e) (fun i => ha.2 _) hs, trivial⟩
  | mul a b f g =>
    have ha := h a (by simp [Call.operands])
    have hb := h b (by simp [Call.operands])
    exact Sat.bind (near_times hn hk0 hk f.map g.map (hE a) (hE b) (hM a) (hM b) ha.1 hb.1 ha.2 hb.2 hs) fun z hz => Sat.pure ⟨hz, trivial⟩
  | mulNum a e c =>
    have ha := h a (by simp [Call.operands])
    refine Sat.bind (near_timesPub hn hk0 hk e (fun _ => ()) (fun _ => c) (hE a) (hM a) (abs_nonneg c) ha.1 ha.2 (fun _ => le_rfl) hs.1 hs.2) fun z hz => Sat.pure ⟨hz.congr fun i => ?_, trivial⟩
    simp [Call.eval]
  | bil a b B =>
    have ha := h a (by simp [Call.operands])
    have hb := h b (by simp [Call.operands])
    exact Sat.bind (near_bilinear hn hk0 hk B.op hs.1.1 (hE a) (hE b) (hM a) (hM b) ha.1 hb.1 ha.2 hb.2 hs.2) fun z hz => Sat.pure ⟨hz, trivial⟩
  | square a e =>
    have ha := h a (by simp [Call.operands])
    exact Sat.bind (near_square hn hk (ha.1.reindex e) (fun i => ha.2 _) hs) fun z hz => Sat.pure ⟨hz.congr fun i => (sq _).symm, trivial⟩
  | sum a f =>
    have ha := h a (by simp [Call.operands])
    exact Sat.pure ⟨near_sumFirst (v := fun i => V a (f.back i)) (ha.1.reindex f.back) hw hs, trivial⟩
  | mean a f =>
    have ha := h a (by simp [Call.operands])
    have hf : (0 : ℚ) < f.size := by exact_mod_cast hs.1
    have hfz : (f.size : ℤ) < 2 ^ 63 := by exact_mod_cast hs.2.1
    have h1 := near_sumFirst (B := f.size * M d) (v := fun i => V a (f.back i)) (ha.1.reindex f.back) (fun i => ?_) hs.2.2
    · refine Sat.bind (near_divInt hn h1 f.size (by exact_mod_cast hs.1) hfz) fun z hz => Sat.pure ⟨?_, trivial⟩
      rw [show (((f.size : ℕ) : ℤ) : ℚ) = f.size from Int.cast_natCast _] at hz
      exact hz
    · have h2 : |(∑ j, V a (f.back (j, i))) / (f.size : ℚ)| ≤ M d := hw i
      rw [abs_div, abs_of_pos hf, div_le_iff₀ hf] at h2
      linarith
  | view a e => exact Sat.pure ⟨(h a (by simp [Call.operands])).1.reindex e, trivial⟩
  | relu a e =>
    have ha := h a (by simp [Call.operands])
    exact (sat_relu hk (ha.1.reindex e) (fun i => ha.2 _) hs.1 fun i => hs.2 _).sat
  | part a f => exact Sat.pure ⟨near_choose f.pick (hE a) (h a (by simp [Call.operands])).1, trivial⟩
  | cat a b e => exact Sat.pure ⟨near_join e (h a (by simp [Call.operands])).1 (h b (by simp [Call.operands])).1, trivial⟩
  | avg a f =>
    have ha := h a (by simp [Call.operands])
    have hf : (0 : ℚ) < f.size := by exact_mod_cast hs.2.1
    have hfz : (f.size : ℤ) < 2 ^ 63 := by exact_mod_cast hs.2.2.1
    have h1 := near_sums (B := f.size * M d) f.win hs.1.1 (hE a) ha.1 (fun i => ?_) hs.2.2.2
    · refine Sat.bind (near_divInt hn h1 f.size (by exact_mod_cast hs.2.1) hfz) fun z hz => Sat.pure ⟨?_, trivial⟩
      rw [show (((f.size : ℕ) : ℤ) : ℚ) = f.size from Int.cast_natCast _] at hz
      exact hz
    · have h2 : |((f.win i).map (V a)).sum / (f.size : ℚ)| ≤ M d := hw i
      rw [abs_div, abs_of_pos hf, div_le_iff₀ hf] at h2
      linarith
  | maximum a method m f =>
    have ha := h a (by simp [Call.operands])
    refine Sat.bind (sat_maximum hk (by exact_mod_cast hs.1) method f ha.1 ha.2 hs.2.1 hs.2.2).sat fun r hr => Sat.pure ⟨hr.1, hr.2.1, fun j i => ?_⟩
    rw [← hr.2.2 j i]
    refine (value_reindex _ _ _).trans ?_
    beta_reduce
    rw [Fin.ofNat_val_eq_self]

theorem mem_regs {t : Tape n sh} {x : Σ d, Call n sh d} (h : x ∈ t) : x.1 ∈ regs t := List.mem_map.2 ⟨x, h, rfl⟩

theorem Ordered.operands {t : Tape n sh} (h : Ordered t) {x : Σ d, Call n sh d} (hx : x ∈ t) {a : ℕ} (ha : a ∈ x.2.operands) : a ∈ regs t := by
  induction t with
  | nil => exact absurd hx (by simp)
  | cons y t ih =>
    obtain ⟨d, c⟩ := y
    show a ∈ d :: regs t
    rcases List.mem_cons.1 hx with rfl | h1
    · exact List.mem_cons_of_mem _ (h.2.1 a ha)
    · exact List.mem_cons_of_mem _ (ih h.2.2 h1)

theorem values_cons_ne {W : Nums sh} {t : Tape n sh} {d r : ℕ} (c : Call n sh d) (h : r ≠ d) : values W (⟨d, c⟩ :: t) r = values W t r := set_ne (α := fun ι => ι → ℚ) _ _ h

theorem values_cons_self {W : Nums sh} {t : Tape n sh} {d : ℕ} (c : Call n sh d) : values W (⟨d, c⟩ :: t) d = c.eval W (fun _ _ => 0) (values W t) := set_self (α := fun ι => ι → ℚ) _ _ _

theorem Call.Mask.congr {V W : Nums sh} {d : ℕ} {s : AST n (ℕ × sh d)} {c : Call n sh d} (h : c.Mask V s) (hVW : ∀ a ∈ c.operands, V a = W a) : c.Mask W s := by
  cases c with
  | relu a e =>
    show IsBit (s.reindex fun i => (0, i)) fun i => decide (0 < W a (e i))
    rw [← hVW a (by simp [Call.operands])]
    exact h
  | maximum a method m f =>
    show s.scale = 1 ∧ ∀ (j : Fin (m + 1)) i, s.value (j.val, i) = if f.Best (W a) (j, i) then 1 else 0
    rw [← hVW a (by simp [Call.operands])]
    exact h
  | _ => trivial

/-- What the forward pass leaves behind. -/
def Held (k : ℕ) (t : Tape n sh) (M E : ℕ → ℚ) (V : Nums sh) (R : Regs n sh) (s : Regs n sh × Saved n sh) : Prop :=
  (∀ r, r ∉ regs t → s.1 r = R r) ∧ (∀ r ∈ regs t, Near k (s.1 r) (V r) (E r) ∧ ∀ i, |V r i| ≤ M r) ∧ ∀ x ∈ t, x.2.Mask V (s.2 x.1)

theorem sat_forward [NeZero n] (hn : n < 2 ^ 60) (hk0 : 0 < k) (hk : k ≤ 62) {P M : ℕ → ℚ} {W : Nums sh} (hP : ∀ r, 0 ≤ P r) (hM : ∀ r, 0 ≤ M r) (t : Tape n sh) (ho : Ordered t) (hs : SafeForward k P M W t) (s0 : Regs n sh × Saved n sh)
    (hp : ∀ r, ⟨r, .param⟩ ∈ t → Near k (s0.1 r) (W r) (P r)) :
    Sat (forward k t s0) (Held k t M (errs n k P M t) (values W t) s0.1) := by
  induction t with
  | nil => exact Sat.pure ⟨fun r _ => rfl, fun r hr => absurd hr (by simp [regs]), fun x hx => absurd hx (by simp)⟩
  | cons y t ih =>
    obtain ⟨d, c⟩ := y
    refine Sat.bind (ih ho.2.2 hs.2 fun r hr => hp r (List.mem_cons_of_mem _ hr)) fun s h => ?_
    refine Sat.bind (sat_call (P := P) hn hk0 hk hM (errs_nonneg hP hM t) c (fun a ha => h.2.1 a (ho.2.1 a ha)) (fun e => ?_) hs.1) fun z hz => Sat.pure ⟨fun r hr => ?_, fun r hr => ?_, fun x hx => ?_⟩
    · rw [h.1 d ho.1]
      exact hp d (by rw [e]; exact List.mem_cons_self)
    · show set (α := AST n) s.1 d z.1 r = s0.1 r
      rw [set_ne _ _ fun e => hr (List.mem_cons.2 (Or.inl e))]
      exact h.1 r fun h' => hr (List.mem_cons_of_mem _ h')
    · show Near k (set (α := AST n) s.1 d z.1 r) _ _ ∧ _
      by_cases hd : r = d
      · subst hd
        rw [values_cons_self, errs, Function.update_self, set_self]
        exact ⟨hz.1, hs.1.1⟩
      · rw [values_cons_ne c hd, errs, Function.update_of_ne hd, set_ne _ _ hd]
        exact h.2.1 r ((List.mem_cons.1 hr).resolve_left hd)
    · have hop : ∀ a ∈ regs t, values W t a = values W (⟨d, c⟩ :: t) a := fun a ha => (values_cons_ne c fun e => ho.1 (e ▸ ha)).symm
      rcases List.mem_cons.1 hx with rfl | h1
      · show c.Mask _ (set (sh := fun r => ℕ × sh r) (α := AST n) s.2 d z.2 d)
        rw [set_self]
        exact hz.2.congr fun a ha => hop a (ho.2.1 a ha)
      · have hne : x.1 ≠ d := fun e => ho.1 (e ▸ mem_regs h1)
        show x.2.Mask _ (set (sh := fun r => ℕ × sh r) (α := AST n) s.2 d z.2 x.1)
        rw [set_ne _ _ hne]
        exact (h.2.2 x h1).congr fun a ha => hop a (ho.2.2.operands h1 ha)

/-! ## The backward pass -/

/-- Encrypted contributions near exact ones. -/
inductive Nears (k : ℕ) : List (Σ a, AST n (sh a)) → List (Σ a, sh a → ℚ) → List ℚ → Prop
  | nil : Nears k [] [] []
  | cons {a : ℕ} {x : AST n (sh a)} {v : sh a → ℚ} {e : ℚ} {l lv es} : Near k x v e → 0 ≤ e → Nears k l lv es → Nears k (⟨a, x⟩ :: l) (⟨a, v⟩ :: lv) (e :: es)

theorem contribErr_nonneg {M E : ℕ → ℚ} (hM : ∀ r, 0 ≤ M r) (hE : ∀ r, 0 ≤ E r) {κ ε : ℚ} (hκ : 0 ≤ κ) (hε : 0 ≤ ε) {d : ℕ} (c : Call n sh d) : ∀ e ∈ c.contribErr n k M E κ ε, 0 ≤ e := by
  cases c with
  | leaf | param => simp [Call.contribErr]
  | addPub a f y =>
    simp only [Call.contribErr, List.mem_cons, List.not_mem_nil, or_false, forall_eq]
    positivity
  | bilPub a m B y =>
    have := top_nonneg y
    simp only [Call.contribErr, List.mem_cons, List.not_mem_nil, or_false, forall_eq]
    positivity
  | add a b f g | sub a b f g =>
    simp only [Call.contribErr, List.mem_cons, List.not_mem_nil, or_false, forall_eq_or_imp, forall_eq]
    constructor <;> positivity
  | neg a e | view a e | relu a e | part a f => simpa [Call.contribErr] using hε
  | cat a b e => simpa [Call.contribErr] using hε
  | maximum a method m f =>
    simp only [Call.contribErr, List.mem_cons, List.not_mem_nil, or_false, forall_eq]
    positivity
  | mul a b f g | bil a b B =>
    have := hM a; have := hM b; have := hE a; have := hE b
    simp only [Call.contribErr, List.mem_cons, List.not_mem_nil, or_false, forall_eq_or_imp, forall_eq]
    constructor <;> positivity
  | mulNum a e c | square a e | sum a f | mean a f | avg a f =>
    have := hM a; have := hE a
    simp only [Call.contribErr, List.mem_cons, List.not_mem_nil, or_false, forall_eq]
    positivity

theorem sat_reluBack [NeZero n] {ι : Type} {g mask : AST n ι} {v : ι → ℚ} {e : ℚ} {b : ι → Bool} (hg : Near k g v e) (hm : IsBit mask b) :
    SatX (AST.mul (elementwise ι) g mask) fun z => Near k z (fun i => v i * if b i then 1 else 0) e := by
  have hpos : 0 < g.scale := by rw [hg.1]; exact Nat.two_pow_pos k
  refine (C56_mul_unscaled (elementwise ι) g mask hpos (by rw [hm.1]; norm_num) (Or.inr hm.1) fun i => ?_).mono fun z hz => ⟨?_, fun i => ?_⟩
  · rw [bilinearQ_elementwise, hm.value, hm.1, Nat.cast_one, mul_one]
    have := value_int_range g hpos i
    split
    · rwa [mul_one]
    · rw [mul_zero, mul_zero]; unfold Fits; norm_num
  · rw [hz.1, hm.1, mul_one, hg.1]
  · rw [hz.2, bilinearQ_elementwise, hm.value, ← sub_mul, abs_mul]
    have h := hg.2 i
    split
    · rwa [abs_one, mul_one]
    · rw [abs_zero, mul_zero]; exact (abs_nonneg _).trans h

theorem sat_maxBack [NeZero n] {m : ℕ} {α : Type} {g : AST n α} {mask : AST n (Fin m × α)} {v : α → ℚ} {e : ℚ} {b : Fin m × α → Prop} [DecidablePred b] (hg : Near k g v e) (hm1 : mask.scale = 1)
    (hm : ∀ p, mask.value p = if b p then 1 else 0) : SatX (AST.mul (times Prod.snd id) g mask) fun z => Near k z (fun p => v p.2 * if b p then 1 else 0) e := by
  have hpos : 0 < g.scale := by rw [hg.1]; exact Nat.two_pow_pos k
  refine (C56_mul_unscaled (times Prod.snd id) g mask hpos (by rw [hm1]; norm_num) (Or.inr hm1) fun p => ?_).mono fun z hz => ⟨?_, fun p => ?_⟩
  · rw [bilinearQ_times, id, hm, hm1, Nat.cast_one, mul_one]
    have := value_int_range g hpos p.2
    split
    · rwa [mul_one]
    · rw [mul_zero, mul_zero]; unfold Fits; norm_num
  · rw [hz.1, hm1, mul_one, hg.1]
  · rw [hz.2, bilinearQ_times, id, hm, ← sub_mul, abs_mul]
    have h := hg.2 p.2
    split
    · rwa [abs_one, mul_one]
    · rw [abs_zero, mul_zero]; exact (abs_nonneg _).trans h

theorem sat_contrib [NeZero n] (hn : n < 2 ^ 60) (hk0 : 0 < k) (hk : k ≤ 62) {M E : ℕ → ℚ} {V : Nums sh} {R : Regs n sh} (hM : ∀ r, 0 ≤ M r) (hE : ∀ r, 0 ≤ E r) {d : ℕ} (c : Call n sh d)
    {g : AST n (sh d)} {mask : AST n (ℕ × sh d)} {v : sh d → ℚ} {κ ε : ℚ} (hκ : 0 ≤ κ) (hε : 0 ≤ ε) (hg : Near k g v ε) (hv : ∀ i, |v i| ≤ κ)
    (h : ∀ a ∈ c.operands, Near k (R a) (V a) (E a) ∧ ∀ i, |V a i| ≤ M a) (hm : c.Mask V mask) (hs : c.SafeContrib k M E κ ε) :
    Sat (c.backward R mask g) fun l => Nears k l (c.contrib V v) (c.contribErr n k M E κ ε) := by
  have hnn := contribErr_nonneg (n := n) (k := k) hM hE hκ hε c
  have hu : (0 : ℚ) ≤ 1 / 2 ^ k := by positivity
  cases c with
  | leaf | param => exact Sat.pure .nil
  | addPub a f y => exact Sat.pure (.cons (near_shrink f hg hv hs) (hnn _ (by simp [Call.contribErr])) .nil)
  | bilPub a m B y =>
    refine Sat.bind (near_bilinearPub hn hk0 hk B.left y hs.1.2.1 hε hκ (top_nonneg y) hg hv (le_top y) hs.2.1 hs.2.2) fun x hx => ?_
    exact Sat.bind (P := fun _ => True) (fun _ _ _ _ => trivial) fun _ _ => Sat.pure (.cons hx (hnn _ (by simp [Call.contribErr])) .nil)
  | add a b f g =>
    exact Sat.pure (.cons (near_shrink f hg hv hs.1) (hnn _ (by simp [Call.contribErr])) (.cons (near_shrink g hg hv hs.2) (hnn _ (by simp [Call.contribErr])) .nil))
  | sub a b f g =>
    refine Sat.pure (.cons (near_shrink f hg hv hs.1) (hnn _ (by simp [Call.contribErr])) (.cons (near_neg (near_shrink g hg hv hs.2) (fun j => abs_sum_fin fun p => hv _) hs.2) (hnn _ (by simp [Call.contribErr])) .nil))
  | neg a e => exact Sat.pure (.cons (near_neg (hg.reindex e.symm) (fun i => hv _) hs) hε .nil)
  | mul a b f g =>
    have ha := h a (by simp [Call.operands])
    have hb := h b (by simp [Call.operands])
    refine Sat.bind (near_times hn hk0 hk id g.map hε (hE b) hκ (hM b) hg hb.1 hv hb.2 hs.1) fun x hx => ?_
    refine Sat.bind (near_times hn hk0 hk id f.map hε (hE a) hκ (hM a) hg ha.1 hv ha.2 hs.2.1) fun y hy => Sat.pure ?_
    have h1 := near_shrink (v := fun i => v i * V b (g.map i)) (κ := κ * M b) f hx (fun i => by rw [abs_mul]; exact mul_le_mul (hv _) (hb.2 _) (abs_nonneg _) hκ) hs.2.2.1
    have h2 := near_shrink (v := fun i => v i * V a (f.map i)) (κ := κ * M a) g hy (fun i => by rw [abs_mul]; exact mul_le_mul (hv _) (ha.2 _) (abs_nonneg _) hκ) hs.2.2.2
    exact .cons h1 (hnn _ (by simp [Call.contribErr])) (.cons h2 (hnn _ (by simp [Call.contribErr])) .nil)
  | mulNum a e c =>
    have ha := h a (by simp [Call.operands])
    refine Sat.bind (near_timesPub hn hk0 hk e.symm (fun _ => ()) (fun _ => c) hε hκ (abs_nonneg c) hg hv (fun _ => le_rfl) hs.1 hs.2) fun x hx => ?_
    exact Sat.bind (P := fun _ => True) (fun _ _ _ _ => trivial) fun _ _ => Sat.pure (.cons hx (hnn _ (by simp [Call.contribErr])) .nil)
  | bil a b B =>
    have ha := h a (by simp [Call.operands])
    have hb := h b (by simp [Call.operands])
    refine Sat.bind (near_bilinear hn hk0 hk B.left hs.1.2.1 hε (hE b) hκ (hM b) hg hb.1 hv hb.2 hs.2.1) fun x hx => ?_
    refine Sat.bind (near_bilinear hn hk0 hk B.right hs.1.2.2 (hE a) hε (hM a) hκ ha.1 hg ha.2 hv hs.2.2.1) fun y hy => Sat.pure ?_
    have hy' := near_sumFirst (v := fun p => bilinearQ B.right (V a) v p) hy (fun j => abs_sum_fin fun m => bilinearQ_abs_le B.right (m, j) (hs.1.2.2 (m, j)) (hM a) hκ ha.2 hv) hs.2.2.2
    exact .cons hx (hnn _ (by simp [Call.contribErr])) (.cons hy' (hnn _ (by simp [Call.contribErr])) .nil)
  | square a e =>
    have ha := h a (by simp [Call.operands])
    have hE' := hE a
    have hM' := hM a
    refine Sat.bind (near_timesPub hn hk0 hk id id (fun _ => 2) (C := 2) (hE a) (hM a) (by norm_num) ha.1 ha.2 (fun _ => by norm_num) hs.2.1 hs.1) fun x2 hx2 => ?_
    refine Sat.bind (near_times hn hk0 hk e.symm id (C := M a * 2) hε (by positivity) hκ (by positivity) hg hx2 hv (fun i => ?_) hs.2.2) fun x hx => Sat.pure ?_
    · rw [abs_mul, abs_of_pos (a := (2 : ℚ)) (by norm_num)]
      exact mul_le_mul_of_nonneg_right (ha.2 _) (by norm_num)
    · exact .cons hx (hnn _ (by simp [Call.contribErr])) .nil
  | sum a f =>
    refine Sat.bind (near_timesPub hn hk0 hk f.map id (fun _ => 1) (C := 1) hε hκ (by norm_num) hg hv (fun _ => by norm_num) hs.1 hs.2) fun x hx => Sat.pure ?_
    exact .cons (hx.congr fun i => mul_one _) (hnn _ (by simp [Call.contribErr])) .nil
  | mean a f =>
    refine Sat.bind (near_timesPub hn hk0 hk f.map id (fun _ => 1 / (f.size : ℚ)) (C := 1 / f.size) hε hκ (by positivity) hg hv (fun _ => by rw [abs_of_nonneg (by positivity)]) hs.1 hs.2) fun x hx => Sat.pure ?_
    exact .cons hx (hnn _ (by simp [Call.contribErr])) .nil
  | view a e => exact Sat.pure (.cons (hg.reindex e.symm) hε .nil)
  | relu a e =>
    refine Sat.bind (sat_reluBack hg hm).sat fun x hx => Sat.pure (.cons ((hx.reindex e.symm).congr fun j => ?_) hε .nil)
    simp only [decide_eq_true_eq, Equiv.apply_symm_apply]
  | part a f => exact Sat.pure (.cons (near_choose f.back hε hg) hε .nil)
  | cat a b e => exact Sat.pure (.cons (hg.reindex _) hε (.cons (hg.reindex _) hε .nil))
  | avg a f =>
    refine Sat.bind (near_bilinearPub hn hk0 hk (fun j => (f.back j).map fun i => (i, ())) (fun _ => 1 / (f.size : ℚ)) (L := f.uses) (C := 1 / f.size) (fun j => by rw [List.length_map]; exact hs.1.2 j) hε hκ (by positivity) hg hv
      (fun _ => by rw [abs_of_nonneg (by positivity)]) hs.2.1 hs.2.2) fun x hx => Sat.pure ?_
    refine .cons (hx.congr fun j => ?_) (hnn _ (by simp [Call.contribErr])) .nil
    unfold bilinearQ
    rw [List.map_map]
    rfl
  | maximum a method m f =>
    refine Sat.bind (sat_maxBack (b := fun p : Fin (m + 1) × sh d => f.Best (V a) p) hg (show (mask.reindex fun q : Fin (m + 1) × sh d => (q.1.val, q.2)).scale = 1 from hm.1) fun p => (value_reindex _ _ _).trans (hm.2 p.1 p.2)).sat fun x hx => Sat.pure ?_
    have hb : ∀ p : Fin (m + 1) × sh d, |v p.2 * if f.Best (V a) p then 1 else 0| ≤ κ := fun p => by
      split
      · rw [mul_one]; exact hv _
      · rw [mul_zero, abs_zero]; exact hκ
    exact .cons (near_sums f.back hs.1 hε hx (fun j => abs_sum_list (hs.1 j) hκ hb) hs.2) (hnn _ (by simp [Call.contribErr])) .nil

/-- Encrypted gradients near exact ones; a tensor without a gradient has the gradient 0. -/
def Close (k : ℕ) (K : ℕ → ℚ) (G : Grads n sh) (V : Nums sh) (D : ℕ → ℚ) : Prop :=
  ∀ r, (∀ g, G r = some g → Near k g (V r) (D r)) ∧ (G r = none → ∀ i, V r i = 0) ∧ 0 ≤ D r ∧ ∀ i, |V r i| ≤ K r

/-- Which tensors have a gradient. -/
def Has (G : Grads n sh) (Q : ℕ → Bool) : Prop := ∀ r, (G r).isSome = Q r

theorem sat_receive [NeZero n] {K : ℕ → ℚ} {G : Grads n sh} {V : Nums sh} {D : ℕ → ℚ} (h : Close k K G V D) {a : ℕ} {x : AST n (sh a)} {v : sh a → ℚ} {e : ℚ} (hx : Near k x v e) (he : 0 ≤ e)
    (hK : ∀ i, |V a i + v i| ≤ K a) (hfit : 2 ^ k * (K a + (D a + e)) < 2 ^ 63) :
    SatX (receive G ⟨a, x⟩) fun G' => Close k K G' (set (α := fun ι => ι → ℚ) V a fun i => V a i + v i) (Function.update D a (D a + e)) := by
  have main : ∀ z : AST n (sh a), Near k z (fun i => V a i + v i) (D a + e) →
      Close k K (set (α := fun ι => Option (AST n ι)) G a (some z)) (set (α := fun ι => ι → ℚ) V a fun i => V a i + v i) (Function.update D a (D a + e)) := fun z hz r => by
    by_cases hr : r = a
    · subst hr
      rw [set_self (α := fun ι => Option (AST n ι)), set_self (α := fun ι => ι → ℚ), Function.update_self]
      exact ⟨fun g hg => Option.some.inj hg ▸ hz, fun hg => (nomatch hg), add_nonneg (h r).2.2.1 he, hK⟩
    · rw [set_ne (α := fun ι => Option (AST n ι)) _ _ hr, set_ne (α := fun ι => ι → ℚ) _ _ hr, Function.update_of_ne hr]
      exact h r
  unfold receive
  have ha := h a
  simp only
  cases hG : G a with
  | none =>
    refine SatX.pure (main x ((hx.congr fun i => ?_).mono (by linarith [ha.2.2.1])))
    rw [ha.2.1 hG, zero_add]
  | some g => exact SatX.bind (near_add (ha.1 g hG) hx hK hfit) fun z hz => SatX.pure (main z hz)

theorem sat_receiveAll [NeZero n] {K : ℕ → ℚ} {l : List (Σ a, AST n (sh a))} {lv : List (Σ a, sh a → ℚ)} {es : List ℚ} (hl : Nears k l lv es) {G : Grads n sh} {V : Nums sh} {D : ℕ → ℚ} (h : Close k K G V D)
    (hs : SafeGather k K lv es V D) : SatX (receiveAll l G) fun G' => Close k K G' (gather lv V) (gatherErr lv es D) := by
  induction hl generalizing G V D with
  | nil => exact SatX.pure h
  | cons hx he _ ih => exact SatX.bind (sat_receive h hx he hs.1 hs.2.1) fun G' h' => ih h' hs.2.2

theorem close_zero {K : ℕ → ℚ} {lv : List (Σ a, sh a → ℚ)} {es : List ℚ} (hz : ∀ c ∈ lv, ∀ i, c.2 i = 0) (he : ∀ e ∈ es, 0 ≤ e) {G : Grads n sh} {V : Nums sh} {D : ℕ → ℚ} (h : Close k K G V D) :
    Close k K G (gather lv V) (gatherErr lv es D) := by
  have hV : ∀ lv : List (Σ a, sh a → ℚ), (∀ c ∈ lv, ∀ i, c.2 i = 0) → gather lv V = V := fun lv hz => by
    induction lv with
    | nil => rfl
    | cons c l ih =>
      have : (set (α := fun ι => ι → ℚ) V c.1 fun i => V c.1 i + c.2 i) = V := by
        funext r
        by_cases hr : r = c.1
        · subst hr
          rw [set_self (α := fun ι => ι → ℚ)]
          funext i
          rw [hz c (by simp), add_zero]
        · rw [set_ne (α := fun ι => ι → ℚ) _ _ hr]
      rw [gather, this]
      exact ih fun c hc => hz c (by simp [hc])
  have hD : ∀ r, D r ≤ gatherErr lv es D r := by
    clear h hV hz
    induction lv generalizing es D with
    | nil => intro r; cases es <;> exact le_rfl
    | cons c l ih =>
      intro r
      cases es with
      | nil => exact le_rfl
      | cons e es =>
        refine le_trans ?_ (ih (fun e he' => he e (by simp [he'])) (D := Function.update D c.1 (D c.1 + e)) r)
        by_cases hr : r = c.1
        · subst hr; rw [Function.update_self]; linarith [he e (by simp)]
        · rw [Function.update_of_ne hr]
  rw [hV lv hz]
  exact fun r => ⟨fun g hg => ((h r).1 g hg).mono (hD r), (h r).2.1, (h r).2.2.1.trans (hD r), (h r).2.2.2⟩

theorem contrib_zero (V : Nums sh) {d : ℕ} {g : sh d → ℚ} (hg : ∀ i, g i = 0) (c : Call n sh d) : ∀ x ∈ c.contrib V g, ∀ i, x.2 i = 0 := by
  cases c with
  | bil a b B => simp [Call.contrib, hg, bilinearQ]
  | bilPub a m B y => simp [Call.contrib, hg, bilinearQ]
  | part a f =>
    simp only [Call.contrib, List.mem_cons, List.not_mem_nil, or_false, forall_eq]
    intro j
    cases f.back j with
    | none => rfl
    | some i => exact hg i
  | _ => simp [Call.contrib, hg]

theorem sat_both {α : Type} {m : Proto n α} {A B : α → Prop} (ha : Sat m A) (hb : Sat m B) : Sat m fun z => A z ∧ B z := fun T hT c hg => ⟨ha T hT c hg, hb T hT c hg⟩

theorem has_receive [NeZero n] {G : Grads n sh} {Q : ℕ → Bool} (h : Has G Q) (c : Σ a, AST n (sh a)) : Sat (receive G c) fun G' => Has G' fun r => Q r || decide (r = c.1) := by
  have main : ∀ z : AST n (sh c.1), Has (set (α := fun ι => Option (AST n ι)) G c.1 (some z)) fun r => Q r || decide (r = c.1) := fun z r => by
    by_cases hr : r = c.1
    · subst hr; rw [set_self (α := fun ι => Option (AST n ι))]; simp
    · rw [set_ne (α := fun ι => Option (AST n ι)) _ _ hr, h r]; simp [hr]
  unfold receive
  cases hG : G c.1 with
  | none => exact Sat.pure (main _)
  | some g => exact Sat.bind (P := fun _ => True) (fun _ _ _ _ => trivial) fun z _ => Sat.pure (main z)

theorem has_receiveAll [NeZero n] {k : ℕ} {l : List (Σ a, AST n (sh a))} {lv : List (Σ a, sh a → ℚ)} {es : List ℚ} (hl : Nears k l lv es) {G : Grads n sh} {Q : ℕ → Bool} (h : Has G Q) :
    Sat (receiveAll l G) fun G' => Has G' fun r => Q r || decide (r ∈ lv.map Sigma.fst) := by
  induction hl generalizing G Q with
  | nil => exact Sat.pure fun r => by rw [h r]; simp
  | cons hx he _ ih =>
    refine Sat.bind (has_receive h _) fun G' h' => (ih h').mono fun G'' h'' r => ?_
    rw [h'' r]
    simp only [List.map_cons, List.mem_cons, Bool.decide_or, Bool.or_assoc]

theorem contrib_fst (V : Nums sh) {d : ℕ} (g : sh d → ℚ) (c : Call n sh d) : (c.contrib V g).map Sigma.fst = c.operands := by
  cases c <;> rfl

theorem sat_backward [NeZero n] (hn : n < 2 ^ 60) (hk0 : 0 < k) (hk : k ≤ 62) {M E K : ℕ → ℚ} {V : Nums sh} {s : Regs n sh × Saved n sh} (hM : ∀ r, 0 ≤ M r) (hE : ∀ r, 0 ≤ E r) (hK : ∀ r, 0 ≤ K r) (t : Tape n sh)
    (hop : ∀ x ∈ t, (∀ a ∈ x.2.operands, Near k (s.1 a) (V a) (E a) ∧ ∀ i, |V a i| ≤ M a) ∧ x.2.Mask V (s.2 x.1)) {G : Grads n sh} {W : Nums sh} {D : ℕ → ℚ} (h : Close k K G W D) {Q : ℕ → Bool} (hQ : Has G Q)
    (hs : SafeBackward k M E K V t W D) : Sat (backward s.1 s.2 t G) fun G' => Close k K G' (grads V t W) (gradErrs n k M E K V t W D) ∧ Has G' (reach t Q) := by
  induction t generalizing G W D Q with
  | nil => exact Sat.pure ⟨h, hQ⟩
  | cons y t ih =>
    obtain ⟨d, c⟩ := y
    have hc := hop _ (by simp : (⟨d, c⟩ : Σ d, Call n sh d) ∈ _)
    have ht := fun x (hx : x ∈ t) => hop x (List.mem_cons_of_mem _ hx)
    unfold backward
    have hd := h d
    cases hG : G d with
    | none =>
      have hq : Q d = false := by rw [← hQ d, hG]; rfl
      rw [reach, if_neg (by rw [hq]; exact Bool.false_ne_true)]
      exact ih ht (close_zero (contrib_zero V (hd.2.1 hG) c) (contribErr_nonneg hM hE (hK d) hd.2.2.1 c) h) hQ hs.2.2
    | some g =>
      have hq : Q d = true := by rw [← hQ d, hG]; rfl
      rw [reach, if_pos hq]
      refine Sat.bind (sat_contrib hn hk0 hk hM hE c (hK d) hd.2.2.1 (hd.1 g hG) hd.2.2.2 hc.1 hc.2 hs.1) fun l hl => ?_
      refine Sat.bind (sat_both (sat_receiveAll hl h hs.2.1).sat (has_receiveAll hl hQ)) fun G' h' => ih ht h'.1 ?_ hs.2.2
      have h1 := h'.2
      rw [contrib_fst] at h1
      exact h1

theorem sat_run [NeZero n] (hn : n < 2 ^ 60) (hk0 : 0 < k) (hk : k ≤ 62) (t : Tape n sh) (init : Regs n sh) (out : ℕ) {P M K : ℕ → ℚ} (W : Nums sh) (hP : ∀ r, 0 ≤ P r) (hM : ∀ r, 0 ≤ M r) (hK : ∀ r, 0 ≤ K r)
    (hK1 : 1 ≤ K out) (ho : Ordered t) (hp : ∀ r, ⟨r, .param⟩ ∈ t → Near k (init r) (W r) (P r)) (hf : SafeForward k P M W t)
    (hb : SafeBackward k M (errs n k P M t) K (values W t) t (seed out) fun _ => 0) :
    Sat (run k t init out) fun z => (∀ r ∈ regs t, Near k (z.1 r) (values W t r) (errs n k P M t r)) ∧
      Close k K z.2 (grads (values W t) t (seed out)) (gradErrs n k M (errs n k P M t) K (values W t) t (seed out) fun _ => 0) ∧ Has z.2 (reach t fun r => decide (r = out)) := by
  have hp0 : (0 : ℚ) < 2 ^ k := by positivity
  have hone : (truncQ (2 ^ k * 1) : ℚ) = 2 ^ k := by
    rw [mul_one, show ((2 : ℚ) ^ k) = (((2 : ℤ) ^ k : ℤ) : ℚ) by push_cast; rfl, truncQ_intCast]
  refine Sat.bind (sat_forward hn hk0 hk hP hM t ho hf (init, fun r => (init r).reindex Prod.snd) hp) fun s hs => ?_
  refine Sat.bind (sat_encryptA 0 _).sat fun one h1 => ?_
  have hnear : Near k (⟨one, 2 ^ k⟩ : AST n (sh out)) (fun _ => 1) 0 := by
    refine near_of_word rfl (fun i => truncQ (2 ^ k * 1)) (fun i => ?_) (fun i => ?_) (B := 1) (fun i => by rw [abs_one]) ?_
    · show reveal one i = _
      rw [h1, encodePublic_ofInt]; push_cast; rfl
    · rw [hone, div_self hp0.ne', sub_self, abs_zero]
    · rw [add_zero, mul_one]; exact_mod_cast Nat.pow_lt_pow_right (by norm_num) (by omega : k < 63)
  have hc : Close k K (set (α := fun ι => Option (AST n ι)) (fun _ => none) out (some ⟨one, 2 ^ k⟩)) (seed out) fun _ => 0 := fun r => by
    unfold seed
    by_cases hr : r = out
    · subst hr
      rw [set_self (α := fun ι => Option (AST n ι)), set_self (α := fun ι => ι → ℚ)]
      exact ⟨fun g hg => Option.some.inj hg ▸ hnear, fun hg => (nomatch hg), le_rfl, fun i => by rw [abs_one]; exact hK1⟩
    · rw [set_ne (α := fun ι => Option (AST n ι)) _ _ hr, set_ne (α := fun ι => ι → ℚ) _ _ hr]
      exact ⟨fun g hg => (nomatch hg), fun _ _ => rfl, le_rfl, fun i => by rw [abs_zero]; exact hK r⟩
  have hQ : Has (set (α := fun ι => Option (AST n ι)) (fun _ => none) out (some (⟨one, 2 ^ k⟩ : AST n (sh out)))) fun r => decide (r = out) := fun r => by
    by_cases hr : r = out
    · subst hr; rw [set_self (α := fun ι => Option (AST n ι))]; simp
    · rw [set_ne (α := fun ι => Option (AST n ι)) _ _ hr]; simp [hr]
  exact Sat.bind (sat_backward hn hk0 hk hM (errs_nonneg hP hM t) hK t (fun x hx => ⟨fun a ha => hs.2.1 a (ho.operands hx ha), hs.2.2 x hx⟩) hc hQ hb) fun G hG => Sat.pure ⟨fun r hr => (hs.2.1 r hr).1, hG⟩

/-- **C98 (values and gradients).** Record any computation with one number `out` as result, made of encryptions, parameters that were encrypted before (with error `P`), sums, differences, products (with broadcasting),
bilinear functions (matrix products, convolutions), sums and products with public numbers, squares, sums and means over dimensions, views, parts, concatenations, average pooling, maxima (over dimensions, max pooling) and `relu`, and call `out.backward()`. In every execution in which no wrap-around
spoils a truncation, the results of all calls are within `errs` of the exact ones. The tensors that `out` depends on get gradients, which are within `gradErrs` of the exact ones; the others get none, and their exact gradient
is 0. -/
theorem C98_backward [NeZero n] (hn : n < 2 ^ 60) (hk0 : 0 < k) (hk : k ≤ 62) (t : Tape n sh) (init : Regs n sh) (out : ℕ) (P M K : ℕ → ℚ) (W : Nums sh) (hP : ∀ r, 0 ≤ P r) (hM : ∀ r, 0 ≤ M r) (hK : ∀ r, 0 ≤ K r)
    (hK1 : 1 ≤ K out) (ho : Ordered t) (hp : ∀ r, ⟨r, .param⟩ ∈ t → Sgd.Approx k (init r) (W r) (P r)) (hf : SafeForward k P M W t)
    (hb : SafeBackward k M (errs n k P M t) K (values W t) t (seed out) fun _ => 0) :
    Sat (run k t init out) fun z =>
      (∀ r ∈ regs t, Sgd.Approx k (z.1 r) (values W t r) (errs n k P M t r)) ∧
      ∀ r, match z.2 r with
        | some g => reach t (fun r => decide (r = out)) r = true ∧
            Sgd.Approx k g (grads (values W t) t (seed out) r) (gradErrs n k M (errs n k P M t) K (values W t) t (seed out) (fun _ => 0) r)
        | none => reach t (fun r => decide (r = out)) r = false ∧ ∀ i, grads (values W t) t (seed out) r i = 0 := by
  refine (sat_run hn hk0 hk t init out W hP hM hK hK1 ho hp hf hb).mono fun z hz => ⟨hz.1, fun r => ?_⟩
  have hr := hz.2.2 r
  cases hg : z.2 r with
  | none => exact ⟨by rw [← hr, hg]; rfl, (hz.2.1 r).2.1 hg⟩
  | some g => exact ⟨by rw [← hr, hg]; rfl, (hz.2.1 r).1 g hg⟩

/-! ## Runs without wrap-around exist -/

theorem _root_.CrypTen.AST.Alone.choose {ι κ : Type} {x : AST n ι} [NeZero n] (h : x.Alone) (f : κ → Option ι) : (x.choose f).Alone := fun p hp i => by
  show (f i).elim 0 (x.share p) = 0
  cases f i with
  | none => rfl
  | some j => exact h p hp j

theorem _root_.CrypTen.AST.Alone.join {ι ι' κ : Type} {x : AST n ι} {y : AST n ι'} [NeZero n] (h : x.Alone) (g : y.Alone) (e : κ → ι ⊕ ι') : (AST.join e x y).Alone := fun p hp i => by
  show (e i).elim (x.share p) (y.share p) = 0
  cases e i with
  | inl j => exact h p hp j
  | inr j => exact g p hp j

theorem _root_.CrypTen.AST.Alone.sums {ι κ : Type} {x : AST n ι} [NeZero n] (h : x.Alone) (f : κ → List ι) : (x.sums f).Alone := fun p hp i => by
  show ((f i).map (x.share p)).sum = 0
  refine List.sum_eq_zero fun z hz => ?_
  obtain ⟨j, _, rfl⟩ := List.mem_map.1 hz
  exact h p hp j

theorem calm_pLoop [NeZero n] {ι : Type} (m s : ℕ) (P : Shares n ι) : Calm (pLoop m s P) fun _ => True := by
  induction m generalizing s P with
  | zero => exact Calm.pure trivial
  | succ m ih => exact Calm.bind (calm_and _ _) fun _ _ => ih _ _

theorem calm_eqX [NeZero n] {ι : Type} (x y : Shares n ι) : Calm (eqX x y) fun _ => True := Calm.bind (calm_pLoop _ _ _) fun _ _ => Calm.pure trivial

theorem calm_eq [NeZero n] {ι : Type} (D : ℕ) {x y : AST n ι} (hx : x.Alone) (hy : y.Alone) : Calm (x.eq D (.enc y)) AST.Alone := by
  have hsub := calm_sub hx hy
  unfold AST.eq
  split
  · rename_i h
    subst h
    exact Calm.bind hsub fun d hd => Calm.bind (calm_encryptX _ _) fun _ _ => Calm.bind (calm_encryptX _ _) fun _ _ => Calm.bind (P := fun _ => True) (calm_eqX _ _) fun _ _ =>
      Calm.bind (calm_b2a _ _ _ _) fun _ hs => Calm.pure hs
  · exact Calm.bind (P := AST.Alone) (Calm.bind hsub fun d hd => Calm.bind (calm_ltz _ _) fun r hr => Calm.pure (AST.Alone.sumFirst hr)) fun r hr => Calm.pure hr.oneMinus

theorem calm_maxArgmax [NeZero n] (k : ℕ) (method : MaxMethod) {m : ℕ} {κ : Type} {x : AST n (Fin m × κ)} (h : x.Alone) : Calm (x.maxArgmax k method) fun r => r.1.Alone ∧ r.2.Alone := by
  have tree : ∀ method, Calm (do let mx ← x.maxFirst k method; let e ← x.eq (2 ^ k) (.enc (mx.reindex Prod.snd)); let oneHot ← e.weightedIndex k; pure (mx, oneHot)) fun r => r.1.Alone ∧ r.2.Alone := fun method =>
    Calm.bind (calm_max k method h) fun mx hmx => Calm.bind (calm_eq _ h (hmx.reindex _)) fun e he => Calm.bind (calm_weightedIndex k he) fun z hz => Calm.pure ⟨hmx, hz⟩
  cases method with
  | pairwise => exact Calm.bind (Calm.bind (calm_argmaxPairwise k h) fun _ ha => calm_weightedIndex k ha) fun z hz => Calm.bind (calm_mul _ _ _) fun y hy => Calm.pure ⟨AST.Alone.sumFirst hy, hz⟩
  | logReduction steps => exact tree _
  | doubleLog => exact tree _
  | cascade steps => exact tree _

theorem calm_call [NeZero n] (k : ℕ) {R : Regs n sh} (h : ∀ r, (R r).Alone) {d : ℕ} (c : Call n sh d) (hl : ∀ src x, c ≠ .leaf src x) : Calm (c.forward k R) fun z => z.1.Alone ∧ z.2.Alone := by
  cases c with
  | leaf src x => exact absurd rfl (hl src x)
  | param => exact Calm.pure ⟨h d, (h d).reindex _⟩
  | addPub a f y => exact Calm.pure ⟨((h a).reindex _).addPub _, (((h a).reindex _).addPub _).reindex _⟩
  | bilPub a m B y => exact Calm.bind (calm_mulPub _ (h a) _) fun _ hz => Calm.pure ⟨hz, hz.reindex _⟩
  | add a b f g => exact Calm.bind (calm_add ((h a).reindex _) ((h b).reindex _)) fun _ hz => Calm.pure ⟨hz, hz.reindex _⟩
  | sub a b f g => exact Calm.bind (calm_sub ((h a).reindex _) ((h b).reindex _)) fun _ hz => Calm.pure ⟨hz, hz.reindex _⟩
  | neg a e => exact Calm.pure ⟨((h a).reindex _).neg, (((h a).reindex _).neg).reindex _⟩
  | mul a b f g => exact Calm.bind (calm_mul _ _ _) fun _ hz => Calm.pure ⟨hz, hz.reindex _⟩
  | mulNum a e c => exact Calm.bind (calm_mulPub _ (h a) _) fun _ hz => Calm.pure ⟨hz, hz.reindex _⟩
  | bil a b B => exact Calm.bind (calm_mul _ _ _) fun _ hz => Calm.pure ⟨hz, hz.reindex _⟩
  | square a e => exact Calm.bind (calm_square _) fun _ hz => Calm.pure ⟨hz, hz.reindex _⟩
  | sum a f => exact Calm.pure ⟨AST.Alone.sumFirst ((h a).reindex _), (AST.Alone.sumFirst ((h a).reindex _)).reindex _⟩
  | mean a f => exact Calm.bind (calm_divInt (AST.Alone.sumFirst ((h a).reindex _)) _) fun _ hz => Calm.pure ⟨hz, hz.reindex _⟩
  | view a e => exact Calm.pure ⟨(h a).reindex _, ((h a).reindex _).reindex _⟩
  | relu a e => exact Calm.bind (calm_gt _ ((h a).reindex _) _ fun z hz => nomatch hz) fun _ hm => Calm.bind (calm_mul _ _ _) fun _ hz => Calm.pure ⟨hz, hm.reindex _⟩
  | part a f => exact Calm.pure ⟨(h a).choose _, ((h a).choose _).reindex _⟩
  | cat a b e => exact Calm.pure ⟨(h a).join (h b) _, ((h a).join (h b) _).reindex _⟩
  | avg a f => exact Calm.bind (calm_divInt ((h a).sums _) _) fun _ hz => Calm.pure ⟨hz, hz.reindex _⟩
  | maximum a method m f => exact Calm.bind (calm_maxArgmax k method ((h a).reindex _)) fun _ hz => Calm.pure ⟨hz.1, hz.2.reindex _⟩

theorem calm_contrib [NeZero n] {R : Regs n sh} (h : ∀ r, (R r).Alone) {d : ℕ} (mask : AST n (ℕ × sh d)) {g : AST n (sh d)} (hg : g.Alone) (c : Call n sh d) : Calm (c.backward R mask g) fun l => ∀ x ∈ l, x.2.Alone := by
  have hsh : ∀ {α : Type} (f : Spread (sh d) α), (shrink f g).Alone := fun f => AST.Alone.sumFirst (hg.reindex _)
  cases c with
  | leaf src x => exact Calm.pure (by simp)
  | param => exact Calm.pure (by simp)
  | addPub a f y => exact Calm.pure (by simp [hsh])
  | bilPub a m B y => exact Calm.bind (calm_mulPub _ hg _) fun x hx => Calm.bind (calm_mul _ _ _) fun _ _ => Calm.pure (by simp [hx])
  | add a b f g => exact Calm.pure (by simp [hsh])
  | sub a b f g => exact Calm.pure (by simp [hsh, AST.Alone.neg])
  | neg a e => exact Calm.pure (by simp [(hg.reindex _).neg])
  | mul a b f h => exact Calm.bind (calm_mul _ _ _) fun x hx => Calm.bind (calm_mul _ _ _) fun y hy => Calm.pure (by simp [shrink, AST.Alone.sumFirst (hx.reindex _), AST.Alone.sumFirst (hy.reindex _)])
  | mulNum a e c => exact Calm.bind (calm_mulPub _ hg _) fun x hx => Calm.bind (calm_mul _ _ _) fun _ _ => Calm.pure (by simp [hx])
  | bil a b B => exact Calm.bind (calm_mul _ _ _) fun x hx => Calm.bind (calm_mul _ _ _) fun y hy => Calm.pure (by simp [hx, AST.Alone.sumFirst hy])
  | square a e => exact Calm.bind (calm_mulPub _ (h a) _) fun _ _ => Calm.bind (calm_mul _ _ _) fun x hx => Calm.pure (by simp [hx])
  | sum a f => exact Calm.bind (calm_mulPub _ hg _) fun x hx => Calm.pure (by simp [hx])
  | mean a f => exact Calm.bind (calm_mulPub _ hg _) fun x hx => Calm.pure (by simp [hx])
  | view a e => exact Calm.pure (by simp [hg.reindex])
  | relu a e => exact Calm.bind (calm_mul _ _ _) fun x hx => Calm.pure (by simp [hx.reindex])
  | part a f => exact Calm.pure (by simp [hg.choose])
  | cat a b e => exact Calm.pure (by simp [hg.reindex])
  | avg a f => exact Calm.bind (calm_mulPub _ hg _) fun x hx => Calm.pure (by simp [hx])
  | maximum a method m f => exact Calm.bind (calm_mul _ _ _) fun x hx => Calm.pure (by simp [hx.sums])

theorem calm_receiveAll [NeZero n] (l : List (Σ a, AST n (sh a))) (hl : ∀ x ∈ l, x.2.Alone) (G : Grads n sh) (hG : ∀ r g, G r = some g → g.Alone) : Calm (receiveAll l G) fun G' => ∀ r g, G' r = some g → g.Alone := by
  induction l generalizing G with
  | nil => exact Calm.pure hG
  | cons c l ih =>
    have hset : ∀ z : AST n (sh c.1), z.Alone → ∀ r g, set (α := fun ι => Option (AST n ι)) G c.1 (some z) r = some g → g.Alone := fun z hz r g hg => by
      by_cases hr : r = c.1
      · subst hr; rw [set_self (α := fun ι => Option (AST n ι))] at hg; exact Option.some.inj hg ▸ hz
      · rw [set_ne (α := fun ι => Option (AST n ι)) _ _ hr] at hg; exact hG r g hg
    refine Calm.bind (P := fun G' => ∀ r g, G' r = some g → g.Alone) ?_ fun G' hG' => ih (fun x hx => hl x (by simp [hx])) G' hG'
    unfold receive
    cases h : G c.1 with
    | none => exact Calm.pure (hset _ (hl c (by simp)))
    | some g => exact Calm.bind (calm_add (hG _ _ h) (hl c (by simp))) fun z hz => Calm.pure (hset z hz)

theorem calm_backward [NeZero n] {R : Regs n sh} (h : ∀ r, (R r).Alone) (S : Saved n sh) (t : Tape n sh) (G : Grads n sh) (hG : ∀ r g, G r = some g → g.Alone) : Calm (backward R S t G) fun G' => ∀ r g, G' r = some g → g.Alone := by
  induction t generalizing G with
  | nil => exact Calm.pure hG
  | cons x t ih =>
    obtain ⟨d, c⟩ := x
    unfold backward
    cases hd : G d with
    | none => exact ih G hG
    | some g => exact Calm.bind (calm_contrib h _ (hG d g hd) c) fun l hl => Calm.bind (calm_receiveAll l hl G hG) fun G' hG' => ih G' hG'

theorem possible_assoc [NeZero n] {α β γ : Type} {m : Proto n α} {g : α → Proto n β} {f : β → Proto n γ} {c : ℕ} (h : Program.Possible (m >>= fun a => g a >>= f) c) : Program.Possible ((m >>= g) >>= f) c := by
  obtain ⟨Z, h1, h2⟩ := h
  exact ⟨Z, h1, fun Z' hZ' => ⟨⟨(h2 Z' hZ').1, (h2 Z' hZ').2.1⟩, (h2 Z' hZ').2.2⟩⟩

theorem possible_forward [NeZero n] (k : ℕ) (t : Tape n sh) (s : Regs n sh × Saved n sh) (hs : ∀ r, (s.1 r).Alone) {β : Type} {f : Regs n sh × Saved n sh → Proto n β} (hf : ∀ s, (∀ r, (s.1 r).Alone) → ∀ c, Program.Possible (f s) c)
    (c : ℕ) : Program.Possible (forward k t s >>= f) c := by
  induction t generalizing f c with
  | nil =>
    obtain ⟨Z, h1, h2⟩ := hf s hs c
    exact ⟨Z, h1, fun Z' hZ' => ⟨trivial, h2 Z' hZ'⟩⟩
  | cons x t ih =>
    obtain ⟨d, call⟩ := x
    refine possible_assoc (ih (fun s hs c => possible_assoc ?_) c)
    have hk : ∀ r : AST n (sh d) × AST n (ℕ × sh d), r.1.Alone → ∀ c, Program.Possible (pure (set (α := AST n) s.1 d r.1, set (sh := fun r => ℕ × sh r) (α := AST n) s.2 d r.2) >>= f) c := fun r hr c => by
      obtain ⟨Z, h1, h2⟩ := hf (set (α := AST n) s.1 d r.1, set (sh := fun r => ℕ × sh r) (α := AST n) s.2 d r.2) (Program.set_alone hs d hr) c
      exact ⟨Z, h1, fun Z' hZ' => ⟨trivial, h2 Z' hZ'⟩⟩
    by_cases hl : ∃ src x, call = .leaf src x
    · obtain ⟨src, x, rfl⟩ := hl
      refine possible_assoc (Program.Possible.input src _ (fun a ha c => ?_) c)
      obtain ⟨Z, h1, h2⟩ := hk (⟨a, 2 ^ k⟩, (⟨a, 2 ^ k⟩ : AST n (sh d)).reindex Prod.snd) ha c
      exact ⟨Z, h1, fun Z' hZ' => ⟨trivial, h2 Z' hZ'⟩⟩
    · exact Program.Possible.of_calm (calm_call k hs call fun src x e => hl ⟨src, x, e⟩) (fun r hr c => hk r hr.1 c) c

theorem possible_run [NeZero n] (k : ℕ) (t : Tape n sh) (init : Regs n sh) (hi : ∀ r, (init r).Alone) (out : ℕ) {β : Type} {f : Regs n sh × Grads n sh → Proto n β}
    (hf : ∀ z, (∀ r, (z.1 r).Alone) → (∀ r g, z.2 r = some g → g.Alone) → ∀ c, Program.Possible (f z) c) (c : ℕ) : Program.Possible (run k t init out >>= f) c := by
  refine possible_assoc (possible_forward k t (init, fun r => (init r).reindex Prod.snd) hi (fun s hs c => possible_assoc ?_) c)
  refine Program.Possible.of_calm (calm_encryptA _) (fun one h1 c => possible_assoc ?_) c
  refine Program.Possible.of_calm (calm_backward hs s.2 t _ fun r g hg => ?_) (fun G hG c => ?_) c
  · by_cases hr : r = out
    · subst hr; rw [set_self (α := fun ι => Option (AST n ι))] at hg; exact Option.some.inj hg ▸ h1
    · rw [set_ne (α := fun ι => Option (AST n ι)) _ _ hr] at hg; exact nomatch hg
  · obtain ⟨Z, h1, h2⟩ := hf (s.1, G) hs hG c
    exact ⟨Z, h1, fun Z' hZ' => ⟨trivial, h2 Z' hZ'⟩⟩

theorem possible_pure [NeZero n] {β : Type} (b : β) (c : ℕ) : Program.Possible (pure b : Proto n β) c := ⟨fun _ _ => 0, fun _ _ i => reveal_zero i, fun _ _ => trivial⟩

/-- **C98 (good runs exist).** For every tape, whoever encrypts the leaves, there is an execution in which no wrap-around spoils a truncation. -/
theorem C98_good_run [NeZero n] (k : ℕ) (t : Tape n sh) (out : ℕ) : ∃ T : Tuples n, T.Valid ∧ (run k t (fun _ => ⟨0, 2 ^ k⟩) out T 0).good := by
  obtain ⟨T, hT, hg⟩ := Program.Possible.run (possible_run k t (fun _ => ⟨0, 2 ^ k⟩) (fun r p _ i => rfl) out (f := pure) (fun z _ _ c => possible_pure z c) 0)
  exact ⟨T, hT, hg.1⟩

end CrypTen.Backprop

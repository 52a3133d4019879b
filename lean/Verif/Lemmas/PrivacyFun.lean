import Verif.Lemmas.PrivacyOps
import Verif.Model.Dropout
import Verif.Model.Pool

/-! The functions built from the primitives hide the inputs of a party. -/

namespace CrypTen.Privacy
variable {n : ℕ} [NeZero n] {p : ℕ} {method : MaxMethod} {ι ι' κ : Type} {h : Fin n}

theorem o_add {x x' y y' : AST n ι} (e : ASame h x x') (f : ASame h y y') : Hidden h (ASame h) ((mpcOps n p method).add x y) ((mpcOps n p method).add x' y') := hide_add e f
theorem o_sub {x x' y y' : AST n ι} (e : ASame h x x') (f : ASame h y y') : Hidden h (ASame h) ((mpcOps n p method).sub x y) ((mpcOps n p method).sub x' y') := hide_sub e f
theorem o_mul {x x' y y' : AST n ι} (e : ASame h x x') (f : ASame h y y') : Hidden h (ASame h) ((mpcOps n p method).mul x y) ((mpcOps n p method).mul x' y') := hide_mul _ e f
theorem o_square {x x' : AST n ι} (e : ASame h x x') : Hidden h (ASame h) ((mpcOps n p method).square x) ((mpcOps n p method).square x') := hide_square e
theorem o_neg {x x' : AST n ι} (e : ASame h x x') : ASame h ((mpcOps n p method).neg x) ((mpcOps n p method).neg x') := e.neg
theorem o_addNum {x x' : AST n ι} (e : ASame h x x') (c : ℚ) : ASame h ((mpcOps n p method).addNum x c) ((mpcOps n p method).addNum x' c) := e.addPub _
theorem o_subNum {x x' : AST n ι} (e : ASame h x x') (c : ℚ) : ASame h ((mpcOps n p method).subNum x c) ((mpcOps n p method).subNum x' c) := e.subPub _
theorem o_rsubNum {x x' : AST n ι} (e : ASame h x x') (c : ℚ) : ASame h ((mpcOps n p method).rsubNum c x) ((mpcOps n p method).rsubNum c x') := e.neg.addPub _
theorem o_mulInt {x x' : AST n ι} (e : ASame h x x') (z : ℤ) : ASame h ((mpcOps n p method).mulInt x z) ((mpcOps n p method).mulInt x' z) := e.mulInt z
theorem o_mulPub {x x' : AST n ι} (e : ASame h x x') (c : ι → ℚ) : Hidden h (ASame h) ((mpcOps n p method).mulPub x c) ((mpcOps n p method).mulPub x' c) := hide_mulPub _ e c
theorem o_mulNum {x x' : AST n ι} (e : ASame h x x') (c : ℚ) : Hidden h (ASame h) ((mpcOps n p method).mulNum x c) ((mpcOps n p method).mulNum x' c) := hide_mulPub _ e _
theorem o_divInt {x x' : AST n ι} (e : ASame h x x') (z : ℤ) : Hidden h (ASame h) ((mpcOps n p method).divInt x z) ((mpcOps n p method).divInt x' z) := hide_divInt e _
theorem o_ltz {x x' : AST n ι} (e : ASame h x x') : Hidden h (ASame h) ((mpcOps n p method).ltz x) ((mpcOps n p method).ltz x') := hide_ltz _ e
theorem o_const (ι : Type) (c : ℚ) : Hidden h (ASame h) ((mpcOps n p method).const ι c) ((mpcOps n p method).const ι c) :=
  .bind .refl (.encryptA fun _ => rfl) fun _ _ ha => .pure ⟨rfl, ha⟩
theorem o_reindex {x x' : AST n ι} (e : ASame h x x') (g : κ → ι) : ASame h ((mpcOps n p method).reindex g x) ((mpcOps n p method).reindex g x') := e.reindex g
theorem o_cat {a b : ℕ} {x x' : AST n (Fin a × ι)} {y y' : AST n (Fin b × ι)} (e : ASame h x x') (f : ASame h y y') : ASame h ((mpcOps n p method).cat x y) ((mpcOps n p method).cat x' y') :=
  ⟨e.1, map2_off e.2 f.2 fun _ t u (k : Fin (a + b) × ι) => Fin.addCases (motive := fun _ => I64) (fun j : Fin a => t (j, k.2)) (fun j : Fin b => u (j, k.2)) k.1⟩
theorem o_stack (m : ℕ) {x x' : Fin m → AST n ι} (e : ∀ k, ASame h (x k) (x' k)) : ASame h ((mpcOps n p method).stack m x) ((mpcOps n p method).stack m x') := by
  refine ⟨?_, fun q hq => ?_⟩
  · show (if h : 0 < m then (x ⟨0, h⟩).scale else 2 ^ p) = if h : 0 < m then (x' ⟨0, h⟩).scale else 2 ^ p
    split
    · exact (e _).1
    · rfl
  · funext k; exact congrFun ((e k.1).2 q hq) k.2
theorem o_sum {m : ℕ} {x x' : AST n (Fin m × ι)} (e : ASame h x x') : ASame h ((mpcOps n p method).sum x) ((mpcOps n p method).sum x') := e.sumFirst
theorem o_max {m : ℕ} {x x' : AST n (Fin m × ι)} (e : ASame h x x') : Hidden h (ASame h) ((mpcOps n p method).max x) ((mpcOps n p method).max x') := hide_maxFirst _ _ e
theorem o_dotPub {m : ℕ} {x x' : AST n (Fin m × ι)} (e : ASame h x x') (c : Fin m → ℚ) : Hidden h (ASame h) ((mpcOps n p method).dotPub x c) ((mpcOps n p method).dotPub x' c) := hide_mulPub _ e c

omit [NeZero n] in
theorem hide_iterM {α : Type} {R : α → α → Prop} (hR : ∀ a, R a a) {f f' : α → Proto n α} (hf : ∀ a a', R a a' → Hidden h R (f a) (f' a')) (k : ℕ) {a a' : α} (ha : R a a') :
    Hidden h R (iterM f k a) (iterM f' k a') := by
  induction k generalizing a a' with
  | zero => exact .pure ha
  | succ k ih => exact .bind hR (hf _ _ ha) fun _ _ hb => ih hb

omit [NeZero n] in
theorem abind {β : Type} {S : β → β → Prop} {m m' : Proto n (AST n ι)} {f f' : AST n ι → Proto n β} (hm : Hidden h (ASame h) m m') (hf : ∀ a a', ASame h a a' → Hidden h S (f a) (f' a')) :
    Hidden h S (m >>= f) (m' >>= f') := .bind .refl hm hf

/-- Apply the rules for the operations. -/
macro "hid" : tactic => `(tactic| (repeat' (first | assumption | exact ASame.refl _ | (with_reducible apply o_neg) | (with_reducible apply o_addNum) | (with_reducible apply o_subNum) | (with_reducible apply o_rsubNum) | (with_reducible apply o_mulInt) | (with_reducible apply o_reindex) | (with_reducible apply o_cat) | (with_reducible apply o_sum) | (with_reducible apply o_add) | (with_reducible apply o_sub) | (with_reducible apply o_mul) | (with_reducible apply o_square) | (with_reducible apply o_mulPub) | (with_reducible apply o_mulNum) | (with_reducible apply o_divInt) | (with_reducible apply o_ltz) | (with_reducible apply o_const) | (with_reducible apply o_max) | (with_reducible apply o_dotPub) | (refine Hidden.pure ?_) | (refine abind ?_ (fun _ _ _ => ?_)))))

theorem f_sign {x x' : AST n ι} (e : ASame h x x') : Hidden h (ASame h) ((mpcOps n p method).sign x) ((mpcOps n p method).sign x') := by unfold Ops.sign; hid
theorem f_abs {x x' : AST n ι} (e : ASame h x x') : Hidden h (ASame h) ((mpcOps n p method).abs x) ((mpcOps n p method).abs x') := by
  unfold Ops.abs; exact .bind .refl (f_sign e) fun _ _ ha => by hid
theorem f_relu {x x' : AST n ι} (e : ASame h x x') : Hidden h (ASame h) ((mpcOps n p method).relu x) ((mpcOps n p method).relu x') := by unfold Ops.relu; hid
theorem f_hardtanh (lo hi : ℚ) {x x' : AST n ι} (e : ASame h x x') : Hidden h (ASame h) ((mpcOps n p method).hardtanh lo hi x) ((mpcOps n p method).hardtanh lo hi x') := by
  unfold Ops.hardtanh
  refine .bind .refl (f_relu (o_stack 2 fun k => ?_)) fun _ _ ha => by hid
  split <;> hid
theorem f_whereEnc {x x' c c' y y' : AST n ι} (e : ASame h x x') (f : ASame h c c') (g : ASame h y y') : Hidden h (ASame h) ((mpcOps n p method).whereEnc x c y) ((mpcOps n p method).whereEnc x' c' y') := by
  unfold Ops.whereEnc; hid

theorem f_powPos (k : ℕ) {x x' : AST n ι} (e : ASame h x x') : Hidden h (ASame h) ((mpcOps n p method).powPos x k) ((mpcOps n p method).powPos x' k) := by
  induction k using Nat.strong_induction_on generalizing x x' with
  | _ k ih =>
    rw [Ops.powPos.eq_1 _ x, Ops.powPos.eq_1 _ x']
    split
    · hid
    · split
      · hid
      · split
        · exact .bind .refl (o_square e) fun _ _ ha => ih _ (by omega) ha
        · exact .bind .refl (o_square e) fun _ _ ha => .bind .refl (o_mul ha e) fun _ _ hb => ih _ (by omega) hb

/-- A number of powers. -/
def PSame (h : Fin n) (x x' : Σ m, AST n (Fin (m + 1) × ι)) : Prop := ∃ (m : ℕ) (t t' : AST n (Fin (m + 1) × ι)), x = ⟨m, t⟩ ∧ x' = ⟨m, t'⟩ ∧ ASame h t t'

omit [NeZero n] in
theorem PSame.refl (x : Σ m, AST n (Fin (m + 1) × ι)) : PSame h x x := ⟨x.1, x.2, x.2, rfl, rfl, .refl _⟩

theorem f_polyGrow (len fuel m : ℕ) {t t' : AST n (Fin (m + 1) × ι)} (e : ASame h t t') : Hidden h (PSame h) ((mpcOps n p method).polyGrow len fuel m t) ((mpcOps n p method).polyGrow len fuel m t') := by
  induction fuel generalizing m with
  | zero => exact .pure ⟨m, t, t', rfl, rfl, e⟩
  | succ fuel ih =>
    unfold Ops.polyGrow
    split
    · exact .bind .refl (o_mul e (o_reindex e _)) fun _ _ ha => ih _ (o_cat e ha)
    · exact .pure ⟨m, t, t', rfl, rfl, e⟩

theorem f_polyTerms (len : ℕ) {x x' : AST n ι} (e : ASame h x x') : Hidden h (ASame h) ((mpcOps n p method).polyTerms x len) ((mpcOps n p method).polyTerms x' len) := by
  unfold Ops.polyTerms
  refine .bind .refl (o_square e) fun _ _ ha => .bind PSame.refl (f_polyGrow len len 1 (o_stack 2 fun k => ?_)) fun b b' hb => ?_
  · split <;> hid
  · obtain ⟨m, t, t', rfl, rfl, ht⟩ := hb
    exact .pure (o_reindex ht _)

theorem f_polynomial (coeffs : List ℚ) {x x' : AST n ι} (e : ASame h x x') : Hidden h (ASame h) ((mpcOps n p method).polynomial x coeffs) ((mpcOps n p method).polynomial x' coeffs) := by
  unfold Ops.polynomial
  split
  · hid
  · exact .bind .refl (f_polyTerms _ e) fun _ _ ha => by hid

theorem f_exp (iters : ℕ) {x x' : AST n ι} (e : ASame h x x') : Hidden h (ASame h) ((mpcOps n p method).exp iters x) ((mpcOps n p method).exp iters x') := by
  unfold Ops.exp
  exact .bind .refl (o_divInt e _) fun _ _ ha => hide_iterM .refl (fun _ _ hb => o_square hb) _ (o_addNum ha _)

theorem f_logStep (i o : ℕ) {x x' y y' : AST n ι} (e : ASame h x x') (f : ASame h y y') : Hidden h (ASame h) ((mpcOps n p method).logStep i o x y) ((mpcOps n p method).logStep i o x' y') := by
  unfold Ops.logStep
  exact .bind .refl (f_exp _ (o_neg f)) fun _ _ ha => .bind .refl (o_mul e ha) fun _ _ hb => .bind .refl (f_polynomial _ (o_rsubNum hb _)) fun _ _ hc => o_sub f hc

theorem f_logInit (c : FunCfg) {x x' : AST n ι} (e : ASame h x x') : Hidden h (ASame h) ((mpcOps n p method).logInit c x) ((mpcOps n p method).logInit c x') := by
  unfold Ops.logInit
  exact .bind .refl (o_divInt e _) fun _ _ ha => .bind .refl (f_exp _ (by hid)) fun _ _ hb => by hid

theorem f_log (c : FunCfg) {x x' : AST n ι} (e : ASame h x x') : Hidden h (ASame h) ((mpcOps n p method).log c x) ((mpcOps n p method).log c x') := by
  unfold Ops.log
  exact .bind .refl (f_logInit c e) fun _ _ ha => hide_iterM .refl (fun _ _ hb => f_logStep _ _ e hb) _ ha

theorem f_recipStep {x x' r r' : AST n ι} (e : ASame h x x') (f : ASame h r r') : Hidden h (ASame h) ((mpcOps n p method).recipStep x r) ((mpcOps n p method).recipStep x' r') := by unfold Ops.recipStep; hid

theorem f_recipPos (c : FunCfg) {x x' : AST n ι} (e : ASame h x x') : Hidden h (ASame h) ((mpcOps n p method).recipPos c x) ((mpcOps n p method).recipPos c x') := by
  unfold Ops.recipPos
  split
  · split
    · refine .bind .refl ?_ fun _ _ ha => hide_iterM .refl (fun _ _ hb => f_recipStep e hb) _ ha
      unfold Ops.recipInit
      exact .bind .refl (f_exp _ (by hid)) fun _ _ hb => by hid
    · unfold Ops.recipFromNum
      split
      · hid
      · exact .bind .refl (o_mulNum e _) fun _ _ ha => hide_iterM .refl (fun _ _ hb => f_recipStep e hb) _ (by hid)
  · exact .bind .refl (f_log c e) fun _ _ ha => f_exp _ (by hid)

theorem f_reciprocal (c : FunCfg) {x x' : AST n ι} (e : ASame h x x') : Hidden h (ASame h) ((mpcOps n p method).reciprocal c x) ((mpcOps n p method).reciprocal c x') := by
  unfold Ops.reciprocal
  split
  · exact f_recipPos c e
  · exact .bind .refl (f_sign e) fun _ _ ha => .bind .refl (o_mul ha e) fun _ _ hb => .bind .refl (f_recipPos c hb) fun _ _ hc => o_mul ha hc

theorem f_invSqrt (c : FunCfg) {x x' : AST n ι} (e : ASame h x x') : Hidden h (ASame h) ((mpcOps n p method).invSqrt c x) ((mpcOps n p method).invSqrt c x') := by
  unfold Ops.invSqrt Ops.invSqrtInit
  refine .bind .refl ?_ fun _ _ ha => hide_iterM .refl (fun _ _ hb => ?_) _ ha
  · exact .bind .refl (o_divInt e _) fun _ _ ha => .bind .refl (f_exp _ (by hid)) fun _ _ hb => by hid
  · unfold Ops.invSqrtStep; hid

theorem f_sqrt (c : FunCfg) {x x' : AST n ι} (e : ASame h x x') : Hidden h (ASame h) ((mpcOps n p method).sqrt c x) ((mpcOps n p method).sqrt c x') := by
  unfold Ops.sqrt
  exact .bind .refl (f_invSqrt c e) fun _ _ ha => o_mul ha e

/-- Pairs of tensors. -/
def ASame2 (h : Fin n) (x x' : AST n ι × AST n ι) : Prop := ASame h x.1 x'.1 ∧ ASame h x.2 x'.2

omit [NeZero n] in
theorem ASame2.refl (x : AST n ι × AST n ι) : ASame2 h x x := ⟨.refl _, .refl _⟩

theorem f_eix (iters : ℕ) {x x' : AST n ι} (e : ASame h x x') : Hidden h (ASame2 h) ((mpcOps n p method).eix iters x) ((mpcOps n p method).eix iters x') := by
  unfold Ops.eix
  refine .bind .refl (o_divInt e _) fun _ _ ha => .bind .refl (o_square ha) fun _ _ hb => hide_iterM ASame2.refl (fun c c' hc => ?_) _ ⟨by hid, by hid⟩
  unfold Ops.eixStep
  exact .bind .refl (o_square hc.1) fun _ _ h1 => .bind .refl (o_square hc.2) fun _ _ h2 => .bind .refl (o_mul hc.2 hc.1) fun _ _ h3 => .bind .refl (o_sub h1 h2) fun _ _ h4 => .pure ⟨h4, by hid⟩

/-- Lists of tensors. -/
def TSame (h : Fin n) (l l' : List (AST n ι)) : Prop := List.Forall₂ (ASame h) l l'

omit [NeZero n] in
theorem TSame.refl (l : List (AST n ι)) : TSame h l l := by
  induction l with
  | nil => exact .nil
  | cons a l ih => exact .cons (.refl a) ih

theorem f_chebyshevLoop (k : ℕ) {y y' a a' b b' : AST n ι} (e : ASame h y y') (f : ASame h a a') (g : ASame h b b') :
    Hidden h (TSame h) ((mpcOps n p method).chebyshevLoop y k a b) ((mpcOps n p method).chebyshevLoop y' k a' b') := by
  induction k generalizing a a' b b' with
  | zero => exact .pure .nil
  | succ k ih => exact .bind .refl (o_mul e g) fun _ _ h1 => .bind .refl (o_sub h1 f) fun _ _ h2 => .bind TSame.refl (ih g h2) fun _ _ h3 => .pure (.cons h2 h3)

theorem f_chebyshev (terms : ℕ) {x x' : AST n ι} (e : ASame h x x') : Hidden h (TSame h) ((mpcOps n p method).chebyshev terms x) ((mpcOps n p method).chebyshev terms x') := by
  unfold Ops.chebyshev
  exact .bind .refl (o_square e) fun _ _ h1 => .bind .refl (o_mul (by hid) e) fun _ _ h2 => .bind TSame.refl (f_chebyshevLoop _ (by hid) e h2) fun _ _ h3 => .pure (.cons e (.cons h2 h3))

theorem f_dotStack {l l' : List (AST n ι)} (e : TSame h l l') (c : ℕ → ℚ) : Hidden h (ASame h) ((mpcOps n p method).dotPub ((mpcOps n p method).stack l.length l.get) fun j => c j)
    ((mpcOps n p method).dotPub ((mpcOps n p method).stack l'.length l'.get) fun j => c j) := by
  have hl : l.length = l'.length := List.Forall₂.length_eq e
  have : ∀ m (hm : l.length = m) (hm' : l'.length = m), Hidden h (ASame h) ((mpcOps n p method).dotPub ((mpcOps n p method).stack m fun j => l.get (j.cast hm.symm)) fun j => c j)
      ((mpcOps n p method).dotPub ((mpcOps n p method).stack m fun j => l'.get (j.cast hm'.symm)) fun j => c j) := fun m hm hm' =>
    o_dotPub (o_stack m fun k => List.Forall₂.get e (by rw [hm]; exact k.2) (by rw [hm']; exact k.2)) _
  have h2 : ∀ m (hm : l'.length = m), (mpcOps n p method).dotPub ((mpcOps n p method).stack m fun j => l'.get (j.cast hm.symm)) (fun j => c j) =
      (mpcOps n p method).dotPub ((mpcOps n p method).stack l'.length l'.get) fun j => c j := fun m hm => by subst hm; rfl
  rw [← h2 l.length hl.symm]
  exact this l.length rfl hl.symm

theorem f_tanhChebyshev (c : FunCfg) (coeffs : ℕ → ℚ) {x x' : AST n ι} (e : ASame h x x') : Hidden h (ASame h) ((mpcOps n p method).tanhChebyshev c coeffs x) ((mpcOps n p method).tanhChebyshev c coeffs x') := by
  unfold Ops.tanhChebyshev
  exact .bind TSame.refl (f_chebyshev _ e) fun _ _ h1 => .bind .refl (f_dotStack h1 coeffs) fun _ _ h2 => f_hardtanh _ _ h2

theorem f_sigmoidReciprocal (c : FunCfg) {x x' : AST n ι} (e : ASame h x x') : Hidden h (ASame h) ((mpcOps n p method).sigmoidReciprocal c x) ((mpcOps n p method).sigmoidReciprocal c x') := by
  unfold Ops.sigmoidReciprocal
  exact .bind .refl (o_ltz e) fun _ _ h1 => .bind .refl (o_mul e (by hid)) fun _ _ h2 => .bind .refl (f_exp _ (by hid)) fun _ _ h3 => .bind .refl (f_reciprocal _ (by hid)) fun _ _ h4 =>
    f_whereEnc h4 (by hid) (by hid)

theorem f_sigmoid (c : FunCfg) (coeffs : ℕ → ℚ) {x x' : AST n ι} (e : ASame h x x') : Hidden h (ASame h) ((mpcOps n p method).sigmoid c coeffs x) ((mpcOps n p method).sigmoid c coeffs x') := by
  unfold Ops.sigmoid
  split
  · exact .bind .refl (o_divInt e _) fun _ _ h1 => .bind .refl (f_tanhChebyshev c coeffs h1) fun _ _ h2 => by hid
  · exact f_sigmoidReciprocal c e

theorem f_tanh (c : FunCfg) (coeffs : ℕ → ℚ) {x x' : AST n ι} (e : ASame h x x') : Hidden h (ASame h) ((mpcOps n p method).tanh c coeffs x) ((mpcOps n p method).tanh c coeffs x') := by
  unfold Ops.tanh
  split
  · exact f_tanhChebyshev c coeffs e
  · exact .bind .refl (f_sigmoidReciprocal c (by hid)) fun _ _ h1 => by hid

theorem f_erfLoop (k m : ℕ) {x x' y y' : AST n ι} (e : ASame h x x') (f : ASame h y y') : Hidden h (ASame h) ((mpcOps n p method).erfLoop x k m y) ((mpcOps n p method).erfLoop x' k m y') := by
  induction k generalizing m y y' with
  | zero => exact .pure f
  | succ k ih => exact .bind .refl (f_powPos _ e) fun _ _ h1 => .bind .refl (o_mulNum h1 _) fun _ _ h2 => .bind .refl (o_add f h2) fun _ _ h3 => ih _ h3

theorem f_erf (c : FunCfg) (s : ℚ) {x x' : AST n ι} (e : ASame h x x') : Hidden h (ASame h) ((mpcOps n p method).erf c s x) ((mpcOps n p method).erf c s x') := by
  unfold Ops.erf
  exact .bind .refl (f_erfLoop _ _ e e) fun _ _ h1 => by hid

theorem f_softmax (c : FunCfg) {m : ℕ} {x x' : AST n (Fin m × ι)} (e : ASame h x x') : Hidden h (ASame h) ((mpcOps n p method).softmax c x) ((mpcOps n p method).softmax c x') := by
  unfold Ops.softmax
  split
  · hid
  · exact .bind .refl (o_max e) fun _ _ h1 => .bind .refl (o_sub e (by hid)) fun _ _ h2 => .bind .refl (f_exp _ h2) fun _ _ h3 => .bind .refl (f_reciprocal _ (by hid)) fun _ _ h4 => by hid

theorem f_logSoftmax (c : FunCfg) {m : ℕ} {x x' : AST n (Fin m × ι)} (e : ASame h x x') : Hidden h (ASame h) ((mpcOps n p method).logSoftmax c x) ((mpcOps n p method).logSoftmax c x') := by
  unfold Ops.logSoftmax
  split
  · hid
  · exact .bind .refl (o_max e) fun _ _ h1 => .bind .refl (o_sub e (by hid)) fun _ _ h2 => .bind .refl (f_exp _ h2) fun _ _ h3 => .bind .refl (f_log _ (by hid)) fun _ _ h4 => by hid

theorem f_mean {m : ℕ} {x x' : AST n (Fin m × ι)} (e : ASame h x x') : Hidden h (ASame h) ((mpcOps n p method).mean x) ((mpcOps n p method).mean x') := by unfold Ops.mean; hid

theorem f_var {m : ℕ} (b : Bool) {x x' : AST n (Fin m × ι)} (e : ASame h x x') : Hidden h (ASame h) ((mpcOps n p method).var b x) ((mpcOps n p method).var b x') := by
  unfold Ops.var
  refine .bind .refl (f_mean e) fun _ _ h1 => .bind .refl (o_sub e (by hid)) fun _ _ h2 => .bind .refl (o_square h2) fun _ _ h3 => ?_
  dsimp only
  split
  · split <;> hid
  · split <;> hid

end CrypTen.Privacy

import Verif.Spec.Training
import Verif.Props.BackpropDeriv
import Verif.Props.SgdShares

/-!
# Training a network on encrypted data

C99: training any network made of the calls of C98 by SGD, on encrypted data, follows training on exact numbers up to a computed error.
-/

namespace CrypTen.Training
open Program (Regs Nums set set_self set_ne sat_encryptA)
open Backprop (Tape Grads values grads seed reach errs gradErrs Ordered SafeForward SafeBackward)
open Sgd (HyperS docStep errStep ApproxState Room)
variable {n k : ℕ} {sh : ℕ → Type}

/-- The invariant of training. -/
def Tracks (k : ℕ) (held : List ℕ) (s : State n sh) (d : Exact sh) (e : ℕ → ℚ × Option ℚ) : Prop :=
  ∀ r ∈ held, ApproxState k (s.1 r, s.2 r) (d.1 r, d.2 r) (e r)

theorem sat_stepAll [NeZero n] (hn : n < 2 ^ 60) (hk0 : 0 < k) (hk : k ≤ 62) {thr : Option ℚ} {h : HyperS} {B E C : ℚ} (room : Room n k thr h B E C) {d : Exact sh} {e : ℕ → ℚ × Option ℚ} {G : Grads n sh} {q : ℕ → Bool}
    {g : Nums sh} {eg : ℕ → ℚ} (hG : ∀ r, (G r).isSome = q r ∧ ∀ x, G r = some x → Sgd.Approx k x (g r) (eg r)) :
    ∀ (ps : List ℕ), ps.Nodup → (∀ r ∈ ps, 0 ≤ (e r).1 ∧ ∀ f, (e r).2 = some f → 0 ≤ f) → (∀ r ∈ ps, (e r).1 ≤ E ∧ ∀ f, (e r).2 = some f → f ≤ E) → (∀ r ∈ ps, ∀ i, |d.1 r i| ≤ B) →
    (∀ r ∈ ps, q r = true → Sgd.StepFits n k thr h B E (d.1 r, d.2 r) (e r) (g r) (eg r) ∧ Sgd.Clear n k thr (g r) (eg r)) → ∀ (s : State n sh), (∀ r ∈ ps, ApproxState k (s.1 r, s.2 r) (d.1 r, d.2 r) (e r)) →
    Sat (stepAll (2 ^ k) (Sgd.squareThreshold thr) h G ps s) fun s' =>
      (∀ r, r ∉ ps → s'.1 r = s.1 r ∧ s'.2 r = s.2 r) ∧
      ∀ r ∈ ps, ApproxState k (s'.1 r, s'.2 r) (docStep thr h.exact (d.1 r, d.2 r) (if q r then some (g r) else none)) (errStep n k h B (e r) (if q r then some (eg r) else none))
  | [], _, _, _, _, _, s, _ => Sat.pure ⟨fun r _ => ⟨rfl, rfl⟩, fun r hr => absurd hr (by simp)⟩
  | p :: ps, hnd, h0, hE, hB, hf, s, hs => by
    rw [List.nodup_cons] at hnd
    have hstep : Sat (Sgd.stepShares (2 ^ k) (Sgd.squareThreshold thr) h (s.1 p, s.2 p) (G p)) fun r =>
        ApproxState k r (docStep thr h.exact (d.1 p, d.2 p) (if q p then some (g p) else none)) (errStep n k h B (e p) (if q p then some (eg p) else none)) := by
      have hp := hs p (by simp)
      cases hGp : G p with
      | none =>
        have : q p = false := by rw [← (hG p).1, hGp]; rfl
        rw [this]
        exact Sat.pure hp
      | some x =>
        have hq : q p = true := by rw [← (hG p).1, hGp]; rfl
        rw [if_pos hq, if_pos hq]
        exact Sgd.near_step (s := (s.1 p, s.2 p)) (d := (d.1 p, d.2 p)) (e := e p) (g := g p) (eg := eg p) hn hk0 hk room (h0 p (by simp)) (hE p (by simp)) (hB p (by simp)) hp ((hG p).2 x hGp) (hf p (by simp) hq).1 (hf p (by simp) hq).2
    refine Sat.bind hstep fun r hr => ?_
    have hin : ∀ {A : ℕ → Prop}, (∀ r ∈ p :: ps, A r) → ∀ r ∈ ps, A r := fun h r hr => h r (List.mem_cons_of_mem _ hr)
    refine (sat_stepAll hn hk0 hk room hG ps hnd.2 (hin h0) (hin hE) (hin hB) (hin hf) _ fun r' hr' => ?_).mono fun s' hs' => ⟨fun r' hr' => ?_, fun r' hr' => ?_⟩
    · have hne : r' ≠ p := fun h => hnd.1 (h ▸ hr')
      show ApproxState k (set (α := AST n) s.1 p r.1 r', set (α := fun ι => Option (AST n ι)) s.2 p r.2 r') _ _
      rw [set_ne _ _ hne, set_ne (α := fun ι => Option (AST n ι)) _ _ hne]
      exact hs r' (List.mem_cons_of_mem _ hr')
    · have hne : r' ≠ p := fun h => hr' (h ▸ List.mem_cons_self)
      have h1 := hs'.1 r' fun h => hr' (List.mem_cons_of_mem _ h)
      rw [show (set (α := AST n) s.1 p r.1, set (α := fun ι => Option (AST n ι)) s.2 p r.2).1 r' = s.1 r' from set_ne _ _ hne,
        show (set (α := AST n) s.1 p r.1, set (α := fun ι => Option (AST n ι)) s.2 p r.2).2 r' = s.2 r' from set_ne (α := fun ι => Option (AST n ι)) _ _ hne] at h1
      exact h1
    · rcases List.mem_cons.1 hr' with h | h
      · subst h
        have h1 := hs'.1 r' hnd.1
        rw [show (set (α := AST n) s.1 r' r.1, set (α := fun ι => Option (AST n ι)) s.2 r' r.2).1 r' = r.1 from set_self _ _ _,
          show (set (α := AST n) s.1 r' r.1, set (α := fun ι => Option (AST n ι)) s.2 r' r.2).2 r' = r.2 from set_self (α := fun ι => Option (AST n ι)) _ _ _] at h1
        rw [h1.1, h1.2]
        exact hr
      · exact hs'.2 r' h

/-- The errors are not negative. -/
def Nonneg (e : ℕ → ℚ × Option ℚ) : Prop := ∀ r, 0 ≤ (e r).1 ∧ ∀ f, (e r).2 = some f → 0 ≤ f

theorem errNext_nonneg {z : Sizes} {E : ℚ} {thr : Option ℚ} {h : HyperS} {held ps : List ℕ} {out : ℕ} {t : Tape n sh} {d : Exact sh} {e : ℕ → ℚ × Option ℚ} (hB : 0 ≤ z.B) (he : Nonneg e) (hf : Fits k z E thr h held ps out t d e) :
    Nonneg (errNext k z h ps out t d.1 e) := fun r => by
  unfold errNext
  split
  · rename_i hr
    split
    · rename_i hq
      exact Sgd.errStep_nonneg hB (he r) (hf.step r hr hq).1.errGrad
    · exact he r
  · exact he r

theorem sat_iteration [NeZero n] (hn : n < 2 ^ 60) (hk0 : 0 < k) (hk : k ≤ 62) {z : Sizes} {E C : ℚ} {thr : Option ℚ} {h : HyperS} (room : Room n k thr h z.B E C) {held ps : List ℕ} {out : ℕ} (hM : ∀ r, 0 ≤ z.M r) (hK : ∀ r, 0 ≤ z.K r)
    (hK1 : 1 ≤ z.K out) (hnd : ps.Nodup) (hh : ∀ r ∈ ps, r ∈ held) (t : Tape n sh) {d : Exact sh} {e : ℕ → ℚ × Option ℚ} (he : Nonneg e) (hf : Fits k z E thr h held ps out t d e) {s : State n sh} (hs : Tracks k held s d e) :
    Sat (iteration k (Sgd.squareThreshold thr) h ps out t s) fun s' => Tracks k held s' (exactStep thr h ps out t d) (errNext k z h ps out t d.1 e) := by
  refine Sat.bind (Backprop.C98_backward hn hk0 hk t s.1 out (fun r => (e r).1) z.M z.K d.1 (fun r => (he r).1) hM hK hK1 hf.ordered (fun r hr => (hs r (hf.held r hr)).1) hf.forward hf.backward) fun y hy => ?_
  refine (sat_stepAll (q := reach t fun q => decide (q = out)) (g := grads (values d.1 t) t (seed out)) (eg := gradientErr n k z out t d.1 fun q => (e q).1) hn hk0 hk room (fun r => ?_) ps hnd (fun r _ => he r) hf.error hf.size hf.step s
    fun r hr => hs r (hh r hr)).mono fun s' hs' r hr => ?_
  · have h1 := hy.2 r
    cases hg : y.2 r with
    | none => rw [hg] at h1; exact ⟨h1.1.symm, fun x hx => nomatch hx⟩
    | some g => rw [hg] at h1; exact ⟨h1.1.symm, fun x hx => Option.some.inj hx ▸ h1.2⟩
  · unfold exactStep errNext
    by_cases hp : r ∈ ps
    · simp only [if_pos hp]
      exact hs'.2 r hp
    · simp only [if_neg hp]
      rw [(hs'.1 r hp).1, (hs'.1 r hp).2]
      exact hs r hr

theorem sat_iterations [NeZero n] (hn : n < 2 ^ 60) (hk0 : 0 < k) (hk : k ≤ 62) {z : Sizes} {E C : ℚ} {thr : Option ℚ} {h : HyperS} (room : Room n k thr h z.B E C) {held ps : List ℕ} {out : ℕ} (hM : ∀ r, 0 ≤ z.M r) (hK : ∀ r, 0 ≤ z.K r)
    (hK1 : 1 ≤ z.K out) (hnd : ps.Nodup) (hh : ∀ r ∈ ps, r ∈ held) (ts : List (Tape n sh)) {d : Exact sh} {e : ℕ → ℚ × Option ℚ} (he : Nonneg e) (hf : TrainFits k z E thr h held ps out ts d e) {s : State n sh} (hs : Tracks k held s d e) :
    Sat (iterations k (Sgd.squareThreshold thr) h ps out ts s) fun s' => Tracks k held s' (exactTrain thr h ps out ts d) (errTrain k z thr h ps out ts d e) := by
  induction ts generalizing d e s with
  | nil => exact Sat.pure hs
  | cons t ts ih => exact Sat.bind (sat_iteration hn hk0 hk room hM hK hK1 hnd hh t he hf.1 hs) fun s' hs' => ih (errNext_nonneg room.magnitude he hf.1) hf.2 hs'

theorem sat_encryptAll [NeZero n] {B : ℚ} (hB : 2 ^ k * (B + 1 / 2 ^ k) < 2 ^ 63) (l : List (Σ r, Fin n × (sh r → ℚ))) (hl : ∀ x ∈ l, ∀ i, |x.2.2 i| ≤ B) (had : List ℕ) (R : Regs n sh) (W : Nums sh) (h : ∀ r ∈ had, Sgd.Approx k (R r) (W r) (1 / 2 ^ k)) :
    Sat (encryptAll k l R) fun R' => ∀ r, r ∈ had ∨ r ∈ l.map (·.1) → Sgd.Approx k (R' r) (start l W r) (1 / 2 ^ k) := by
  induction l generalizing had R W with
  | nil => exact Sat.pure fun r hr => h r (hr.resolve_right (by simp))
  | cons x l ih =>
    obtain ⟨r, src, x⟩ := x
    refine Sat.bind (sat_encryptA src _).sat fun s hs => ?_
    have hx : Sgd.Approx k (⟨s, 2 ^ k⟩ : AST n (sh r)) x (1 / 2 ^ k) := by
      refine near_of_word rfl (fun i => truncQ (2 ^ k * x i)) (fun i => ?_) (fun i => trunc_any k (x i)) (hl _ List.mem_cons_self) hB
      show reveal s i = _
      rw [hs, encodePublic_ofInt]; push_cast; rfl
    refine (ih (fun y hy => hl y (List.mem_cons_of_mem _ hy)) (r :: had) _ (set (α := fun ι => ι → ℚ) W r x) fun q hq => ?_).mono fun R' hR' q hq => hR' q ?_
    · by_cases hqr : q = r
      · subst hqr
        rw [set_self, set_self (α := fun ι => ι → ℚ)]
        exact hx
      · rw [set_ne _ _ hqr, set_ne (α := fun ι => ι → ℚ) _ _ hqr]
        exact h q ((List.mem_cons.1 hq).resolve_left hqr)
    · rcases hq with hq | hq
      · exact .inl (List.mem_cons_of_mem _ hq)
      · rcases List.mem_cons.1 hq with hq | hq
        · exact .inl (hq ▸ List.mem_cons_self)
        · exact .inr hq

/-- **C99 (training).** The parties encrypt parameters and data and train: each iteration evaluates a network, any recorded computation of C98 (in which the parameters `ps` and other encrypted tensors may occur any number of times), calls `backward()` on its result and makes a step of `crypten.optim.SGD`.
After all iterations every encrypted tensor, and its velocity, is within the computed error of training on exact numbers, where every gradient is the derivative (`C98_derivative`) and every update the documented one. -/
theorem C99_train [NeZero n] (hn : n < 2 ^ 60) (hk0 : 0 < k) (hk : k ≤ 62) {z : Sizes} {B E C : ℚ} {thr : Option ℚ} {h : HyperS} (room : Room n k thr h z.B E C) (l : List (Σ r, Fin n × (sh r → ℚ))) {ps : List ℕ} {out : ℕ}
    (hM : ∀ r, 0 ≤ z.M r) (hK : ∀ r, 0 ≤ z.K r) (hK1 : 1 ≤ z.K out) (hnd : ps.Nodup) (hh : ∀ r ∈ ps, r ∈ l.map (·.1)) (hB : 2 ^ k * (B + 1 / 2 ^ k) < 2 ^ 63) (hl : ∀ x ∈ l, ∀ i, |x.2.2 i| ≤ B)
    (ts : List (Tape n sh)) (W : Nums sh) (hf : TrainFits k z E thr h (l.map (·.1)) ps out ts (start l W, fun _ => none) fun _ => (1 / 2 ^ k, none)) (init : Regs n sh) :
    Sat (train k (Sgd.squareThreshold thr) h l ps out ts init) fun s => ∀ r ∈ l.map (·.1),
      ApproxState k (s.1 r, s.2 r) ((exactTrain thr h ps out ts (start l W, fun _ => none)).1 r, (exactTrain thr h ps out ts (start l W, fun _ => none)).2 r)
        (errTrain k z thr h ps out ts (start l W, fun _ => none) (fun _ => (1 / 2 ^ k, none)) r) :=
  Sat.bind (sat_encryptAll hB l hl [] init W (fun r hr => absurd hr (by simp))) fun R hR =>
    sat_iterations hn hk0 hk room hM hK hK1 hnd hh ts (fun r => ⟨by dsimp only; positivity, fun f hf => by simp at hf⟩) hf fun r hr => ⟨hR r (.inr hr), trivial⟩

/-! ## The gradients are derivatives -/

theorem grads_unreached (V : Nums sh) (t : Tape n sh) {Q : ℕ → Bool} {G : Nums sh} (h : ∀ r, Q r = false → ∀ i, G r i = 0) (r : ℕ) (hr : reach t Q r = false) (i : sh r) : grads V t G r i = 0 := by
  induction t generalizing Q G with
  | nil => exact h r hr i
  | cons y t ih =>
    obtain ⟨d, c⟩ := y
    rw [reach] at hr
    refine ih (fun q hq j => ?_) hr
    cases hd : Q d with
    | false =>
      rw [hd, if_neg Bool.false_ne_true] at hq
      have h0 : ∀ (l : List (Σ a, sh a → ℚ)) (G : Nums sh), (∀ x ∈ l, ∀ i, x.2 i = 0) → (∀ i, G q i = 0) → Backprop.gather l G q j = 0 := fun l => by
        induction l with
        | nil => exact fun G _ hG => hG j
        | cons x l ihl =>
          refine fun G hl hG => ihl _ (fun y hy => hl y (List.mem_cons_of_mem _ hy)) fun i => ?_
          by_cases hx : q = x.1
          · subst hx
            rw [set_self (α := fun ι => ι → ℚ), hG, hl x List.mem_cons_self, add_zero]
          · rw [set_ne (α := fun ι => ι → ℚ) _ _ hx]; exact hG i
      exact h0 _ G (Backprop.contrib_zero V (h d hd) c) (h q hq)
    | true =>
      rw [hd, if_pos rfl, Bool.or_eq_false_iff, decide_eq_false_iff_not] at hq
      rw [Backprop.gather_outside _ _ fun x hx he => hq.2 (by rw [he]; exact Backprop.contrib_operands V _ c x hx)]
      exact h q hq.1 j

/-- **C99 (gradients).** In the exact training, the gradient of a parameter is the derivative of the result of the network, as a function of real numbers, at the parameters of that iteration; a parameter without gradient has derivative 0. -/
theorem C99_gradient (W : Nums sh) (t : Tape n sh) (out : ℕ) [Unique (sh out)] [∀ r, Fintype (sh r)] (ho : Ordered t) (hout : out ∈ Backprop.regs t) (hr : Backprop.Right t) (hs : Backprop.Smooth W t) (r : ℕ) (hl : r ∈ Backprop.leaves t) [DecidableEq (sh r)]
    (i : sh r) : HasDerivAt (fun x : ℝ => Backprop.eval W (set (α := fun ι => ι → ℝ) (fun _ _ => 0) r (Pi.single i x)) t out default) (((gradient out t W r).elim 0 fun g => g i : ℚ) : ℝ) 0 := by
  have h := Backprop.C98_entry W t out ho hout hr hs r hl i
  unfold gradient
  split
  · exact h
  · rename_i hq
    rw [grads_unreached (values W t) t (Q := fun q => decide (q = out)) (fun q hq j => ?_) r (by simpa using hq) i] at h
    · exact h
    · rw [decide_eq_false_iff_not] at hq
      unfold seed
      rw [set_ne (α := fun ι => ι → ℚ) _ _ hq]

/-- The condition on ReLU that `C99_gradient` needs follows from the conditions of `C99_train`. -/
theorem Fits.smooth {z : Sizes} {E : ℚ} {thr : Option ℚ} {h : HyperS} {held ps : List ℕ} {out : ℕ} {t : Tape n sh} {d : Exact sh} {e : ℕ → ℚ × Option ℚ} (he : Nonneg e) (hM : ∀ r, 0 ≤ z.M r) (hf : Fits k z E thr h held ps out t d e) :
    Backprop.Smooth d.1 t := Backprop.smooth_of_safe (fun r => (he r).1) hM t hf.forward

/-! ## Runs without wrap-around exist -/

theorem calm_scale [NeZero n] {ι : Type} {x : AST n ι} (h : x.Alone) (c : Sgd.Scalar) : Calm (Sgd.scale x c) AST.Alone := by
  cases c with
  | int z => exact Calm.pure (h.mulInt z)
  | float q => exact calm_mulPub _ h _

/-- Party 0 holds everything in a parameter and its buffer. -/
def AloneState [NeZero n] {ι : Type} (s : AST n ι × Option (AST n ι)) : Prop := s.1.Alone ∧ ∀ b, s.2 = some b → b.Alone

theorem calm_step [NeZero n] {ι : Type} (D : ℕ) (thr2 : Option ℚ) (h : HyperS) {s : AST n ι × Option (AST n ι)} (hs : AloneState s) {g : Option (AST n ι)} (hg : ∀ x, g = some x → x.Alone) : Calm (Sgd.stepShares D thr2 h s g) AloneState := by
  cases g with
  | none => exact Calm.pure hs
  | some g =>
    have hg := hg g rfl
    have hu : Calm (Sgd.usedShares D thr2 g) AST.Alone := by
      cases thr2 with
      | none => exact Calm.pure hg
      | some t => exact Calm.bind (calm_square g) fun a ha => Calm.bind (calm_lt D ha _ fun z hz => nomatch hz) fun b hb => calm_mul _ _ _
    refine Calm.bind hu fun d hd => Calm.bind (P := AST.Alone) ?_ fun d hd => ?_
    · unfold Sgd.decayShares
      split
      · exact Calm.pure hd
      · exact Calm.bind (calm_scale hs.1 _) fun w hw => calm_add hd hw
    have hdesc : ∀ {d : AST n ι}, d.Alone → Calm (Sgd.descendShares h s.1 d) AST.Alone := fun hd => Calm.bind (calm_scale hd _) fun u hu => calm_sub hs.1 hu
    split
    · exact Calm.bind (hdesc hd) fun p hp => Calm.pure ⟨hp, hs.2⟩
    · refine Calm.bind (P := AST.Alone) ?_ fun b hb => Calm.bind (P := AST.Alone) ?_ fun d' hd' => Calm.bind (hdesc hd') fun p hp => Calm.pure ⟨hp, fun x hx => Option.some.inj hx ▸ hb⟩
      · unfold Sgd.bufferShares
        cases hb : s.2 with
        | none => exact Calm.pure hd
        | some b => exact Calm.bind (calm_scale (hs.2 b hb) _) fun x hx => Calm.bind (calm_scale hd _) fun y hy => calm_add hx hy
      · unfold Sgd.directionShares
        split
        · exact Calm.bind (calm_scale hb _) fun m hm => calm_add hd hm
        · exact Calm.pure hb

theorem calm_stepAll [NeZero n] (D : ℕ) (thr2 : Option ℚ) (h : HyperS) {G : Grads n sh} (hG : ∀ r g, G r = some g → g.Alone) (ps : List ℕ) (s : State n sh) (hs : ∀ r, AloneState (s.1 r, s.2 r)) :
    Calm (stepAll D thr2 h G ps s) fun s' => ∀ r, AloneState (s'.1 r, s'.2 r) := by
  induction ps generalizing s with
  | nil => exact Calm.pure hs
  | cons p ps ih =>
    refine Calm.bind (calm_step D thr2 h (hs p) (hG p)) fun y hy => ih _ fun r => ?_
    by_cases hr : r = p
    · subst hr
      show AloneState (set (α := AST n) s.1 r y.1 r, set (α := fun ι => Option (AST n ι)) s.2 r y.2 r)
      rw [set_self, set_self (α := fun ι => Option (AST n ι))]
      exact hy
    · show AloneState (set (α := AST n) s.1 p y.1 r, set (α := fun ι => Option (AST n ι)) s.2 p y.2 r)
      rw [set_ne _ _ hr, set_ne (α := fun ι => Option (AST n ι)) _ _ hr]
      exact hs r

theorem possible_iterations [NeZero n] (k : ℕ) (thr2 : Option ℚ) (h : HyperS) (ps : List ℕ) (out : ℕ) (ts : List (Tape n sh)) (s : State n sh) (hs : ∀ r, AloneState (s.1 r, s.2 r)) (c : ℕ) : Program.Possible (iterations k thr2 h ps out ts s) c := by
  induction ts generalizing s c with
  | nil => exact Backprop.possible_pure _ _
  | cons t ts ih =>
    refine Backprop.possible_assoc (Backprop.possible_run k t s.1 (fun r => (hs r).1) out (fun z _ hz c => ?_) c)
    exact Program.Possible.of_calm (calm_stepAll _ thr2 h hz ps s hs) (fun s' hs' c => ih s' hs' c) c

theorem possible_encryptAll [NeZero n] (k : ℕ) (l : List (Σ r, Fin n × (sh r → ℚ))) (R : Regs n sh) (hR : ∀ r, (R r).Alone) {β : Type} {f : Regs n sh → Proto n β} (hf : ∀ R, (∀ r, (R r).Alone) → ∀ c, Program.Possible (f R) c) (c : ℕ) :
    Program.Possible (encryptAll k l R >>= f) c := by
  induction l generalizing R c with
  | nil =>
    obtain ⟨Z, h1, h2⟩ := hf R hR c
    exact ⟨Z, h1, fun Z' hZ' => ⟨trivial, h2 Z' hZ'⟩⟩
  | cons x l ih =>
    obtain ⟨r, src, x⟩ := x
    exact Backprop.possible_assoc (Program.Possible.input src _ (fun a ha c => ih _ (Program.set_alone hR r (x := ⟨a, 2 ^ k⟩) ha) c) c)

/-- **C99 (good runs exist).** For all networks, data and hyperparameters, whoever encrypts what, there is an execution in which no wrap-around spoils a truncation. -/
theorem C99_good_run [NeZero n] (k : ℕ) (thr2 : Option ℚ) (h : HyperS) (l : List (Σ r, Fin n × (sh r → ℚ))) (ps : List ℕ) (out : ℕ) (ts : List (Tape n sh)) :
    ∃ T : Tuples n, T.Valid ∧ (train k thr2 h l ps out ts (fun _ => ⟨0, 2 ^ k⟩) T 0).good :=
  Program.Possible.run (possible_encryptAll k l _ (fun r p _ i => rfl) (fun R hR c => possible_iterations k thr2 h ps out ts _ (fun r => ⟨hR r, fun b hb => by simp at hb⟩) c) 0)

/-! ## A concrete case -/

/-- Another example for the network of C98: one row and its label. -/
def sampleBatch (x y : Fin 1 × Fin 2 → ℚ) : Tape 2 Backprop.sampleShape :=
  [⟨7, .mean 6 Backprop.rowSpread⟩, ⟨6, .square 5 (Equiv.refl (Fin 1 × Fin 2))⟩, ⟨5, .sub 3 4 (.none (Fin 1 × Fin 2)) (.none (Fin 1 × Fin 2))⟩, ⟨4, .leaf 1 y⟩,
    ⟨3, .relu 2 (Equiv.refl (Fin 1 × Fin 2))⟩, ⟨2, .bil 0 1 (Backprop.matmulBil 1 2 2)⟩, ⟨1, .param⟩, ⟨0, .leaf 1 x⟩]

/-- Two iterations. -/
def sampleBatches : List (Tape 2 Backprop.sampleShape) := [sampleBatch (fun p => if p = (0, 0) then 1 else 3) fun _ => 1, sampleBatch (fun p => if p = (0, 0) then 2 else -1) fun p => if p = (0, 0) then 1 else 0]

/-- Party 0 encrypts the weights. -/
def sampleWeights : List (Σ r, Fin 2 × (Backprop.sampleShape r → ℚ)) := [⟨1, 0, fun p : Fin 2 × Fin 2 => if p = (0, 0) then 2 else -1 / 2⟩]

def sampleHyper : HyperS := ⟨.float (1 / 8), .float (1 / 2), .int 0, .float (1 / 16), true⟩

def sampleSizes : Sizes := ⟨fun r => if r = 6 then 16 else 8, fun _ => 8, 16⟩

instance decSome {α : Type} {o : Option α} {P : α → Prop} [DecidablePred P] : Decidable (∀ v, o = some v → P v) :=
  match o with
  | none => .isTrue fun _ h => nomatch h
  | some v => decidable_of_iff (P v) ⟨fun h _ e => Option.some.inj e ▸ h, fun h => h v rfl⟩

instance {ι : Type} [Fintype ι] {thr : Option ℚ} {h : HyperS} {M E : ℚ} {s : (ι → ℚ) × Option (ι → ℚ)} {e : ℚ × Option ℚ} {g : ι → ℚ} {eg : ℚ} : Decidable (Sgd.StepFits n k thr h M E s e g eg) :=
  decidable_of_iff ((∀ i, |g i| ≤ M) ∧ (∀ i, |s.1 i * h.weightDecay.val| ≤ M) ∧ (∀ i, |Sgd.usedGradient thr h.weightDecay.val g s.1 i| ≤ M) ∧ (∀ i, |Sgd.usedGradient thr h.weightDecay.val g s.1 i * (1 - h.dampening.val)| ≤ M) ∧
    (∀ v, s.2 = some v → ∀ i, |v i| ≤ M ∧ |v i * h.momentum.val| ≤ M) ∧
    (∀ i, |Sgd.newVelocity h.exact s.2 (Sgd.usedGradient thr h.weightDecay.val g s.1) i| ≤ M ∧ |Sgd.newVelocity h.exact s.2 (Sgd.usedGradient thr h.weightDecay.val g s.1) i * h.momentum.val| ≤ M) ∧
    (∀ i, |Sgd.direction thr h.exact s g i| ≤ M ∧ |Sgd.direction thr h.exact s g i * h.lr.val| ≤ M) ∧ (∀ i, |(docStep thr h.exact s (some g)).1 i| ≤ M) ∧ 0 ≤ eg ∧ Sgd.errUsed n k h M e.1 eg ≤ E ∧
    Sgd.errVelocity n k h M e.2 (Sgd.errUsed n k h M e.1 eg) ≤ E ∧ Sgd.errDirection n k h M e.2 (Sgd.errUsed n k h M e.1 eg) ≤ E ∧ (errStep n k h M e (some eg)).1 ≤ E)
    ⟨fun ⟨a, b, c, d, e, f, g, h, i, j, k, l, m⟩ => ⟨a, b, c, d, e, f, g, h, i, j, k, l, m⟩, fun ⟨a, b, c, d, e, f, g, h, i, j, k, l, m⟩ => ⟨a, b, c, d, e, f, g, h, i, j, k, l, m⟩⟩

instance {ι : Type} [Fintype ι] {thr : Option ℚ} {g : ι → ℚ} {eg : ℚ} : Decidable (Sgd.Clear n k thr g eg) := by unfold Sgd.Clear; infer_instance

theorem sample_ordered (x y : Fin 1 × Fin 2 → ℚ) : Ordered (sampleBatch x y) ∧ ∀ r, ⟨r, .param⟩ ∈ sampleBatch x y → r ∈ sampleWeights.map (·.1) := by
  refine ⟨by simp [Ordered, sampleBatch, Backprop.Call.operands, Backprop.regs], fun r hr => ?_⟩
  simp only [sampleBatch, List.mem_cons, List.not_mem_nil, or_false, Sigma.mk.injEq] at hr
  simp only [sampleWeights, List.map_cons, List.map_nil, List.mem_cons, List.not_mem_nil, or_false]
  rcases hr with h | h | h | h | h | h | h | h <;> obtain ⟨rfl, h⟩ := h <;> first | rfl | exact nomatch h

/-- Two steps with momentum (Nesterov) and weight decay, in which the exact weights change and the second gradient depends on the first step: all conditions of `C99_train` hold. -/
example : Room 2 24 none sampleHyper 16 1 2 ∧ TrainFits 24 sampleSizes 1 none sampleHyper (sampleWeights.map (·.1)) [1] 7 sampleBatches (start sampleWeights fun _ _ => 0, fun _ => none) fun _ => (1 / 2 ^ 24, none) := by
  refine ⟨⟨by decide +kernel, by decide +kernel, by decide +kernel, by decide +kernel, by decide +kernel, by decide +kernel, by decide +kernel, by decide +kernel, fun t h => nomatch h⟩, ?_, ?_, trivial⟩
  · exact ⟨(sample_ordered _ _).1, (sample_ordered _ _).2, by decide +kernel, by decide +kernel, by decide +kernel, by decide +kernel, by decide +kernel⟩
  · exact ⟨(sample_ordered _ _).1, (sample_ordered _ _).2, by decide +kernel, by decide +kernel, by decide +kernel, by decide +kernel, by decide +kernel⟩

/-- A weight after the two steps, exactly, and the error of the encrypted weights. -/
example : (exactTrain none sampleHyper [1] 7 sampleBatches (start sampleWeights fun _ _ => 0, fun _ => none)).1 1 (0, 0) = 26221 / 32768 ∧
    (errTrain 24 sampleSizes none sampleHyper [1] 7 sampleBatches (start sampleWeights fun _ _ => 0, fun _ => none) (fun _ => (1 / 2 ^ 24, none)) 1).1 ≤ 1 / 8 := by
  constructor <;> decide +kernel

end CrypTen.Training

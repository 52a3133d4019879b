import Verif.Spec.TrainPrivacy
import Verif.Props.Privacy
import Verif.Model.Logistic

/-!
# Privacy of gradients and of training

C100: what all parties except one see of `backward()` and of training says nothing about the data and the parameters of that party.
-/

namespace CrypTen.Privacy
open Program (Regs set)
open Backprop (Tape Grads Call Saved)
variable {n : ℕ} [NeZero n] {sh : ℕ → Type} {ι ι' κ : Type} {h : Fin n}

/-! ## Operations of the tape -/

omit [NeZero n] in
theorem ASame.choose {x x' : AST n ι} (e : ASame h x x') (f : κ → Option ι) : ASame h (x.choose f) (x'.choose f) :=
  ⟨e.1, map_off e.2 fun _ t k => (f k).elim 0 t⟩

omit [NeZero n] in
theorem ASame.sums {x x' : AST n ι} (e : ASame h x x') (f : κ → List ι) : ASame h (x.sums f) (x'.sums f) :=
  ⟨e.1, map_off e.2 fun _ t k => ((f k).map t).sum⟩

omit [NeZero n] in
theorem ASame.join {x x' : AST n ι} {y y' : AST n ι'} (e : ASame h x x') (f : ASame h y y') (g : κ → ι ⊕ ι') : ASame h (AST.join g x y) (AST.join g x' y') :=
  ⟨e.1, map2_off e.2 f.2 fun _ t u k => (g k).elim t u⟩

omit [NeZero n] in
theorem ASame.shrink {α β : Type} (f : Backprop.Spread α β) {g g' : AST n α} (e : ASame h g g') : ASame h (Backprop.shrink f g) (Backprop.shrink f g') :=
  (e.reindex _).sumFirst

/-- A result and what is saved with it. -/
def RSame (h : Fin n) (r r' : AST n ι × AST n κ) : Prop := ASame h r.1 r'.1 ∧ ASame h r.2 r'.2

omit [NeZero n] in
theorem RSame.refl (r : AST n ι × AST n κ) : RSame h r r := ⟨.refl _, .refl _⟩

theorem hide_maxArgmax (k : ℕ) (method : MaxMethod) {m : ℕ} {x x' : AST n (Fin m × κ)} (e : ASame h x x') : Hidden h (RSame h) (x.maxArgmax k method) (x'.maxArgmax k method) := by
  have key : ∀ method, Hidden h (RSame h) (do
      let mx ← x.maxFirst k method
      let e ← x.eq (2 ^ k) (.enc (mx.reindex Prod.snd))
      let oneHot ← e.weightedIndex k
      pure (mx, oneHot)) (do
      let mx ← x'.maxFirst k method
      let e ← x'.eq (2 ^ k) (.enc (mx.reindex Prod.snd))
      let oneHot ← e.weightedIndex k
      pure (mx, oneHot)) := fun method =>
    .bind .refl (hide_maxFirst k method e) fun _ _ hm => .bind .refl (hide_eq _ e (.enc (hm.reindex _))) fun _ _ he =>
      .bind .refl (hide_weightedIndex k he) fun _ _ ho => .pure ⟨hm, ho⟩
  cases method with
  | pairwise => exact .bind .refl (hide_argmaxOneHot k e) fun _ _ ho => .bind .refl (hide_mul _ e ho) fun _ _ hy => .pure ⟨hy.sumFirst, ho⟩
  | _ => exact key _

/-- A result that is saved itself. -/
theorem hide_self {m m' : Proto n (AST n ι)} (hm : Hidden h (ASame h) m m') :
    Hidden h (RSame h) (m >>= fun z => pure (z, z.reindex (Prod.snd : ℕ × ι → ι))) (m' >>= fun z => pure (z, z.reindex Prod.snd)) :=
  .bind .refl hm fun _ _ hz => .pure ⟨hz, hz.reindex _⟩

omit [NeZero n] in
theorem psame_self {z z' : AST n ι} (e : ASame h z z') : Hidden h (RSame h) (pure (z, z.reindex (Prod.snd : ℕ × ι → ι)) : Proto n _) (pure (z', z'.reindex Prod.snd)) :=
  .pure ⟨e, e.reindex _⟩

theorem hide_forwardCall (k : ℕ) {R R' : Regs n sh} (e : SameRegs h R R') {d : ℕ} (c : Call n sh d) : Hidden h (RSame h) (c.forward k R) (c.forward k R') := by
  have e' : ∀ r, ASame h (R r) (R' r) := e
  cases c with
  | leaf src x => exact .bind .refl (.encryptA fun _ => rfl) fun _ _ ha => .pure (R := RSame h) ⟨⟨rfl, ha⟩, (ASame.mk ha _).reindex _⟩
  | param => exact psame_self (e' d)
  | add a b f g => exact hide_self (hide_add ((e' a).reindex f.map) ((e' b).reindex g.map))
  | addPub a f y => exact psame_self (((e' a).reindex f.map).addPub y)
  | sub a b f g => exact hide_self (hide_sub ((e' a).reindex f.map) ((e' b).reindex g.map))
  | neg a f => exact psame_self ((e' a).reindex f).neg
  | mul a b f g => exact hide_self (hide_mul _ (e' a) (e' b))
  | mulNum a f y => exact hide_self (hide_mulPub _ (e' a) _)
  | bil a b B => exact hide_self (hide_mul _ (e' a) (e' b))
  | bilPub a m B y => exact hide_self (hide_mulPub _ (e' a) _)
  | square a f => exact hide_self (hide_square ((e' a).reindex f))
  | sum a f => exact psame_self ((e' a).reindex f.back).sumFirst
  | mean a f => exact hide_self (hide_divInt ((e' a).reindex f.back).sumFirst _)
  | view a f => exact psame_self ((e' a).reindex f)
  | relu a f =>
    exact .bind .refl (hide_gt _ ((e' a).reindex f) (.pub _)) fun _ _ hm => .bind .refl (hide_mul _ ((e' a).reindex f) hm) fun _ _ hz => .pure ⟨hz, hm.reindex _⟩
  | part a f => exact psame_self ((e' a).choose f.pick)
  | cat a b f => exact psame_self ((e' a).join (e' b) f)
  | avg a f => exact hide_self (hide_divInt ((e' a).sums f.win) _)
  | maximum a method m f => exact .bind RSame.refl (hide_maxArgmax k method ((e' a).reindex f.win)) fun _ _ hr => .pure ⟨hr.1, hr.2.reindex _⟩

/-- Gradients for the operands. -/
def CSame (h : Fin n) (l l' : List (Σ a, AST n (sh a))) : Prop := List.Forall₂ (fun c c' => ∃ a g g', c = ⟨a, g⟩ ∧ c' = ⟨a, g'⟩ ∧ ASame h g g') l l'

omit [NeZero n] in
theorem CSame.refl (l : List (Σ a, AST n (sh a))) : CSame h l l := List.forall₂_same.2 fun c _ => ⟨c.1, c.2, c.2, rfl, rfl, .refl _⟩

omit [NeZero n] in
theorem csame1 {a : ℕ} {g g' : AST n (sh a)} (e : ASame h g g') : CSame h [⟨a, g⟩] [⟨a, g'⟩] := .cons ⟨a, g, g', rfl, rfl, e⟩ .nil

omit [NeZero n] in
theorem csame2 {a b : ℕ} {g g' : AST n (sh a)} {k k' : AST n (sh b)} (e : ASame h g g') (f : ASame h k k') : CSame h [⟨a, g⟩, ⟨b, k⟩] [⟨a, g'⟩, ⟨b, k'⟩] :=
  .cons ⟨a, g, g', rfl, rfl, e⟩ (csame1 f)

theorem hide_backwardCall {R R' : Regs n sh} (e : SameRegs h R R') {d : ℕ} {s s' : AST n (ℕ × sh d)} (es : ASame h s s') {g g' : AST n (sh d)} (eg : ASame h g g') (c : Call n sh d) :
    Hidden h (CSame h) (c.backward R s g) (c.backward R' s' g') := by
  have e' : ∀ r, ASame h (R r) (R' r) := e
  cases c with
  | leaf src x => exact .pure .nil
  | param => exact .pure .nil
  | add a b f k => exact .pure (csame2 (eg.shrink f) (eg.shrink k))
  | addPub a f y => exact .pure (csame1 (eg.shrink f))
  | sub a b f k => exact .pure (csame2 (eg.shrink f) (eg.shrink k).neg)
  | neg a f => exact .pure (csame1 (eg.reindex _).neg)
  | mul a b f k => exact .bind .refl (hide_mul _ eg (e' b)) fun _ _ hx => .bind .refl (hide_mul _ eg (e' a)) fun _ _ hy => .pure (csame2 (hx.shrink f) (hy.shrink k))
  | mulNum a f y => exact .bind .refl (hide_mulPub _ eg _) fun _ _ hx => .bind .refl (hide_mul _ eg (e' a)) fun _ _ _ => .pure (csame1 hx)
  | bil a b B => exact .bind .refl (hide_mul _ eg (e' b)) fun _ _ hx => .bind .refl (hide_mul _ (e' a) eg) fun _ _ hy => .pure (csame2 hx hy.sumFirst)
  | bilPub a m B y => exact .bind .refl (hide_mulPub _ eg _) fun _ _ hx => .bind .refl (hide_mul _ (e' a) eg) fun _ _ _ => .pure (csame1 hx)
  | square a f => exact .bind .refl (hide_mulPub _ (e' a) _) fun _ _ h2 => .bind .refl (hide_mul _ eg h2) fun _ _ hx => .pure (csame1 hx)
  | sum a f => exact .bind .refl (hide_mulPub _ eg _) fun _ _ hx => .pure (csame1 hx)
  | mean a f => exact .bind .refl (hide_mulPub _ eg _) fun _ _ hx => .pure (csame1 hx)
  | view a f => exact .pure (csame1 (eg.reindex _))
  | relu a f => exact .bind .refl (hide_mul _ eg (es.reindex _)) fun _ _ hx => .pure (csame1 (hx.reindex _))
  | part a f => exact .pure (csame1 (eg.choose f.back))
  | cat a b f => exact .pure (csame2 (eg.reindex _) (eg.reindex _))
  | avg a f => exact .bind .refl (hide_mulPub _ eg _) fun _ _ hx => .pure (csame1 hx)
  | maximum a method m f => exact .bind .refl (hide_mul _ eg (es.reindex _)) fun _ _ hx => .pure (csame1 (hx.sums f.back))

/-! ## The passes -/

omit [NeZero n] in
theorem SameRegs.refl (R : Regs n sh) : SameRegs h R R := fun _ => ⟨rfl, fun _ _ => rfl⟩

/-- Values and saved tensors. -/
def VSame (h : Fin n) (s s' : Regs n sh × Saved n sh) : Prop := SameRegs h s.1 s'.1 ∧ ∀ r, ASame h (s.2 r) (s'.2 r)

omit [NeZero n] in
theorem VSame.refl (s : Regs n sh × Saved n sh) : VSame h s s := ⟨.refl _, fun _ => .refl _⟩

theorem hide_forward (k : ℕ) {t t' : Tape n sh} (ht : SameTape h t t') {s s' : Regs n sh × Saved n sh} (e : VSame h s s') : Hidden h (VSame h) (Backprop.forward k t s) (Backprop.forward k t' s') := by
  induction ht generalizing s s' with
  | nil => exact .pure e
  | @cons c c' t t' hc _ ih =>
    have go : ∀ {s s' : Regs n sh × Saved n sh} (e : VSame h s s') {d : ℕ} {r r' : AST n (sh d) × AST n (ℕ × sh d)}, RSame h r r' →
        VSame h (set (α := AST n) s.1 d r.1, set (sh := fun r => ℕ × sh r) (α := AST n) s.2 d r.2) (set (α := AST n) s'.1 d r'.1, set (sh := fun r => ℕ × sh r) (α := AST n) s'.2 d r'.2) :=
      fun e _ _ _ hr => ⟨set_same e.1 _ hr.1, set_same (sh := fun r => ℕ × sh r) e.2 _ hr.2⟩
    rcases hc with rfl | ⟨d, x, x', rfl, rfl⟩
    · obtain ⟨d, c⟩ := c
      exact .bind VSame.refl (ih e) fun a a' ha => .bind RSame.refl (hide_forwardCall k ha.1 c) fun r r' hr => .pure (go ha hr)
    · refine .bind VSame.refl (ih e) fun a a' ha => .bind RSame.refl (m := Call.forward k a.1 (.leaf h x)) (m' := Call.forward k a'.1 (.leaf h x')) ?_ fun r r' hr => .pure (go ha hr)
      exact .bind .refl (.encryptA fun hh => absurd rfl hh) fun _ _ ha => .pure (R := RSame h) ⟨⟨rfl, ha⟩, (ASame.mk ha _).reindex _⟩

omit [NeZero n] in
theorem SameGrads.refl (G : Grads n sh) : SameGrads h G G := fun r => by
  cases e : G r with
  | none => exact .inl ⟨rfl, rfl⟩
  | some g => exact .inr ⟨g, g, rfl, rfl, rfl, fun _ _ => rfl⟩

omit [NeZero n] in
theorem SameGrads.symm {G G' : Grads n sh} (e : SameGrads h G G') : SameGrads h G' G := fun r => by
  rcases e r with ⟨a, b⟩ | ⟨g, g', a, b, c⟩
  · exact .inl ⟨b, a⟩
  · exact .inr ⟨g', g, b, a, SameTensor.symm _ _ c⟩

omit [NeZero n] in
theorem SameGrads.set {G G' : Grads n sh} (e : SameGrads h G G') (d : ℕ) {x x' : Option (AST n (sh d))}
    (f : (x = none ∧ x' = none) ∨ ∃ g g', x = some g ∧ x' = some g' ∧ SameTensor h g g') :
    SameGrads h (Program.set (α := fun ι => Option (AST n ι)) G d x) (Program.set (α := fun ι => Option (AST n ι)) G' d x') := by
  intro r
  unfold Program.set
  by_cases hr : r = d
  · subst hr; simpa using f
  · simp only [dif_neg hr]; exact e r

theorem hide_receive {G G' : Grads n sh} (e : SameGrads h G G') {a : ℕ} {g g' : AST n (sh a)} (f : ASame h g g') : Hidden h (SameGrads h) (Backprop.receive G ⟨a, g⟩) (Backprop.receive G' ⟨a, g'⟩) := by
  unfold Backprop.receive
  rcases e a with ⟨h1, h2⟩ | ⟨k, k', h1, h2, hk⟩
  · simp only [h1, h2]; exact .pure (e.set a (.inr ⟨_, _, rfl, rfl, f⟩))
  · simp only [h1, h2]; exact .bind .refl (hide_add hk f) fun _ _ hs => .pure (e.set a (.inr ⟨_, _, rfl, rfl, hs⟩))

theorem hide_receiveAll {l l' : List (Σ a, AST n (sh a))} (hl : CSame h l l') {G G' : Grads n sh} (e : SameGrads h G G') : Hidden h (SameGrads h) (Backprop.receiveAll l G) (Backprop.receiveAll l' G') := by
  induction hl generalizing G G' with
  | nil => exact .pure e
  | cons hc _ ih =>
    obtain ⟨a, g, g', rfl, rfl, f⟩ := hc
    exact .bind SameGrads.refl (hide_receive e f) fun _ _ hG => ih hG

theorem hide_backward {R R' : Regs n sh} (eR : SameRegs h R R') {S S' : Saved n sh} (eS : ∀ r, ASame h (S r) (S' r)) {t t' : Tape n sh} (ht : SameTape h t t') {G G' : Grads n sh} (e : SameGrads h G G') :
    Hidden h (SameGrads h) (Backprop.backward R S t G) (Backprop.backward R' S' t' G') := by
  induction ht generalizing G G' with
  | nil => exact .pure e
  | @cons c c' t t' hc _ ih =>
    have key : ∀ {d : ℕ} (c c' : Call n sh d), (∀ {g g' : AST n (sh d)}, ASame h g g' → Hidden h (CSame h) (c.backward R (S d) g) (c'.backward R' (S' d) g')) →
        Hidden h (SameGrads h) (Backprop.backward R S (⟨d, c⟩ :: t) G) (Backprop.backward R' S' (⟨d, c'⟩ :: t') G') := by
      intro d c c' hcc
      unfold Backprop.backward
      rcases e d with ⟨h1, h2⟩ | ⟨k, k', h1, h2, hk⟩
      · simp only [h1, h2]; exact ih e
      · simp only [h1, h2]
        exact .bind CSame.refl (hcc hk) fun _ _ hl => .bind SameGrads.refl (hide_receiveAll hl e) fun _ _ hG => ih hG
    rcases hc with rfl | ⟨d, x, x', rfl, rfl⟩
    · exact key _ _ fun eg => hide_backwardCall eR (eS _) eg _
    · exact key _ _ fun _ => .pure .nil

omit [NeZero n] in
theorem SameState.refl (s : Regs n sh × Grads n sh) : SameState h s s := ⟨.refl _, .refl _⟩

omit [NeZero n] in
theorem SameState.symm (s s' : Regs n sh × Grads n sh) (e : SameState h s s') : SameState h s' s := ⟨e.1.symm, e.2.symm⟩

theorem hide_run (k : ℕ) {t t' : Tape n sh} (ht : SameTape h t t') {R R' : Regs n sh} (e : SameRegs h R R') (out : ℕ) : Hidden h (SameState h) (Backprop.run k t R out) (Backprop.run k t' R' out) :=
  have e' : ∀ r, ASame h (R r) (R' r) := e
  .bind VSame.refl (hide_forward k ht ⟨e, fun r => (e' r).reindex _⟩) fun _ _ hs => .bind .refl (.encryptA fun _ => rfl) fun _ _ h1 =>
    .bind SameGrads.refl (hide_backward hs.1 hs.2 ht ((SameGrads.refl _).set out (.inr ⟨_, _, rfl, rfl, rfl, h1⟩))) fun _ _ hG => .pure ⟨hs.1, hG⟩

omit [NeZero n] in
theorem SameTape.symm {t t' : Tape n sh} (e : SameTape h t t') : SameTape h t' t := by
  unfold SameTape at e ⊢
  refine List.Forall₂.flip (e.imp fun c c' hc => ?_)
  rcases hc with rfl | ⟨d, x, x', rfl, rfl⟩
  · exact .inl rfl
  · exact .inr ⟨d, x', x, rfl, rfl⟩

omit [NeZero n] in
theorem SameData.symm {l l' : List (Σ r, Fin n × (sh r → ℚ))} (e : SameData h l l') : SameData h l' l := by
  unfold SameData at e ⊢
  refine List.Forall₂.flip (e.imp fun c c' hc => ?_)
  rcases hc with rfl | ⟨d, x, x', rfl, rfl⟩
  · exact .inl rfl
  · exact .inr ⟨d, x', x, rfl, rfl⟩

/-! ## Training -/

theorem hide_encryptAll (k : ℕ) {l l' : List (Σ r, Fin n × (sh r → ℚ))} (hl : SameData h l l') {R R' : Regs n sh} (e : SameRegs h R R') :
    Hidden h (SameRegs h) (Training.encryptAll k l R) (Training.encryptAll k l' R') := by
  induction hl generalizing R R' with
  | nil => exact .pure e
  | @cons c c' t t' hc _ ih =>
    rcases hc with rfl | ⟨d, x, x', rfl, rfl⟩
    · obtain ⟨d, src, x⟩ := c
      exact .bind .refl (.encryptA fun _ => rfl) fun _ _ ha => ih (set_same e d ⟨rfl, ha⟩)
    · exact .bind .refl (.encryptA fun hh => absurd rfl hh) fun _ _ ha => ih (set_same e d ⟨rfl, ha⟩)

theorem hide_scale {x x' : AST n ι} (e : ASame h x x') (c : Sgd.Scalar) : Hidden h (ASame h) (Sgd.scale x c) (Sgd.scale x' c) := by
  cases c with
  | int z => exact .pure (e.mulInt z)
  | float q => exact hide_mulPub _ e _

/-- A tensor that may be missing. -/
def OSame (h : Fin n) (b b' : Option (AST n ι)) : Prop := (b = none ∧ b' = none) ∨ ∃ g g', b = some g ∧ b' = some g' ∧ SameTensor h g g'

omit [NeZero n] in
theorem OSame.refl (b : Option (AST n ι)) : OSame h b b := by
  cases b with
  | none => exact .inl ⟨rfl, rfl⟩
  | some g => exact .inr ⟨g, g, rfl, rfl, rfl, fun _ _ => rfl⟩

theorem hide_used (D : ℕ) (thr2 : Option ℚ) {g g' : AST n ι} (e : ASame h g g') : Hidden h (ASame h) (Sgd.usedShares D thr2 g) (Sgd.usedShares D thr2 g') := by
  cases thr2 with
  | none => exact .pure e
  | some t => exact .bind .refl (hide_square e) fun _ _ hs => .bind .refl (hide_lt _ hs (.pub _)) fun _ _ hm => hide_mul _ e hm

theorem hide_decay (H : Sgd.HyperS) {p p' d d' : AST n ι} (e : ASame h p p') (f : ASame h d d') : Hidden h (ASame h) (Sgd.decayShares H p d) (Sgd.decayShares H p' d') := by
  unfold Sgd.decayShares
  split
  · exact .pure f
  · exact .bind .refl (hide_scale e _) fun _ _ hw => hide_add f hw

theorem hide_buffer (H : Sgd.HyperS) {b b' : Option (AST n ι)} {d d' : AST n ι} (e : OSame h b b') (f : ASame h d d') : Hidden h (ASame h) (Sgd.bufferShares H b d) (Sgd.bufferShares H b' d') := by
  rcases e with ⟨rfl, rfl⟩ | ⟨g, g', rfl, rfl, e⟩
  · exact .pure f
  · exact .bind .refl (hide_scale e _) fun _ _ hb => .bind .refl (hide_scale f _) fun _ _ hd => hide_add hb hd

theorem hide_direction (H : Sgd.HyperS) {d d' b b' : AST n ι} (e : ASame h d d') (f : ASame h b b') : Hidden h (ASame h) (Sgd.directionShares H d b) (Sgd.directionShares H d' b') := by
  unfold Sgd.directionShares
  split
  · exact .bind .refl (hide_scale f _) fun _ _ hm => hide_add e hm
  · exact .pure f

theorem hide_descend (H : Sgd.HyperS) {p p' d d' : AST n ι} (e : ASame h p p') (f : ASame h d d') : Hidden h (ASame h) (Sgd.descendShares H p d) (Sgd.descendShares H p' d') :=
  .bind .refl (hide_scale f _) fun _ _ hu => hide_sub e hu

/-- A parameter with its velocity. -/
def QSame (h : Fin n) (s s' : AST n ι × Option (AST n ι)) : Prop := ASame h s.1 s'.1 ∧ OSame h s.2 s'.2

omit [NeZero n] in
theorem QSame.refl (s : AST n ι × Option (AST n ι)) : QSame h s s := ⟨.refl _, .refl _⟩

theorem hide_step (D : ℕ) (thr2 : Option ℚ) (H : Sgd.HyperS) {s s' : AST n ι × Option (AST n ι)} (e : QSame h s s') {g g' : Option (AST n ι)} (f : OSame h g g') :
    Hidden h (QSame h) (Sgd.stepShares D thr2 H s g) (Sgd.stepShares D thr2 H s' g') := by
  rcases f with ⟨rfl, rfl⟩ | ⟨g, g', rfl, rfl, f⟩
  · exact .pure e
  · refine .bind .refl (hide_used D thr2 f) fun _ _ hd => .bind .refl (hide_decay H e.1 hd) fun _ _ hd => ?_
    by_cases hm : H.momentum.val = 0
    · simp only [hm, if_true]
      exact .bind .refl (hide_descend H e.1 hd) fun _ _ hp => .pure ⟨hp, e.2⟩
    · simp only [hm, if_false]
      exact .bind .refl (hide_buffer H e.2 hd) fun _ _ hb => .bind .refl (hide_direction H hd hb) fun _ _ hd' =>
        .bind .refl (hide_descend H e.1 hd') fun _ _ hp => .pure ⟨hp, .inr ⟨_, _, rfl, rfl, hb⟩⟩

theorem hide_stepAll (D : ℕ) (thr2 : Option ℚ) (H : Sgd.HyperS) {G G' : Grads n sh} (eG : SameGrads h G G') (ps : List ℕ) {s s' : Training.State n sh} (e : SameState h s s') :
    Hidden h (SameState h) (Training.stepAll D thr2 H G ps s) (Training.stepAll D thr2 H G' ps s') := by
  induction ps generalizing s s' with
  | nil => exact .pure e
  | cons p ps ih => exact .bind QSame.refl (hide_step D thr2 H (s := (s.1 p, s.2 p)) (s' := (s'.1 p, s'.2 p)) ⟨e.1 p, e.2 p⟩ (eG p)) fun _ _ hr => ih ⟨set_same e.1 p hr.1, e.2.set p hr.2⟩

theorem hide_iterations (k : ℕ) (thr2 : Option ℚ) (H : Sgd.HyperS) (ps : List ℕ) (out : ℕ) {ts ts' : List (Tape n sh)} (ht : List.Forall₂ (SameTape h) ts ts') {s s' : Training.State n sh} (e : SameState h s s') :
    Hidden h (SameState h) (Training.iterations k thr2 H ps out ts s) (Training.iterations k thr2 H ps out ts' s') := by
  induction ht generalizing s s' with
  | nil => exact .pure e
  | cons hc _ ih =>
    exact .bind SameState.refl (.bind SameState.refl (hide_run k hc e.1 out) fun _ _ hz => hide_stepAll _ thr2 H hz.2 ps e) fun _ _ hs => ih hs

theorem hide_train (k : ℕ) (thr2 : Option ℚ) (H : Sgd.HyperS) (ps : List ℕ) (out : ℕ) {l l' : List (Σ r, Fin n × (sh r → ℚ))} (hl : SameData h l l') {ts ts' : List (Tape n sh)} (ht : List.Forall₂ (SameTape h) ts ts')
    {R R' : Regs n sh} (e : SameRegs h R R') : Hidden h (SameState h) (Training.train k thr2 H l ps out ts R) (Training.train k thr2 H l' ps out ts' R') :=
  .bind SameRegs.refl (hide_encryptAll k hl e) fun _ _ hR => hide_iterations k thr2 H ps out ht ⟨hR, SameGrads.refl _⟩

/-! ## Linear models -/

section Linear
variable {F N : ℕ}

theorem hide_meanRow {x x' : AST n (Fin N)} (e : ASame h x x') : Hidden h (ASame h) (Svm.meanRow x) (Svm.meanRow x') := hide_divInt (e.reindex _).sumFirst _

theorem hide_encrypt (k : ℕ) (x : ι → ℚ) : Hidden h (ASame h) (Svm.encrypt k x : Proto n (AST n ι)) (Svm.encrypt k x) :=
  .bind .refl (.encryptA fun _ => rfl) fun _ _ ha => .pure ⟨rfl, ha⟩

theorem hide_signA (D : ℕ) {x x' : AST n ι} (e : ASame h x x') : Hidden h (ASame h) (x.sign D) (x'.sign D) :=
  .bind .refl (hide_ltz D e) fun _ _ hb => .pure ((hb.mulInt 2).neg.addPub _)

theorem hide_update (lr : ℚ) {p p' g g' : AST n ι} (e : ASame h p p') (f : ASame h g g') : Hidden h (ASame h) (Regression.update lr p g) (Regression.update lr p' g') :=
  .bind .refl (hide_mulPub _ f _) fun _ _ hs => hide_sub e hs

/-- Weights and bias. -/
def WSame (h : Fin n) (q q' : Regression.Params n F) : Prop := SameTensor h q.w q'.w ∧ SameTensor h q.b q'.b

omit [NeZero n] in
theorem WSame.symm (q q' : Regression.Params n F) (e : WSame h q q') : WSame h q' q := ⟨SameTensor.symm _ _ e.1, SameTensor.symm _ _ e.2⟩

/-- Weights, bias and the loss. -/
def LSame' (h : Fin n) (r r' : Regression.Params n F × AST n Unit) : Prop := WSame h r.1 r'.1 ∧ ASame h r.2 r'.2

theorem hide_linearEpoch (k : ℕ) (lr : ℚ) {x x' : AST n (Fin N × Fin F)} (ex : ASame h x x') {y y' : AST n (Fin N)} (ey : ASame h y y') {q q' : Regression.Params n F} (e : WSame h q q') :
    Hidden h (LSame' h) (Regression.epoch k lr x y q) (Regression.epoch k lr x' y' q') := by
  refine .bind .refl (.bind .refl (hide_mul _ ex e.1) fun _ _ ho => .bind .refl (hide_add ho (ASame.reindex e.2 _)) fun _ _ ho => hide_sub ho ey) fun _ _ hd => ?_
  refine .bind .refl (.bind .refl (hide_square hd) fun _ _ hs => hide_meanRow hs) fun _ _ hl => ?_
  refine .bind .refl (.bind .refl (hide_encrypt k _) fun _ _ h1 => .bind .refl (hide_mulPub _ h1 _) fun _ _ hm => .bind .refl (hide_mulPub _ hd _) fun _ _ h2 => hide_mul _ hm h2) fun _ _ hg => ?_
  exact .bind .refl (hide_mul _ hg e.1) fun _ _ _ => .bind .refl (hide_mul _ ex hg) fun _ _ hw => .bind .refl (hide_update lr e.1 hw) fun _ _ hw => .bind .refl (hide_update lr e.2 (hg.reindex _).sumFirst) fun _ _ hb =>
    .pure ⟨⟨hw, hb⟩, hl⟩

theorem hide_linear (k : ℕ) (lr : ℚ) {x x' : AST n (Fin N × Fin F)} (ex : ASame h x x') {y y' : AST n (Fin N)} (ey : ASame h y y') (T : ℕ) {q q' : Regression.Params n F} (e : WSame h q q') :
    Hidden h (WSame h) (Regression.train k lr x y T q) (Regression.train k lr x' y' T q') := by
  induction T generalizing q q' with
  | zero => exact .pure e
  | succ T ih => exact .bind (fun _ => ⟨⟨ASame.refl _, ASame.refl _⟩, .refl _⟩) (hide_linearEpoch k lr ex ey e) fun _ _ hr => ih hr.1

theorem hide_lossOf (k : ℕ) (method : MaxMethod) (c : FunCfg) (skip : Bool) {s s' y y' : AST n (Fin N)} (es : ASame h s s') (ey : ASame h y y') :
    Hidden h (OSame h) (Logistic.lossOf k method c skip s y) (Logistic.lossOf k method c skip s' y') := by
  unfold Logistic.lossOf
  cases skip with
  | true => exact .pure (.refl _)
  | false =>
    refine .bind .refl (.bind .refl (f_log c (o_mulInt (o_stack 2 fun j => ?_) 100)) fun _ _ hy => .pure (o_subNum hy _)) fun _ _ hl => ?_
    · split
      · exact es
      · exact o_rsubNum es 1
    exact .bind .refl (hide_mul _ ey (hl.reindex _)) fun _ _ ha => .bind .refl (hide_mul _ (o_rsubNum (p := k) (method := method) ey 1) (hl.reindex _)) fun _ _ hb => .bind .refl (hide_add ha hb) fun _ _ ht =>
      .bind .refl (hide_meanRow ht) fun _ _ hm => .pure (.inr ⟨_, _, rfl, rfl, hm.neg⟩)

/-- Weights, bias and the loss, if it is computed. -/
def OLSame (h : Fin n) (r r' : Regression.Params n F × Option (AST n Unit)) : Prop := WSame h r.1 r'.1 ∧ OSame h r.2 r'.2

theorem hide_logisticEpoch (k : ℕ) (method : MaxMethod) (c : FunCfg) (coeffs : ℕ → ℚ) (skip : Bool) (lr : ℚ) {x x' : AST n (Fin N × Fin F)} (ex : ASame h x x') {y y' : AST n (Fin N)} (ey : ASame h y y')
    {q q' : Regression.Params n F} (e : WSame h q q') : Hidden h (OLSame h) (Logistic.epoch k method c coeffs skip lr x y q) (Logistic.epoch k method c coeffs skip lr x' y' q') := by
  refine .bind .refl (.bind .refl (hide_mul _ ex e.1) fun _ _ ho => hide_add ho (ASame.reindex e.2 _)) fun _ _ hz => .bind .refl (f_sigmoid c coeffs hz) fun _ _ hs => ?_
  refine .bind OSame.refl (hide_lossOf k method c skip hs ey) fun _ _ hl => ?_
  refine .bind .refl (.bind .refl (hide_encrypt k _) fun _ _ h1 => .bind .refl (hide_sub hs ey) fun _ _ hd => .bind .refl (hide_divInt hd _) fun _ _ hm => hide_mul _ hm h1) fun _ _ hg => ?_
  exact .bind .refl (hide_mul _ hg e.1) fun _ _ _ => .bind .refl (hide_mul _ ex hg) fun _ _ hw => .bind .refl (hide_update lr e.1 hw) fun _ _ hw => .bind .refl (hide_update lr e.2 (hg.reindex _).sumFirst) fun _ _ hb =>
    .pure ⟨⟨hw, hb⟩, hl⟩

theorem hide_logistic (k : ℕ) (method : MaxMethod) (c : FunCfg) (coeffs : ℕ → ℚ) (skip : Bool) (lr : ℚ) {x x' : AST n (Fin N × Fin F)} (ex : ASame h x x') {y y' : AST n (Fin N)} (ey : ASame h y y') (T : ℕ)
    {q q' : Regression.Params n F} (e : WSame h q q') : Hidden h (WSame h) (Logistic.train k method c coeffs skip lr x y T q) (Logistic.train k method c coeffs skip lr x' y' T q') := by
  induction T generalizing q q' with
  | zero => exact .pure e
  | succ T ih => exact .bind (fun _ => ⟨⟨ASame.refl _, ASame.refl _⟩, .refl _⟩) (hide_logisticEpoch k method c coeffs skip lr ex ey e) fun _ _ hr => ih hr.1

/-- Weights, bias and the accuracies. -/
def SvmSame (h : Fin n) (r r' : Svm.Result n F) : Prop := SameTensor h r.w r'.w ∧ SameTensor h r.b r'.b ∧ List.Forall₂ (SameTensor h) r.acc r'.acc

omit [NeZero n] in
theorem SvmSame.refl (r : Svm.Result n F) : SvmSame h r r := ⟨⟨rfl, fun _ _ => rfl⟩, ⟨rfl, fun _ _ => rfl⟩, List.forall₂_same.2 fun _ _ => ⟨rfl, fun _ _ => rfl⟩⟩

omit [NeZero n] in
theorem SvmSame.symm (r r' : Svm.Result n F) (e : SvmSame h r r') : SvmSame h r' r :=
  ⟨SameTensor.symm _ _ e.1, SameTensor.symm _ _ e.2.1, List.Forall₂.flip (e.2.2.imp fun _ _ q => SameTensor.symm _ _ q)⟩

theorem hide_svmEpoch (k : ℕ) (lr : ℚ) {x x' : AST n (Fin F × Fin N)} (ex : ASame h x x') {y y' : AST n (Fin N)} (ey : ASame h y y') {r r' : Svm.Result n F} (e : SvmSame h r r') :
    Hidden h (SvmSame h) (Svm.epoch k lr x y r) (Svm.epoch k lr x' y' r') := by
  refine .bind .refl (.bind .refl (hide_mul _ e.1 ex) fun _ _ hz => .bind .refl (hide_add hz (ASame.reindex e.2.1 _)) fun _ _ hz => hide_signA _ hz) fun _ _ hp => ?_
  refine .bind .refl (hide_mul _ hp ey) fun _ _ hc => .bind .refl (.bind .refl (hide_divInt (hc.addPub _) _) fun _ _ hh => hide_meanRow hh) fun _ _ ha => ?_
  refine .bind .refl (.bind .refl (hide_mul _ ey.neg hc.oneMinus) fun _ _ hg => hide_mulPub _ hg _) fun _ _ hg => .bind .refl (hide_meanRow hg) fun _ _ hb => ?_
  exact .bind .refl (hide_mul _ hg ex) fun _ _ hw => .bind .refl (hide_divInt hw _) fun _ _ hw => .bind .refl (hide_mulPub _ hw _) fun _ _ hw => .bind .refl (hide_sub e.1 hw) fun _ _ hw =>
    .bind .refl (hide_mulPub _ hb _) fun _ _ hb => .bind .refl (hide_sub e.2.1 hb) fun _ _ hb => .pure ⟨hw, hb, List.rel_append e.2.2 (.cons ha .nil)⟩

theorem hide_svm (k : ℕ) (lr : ℚ) {x x' : AST n (Fin F × Fin N)} (ex : ASame h x x') {y y' : AST n (Fin N)} (ey : ASame h y y') (T : ℕ) {r r' : Svm.Result n F} (e : SvmSame h r r') :
    Hidden h (SvmSame h) (Svm.train k lr x y T r) (Svm.train k lr x' y' T r') := by
  induction T generalizing r r' with
  | zero => exact .pure e
  | succ T ih => exact .bind SvmSame.refl (hide_svmEpoch k lr ex ey e) fun _ _ hr => ih hr

end Linear

end CrypTen.Privacy

namespace CrypTen.Training
open CrypTen.Privacy Program
variable {n : ℕ} {sh : ℕ → Type} {ι : Type}

/-- **C100 (gradients).** Two computations with `backward()` that differ only in the numbers of party `h` look the same to all other parties together: their parts of the tuples, all messages, their shares of all values and
gradients. -/
theorem C100_backward [NeZero n] (h : Fin n) (k : ℕ) {t t' : Backprop.Tape n sh} (ht : SameTape h t t') {R R' : Regs n sh} (hR : SameRegs h R R') (out : ℕ) :
    Private h (SameState h) (Backprop.run k t R out) (Backprop.run k t' R' out) :=
  (hide_run k ht hR out).private SameState.symm (hide_run k ht.symm hR.symm out)

/-- **C100 (training).** Two trainings that differ only in the parameters and examples of party `h` look the same to all other parties together, after any number of iterations. -/
theorem C100_train [NeZero n] (h : Fin n) (k : ℕ) (thr2 : Option ℚ) (H : Sgd.HyperS) (ps : List ℕ) (out : ℕ) {l l' : List (Σ r, Fin n × (sh r → ℚ))} (hl : SameData h l l')
    {ts ts' : List (Backprop.Tape n sh)} (ht : List.Forall₂ (SameTape h) ts ts') (init : Regs n sh) : Private h (SameState h) (train k thr2 H l ps out ts init) (train k thr2 H l' ps out ts' init) :=
  (hide_train k thr2 H ps out hl ht (SameRegs.refl _)).private SameState.symm
    (hide_train k thr2 H ps out hl.symm (List.Forall₂.flip (ht.imp fun _ _ e => e.symm)) (SameRegs.refl _))

/-- **C100 (results).** When a gradient, or a trained parameter, is revealed, the share that `h` sends is fixed by what is revealed and by what the others hold: it says nothing more. -/
theorem C100_result (h : Fin n) {s s' : Regs n sh × Backprop.Grads n sh} (hs : SameState h s s') (r : ℕ) :
    ((s.1 r).share h = (s'.1 r).share h ↔ reveal (s.1 r).share = reveal (s'.1 r).share) ∧
      ∀ g g', s.2 r = some g → s'.2 r = some g' → (g.share h = g'.share h ↔ reveal g.share = reveal g'.share) := by
  refine ⟨C77_result h hs.1 r, fun g g' e e' => ?_⟩
  rcases hs.2 r with ⟨h1, _⟩ | ⟨k, k', h1, h2, hk⟩
  · rw [h1] at e; cases e
  · have hk' : SameTensor h g g' := Option.some.inj (h1.symm.trans e) ▸ Option.some.inj (h2.symm.trans e') ▸ hk
    exact C77_result (sh := fun _ => sh r) h (R := fun _ => g) (R' := fun _ => g') (fun _ => hk') 0

/-- **C100 (linear regression).** Data, labels and parameters may come from `h`. -/
theorem C100_linear [NeZero n] {F N : ℕ} (h : Fin n) (k : ℕ) (lr : ℚ) {x x' : AST n (Fin N × Fin F)} (ex : SameTensor h x x') {y y' : AST n (Fin N)} (ey : SameTensor h y y') (T : ℕ)
    {q q' : Regression.Params n F} (e : SameTensor h q.w q'.w ∧ SameTensor h q.b q'.b) :
    Private h (fun q q' => SameTensor h q.w q'.w ∧ SameTensor h q.b q'.b) (Regression.train k lr x y T q) (Regression.train k lr x' y' T q') :=
  Hidden.private (R := WSame h) (WSame.symm (h := h)) (hide_linear k lr ex ey T e) (hide_linear k lr (SameTensor.symm _ _ ex) (SameTensor.symm _ _ ey) T (WSame.symm _ _ e))

/-- **C100 (logistic regression).** With or without the loss, for every method and configuration. -/
theorem C100_logistic [NeZero n] {F N : ℕ} (h : Fin n) (k : ℕ) (method : MaxMethod) (c : FunCfg) (coeffs : ℕ → ℚ) (skip : Bool) (lr : ℚ) {x x' : AST n (Fin N × Fin F)} (ex : SameTensor h x x')
    {y y' : AST n (Fin N)} (ey : SameTensor h y y') (T : ℕ) {q q' : Regression.Params n F} (e : SameTensor h q.w q'.w ∧ SameTensor h q.b q'.b) :
    Private h (fun q q' => SameTensor h q.w q'.w ∧ SameTensor h q.b q'.b) (Logistic.train k method c coeffs skip lr x y T q) (Logistic.train k method c coeffs skip lr x' y' T q') :=
  Hidden.private (R := WSame h) (WSame.symm (h := h)) (hide_logistic k method c coeffs skip lr ex ey T e)
    (hide_logistic k method c coeffs skip lr (SameTensor.symm _ _ ex) (SameTensor.symm _ _ ey) T (WSame.symm _ _ e))

/-- **C100 (linear classifier).** The accuracies are part of the result; the example reveals them. -/
theorem C100_svm [NeZero n] {F N : ℕ} (h : Fin n) (k : ℕ) (lr : ℚ) {x x' : AST n (Fin F × Fin N)} (ex : SameTensor h x x') {y y' : AST n (Fin N)} (ey : SameTensor h y y') (T : ℕ)
    {r r' : Svm.Result n F} (e : SameTensor h r.w r'.w ∧ SameTensor h r.b r'.b ∧ List.Forall₂ (SameTensor h) r.acc r'.acc) :
    Private h (fun r r' => SameTensor h r.w r'.w ∧ SameTensor h r.b r'.b ∧ List.Forall₂ (SameTensor h) r.acc r'.acc) (Svm.train k lr x y T r) (Svm.train k lr x' y' T r') :=
  Hidden.private (R := SvmSame h) (SvmSame.symm (h := h)) (hide_svm k lr ex ey T e) (hide_svm k lr (SameTensor.symm _ _ ex) (SameTensor.symm _ _ ey) T (SvmSame.symm _ _ e))

/-- Two trainings on different examples of party 1, and with different parameters of party 1, meet the conditions. -/
example : SameData (1 : Fin 2) (sh := fun _ => Unit) [⟨0, 1, fun _ => 2⟩, ⟨1, 0, fun _ => 3⟩] [⟨0, 1, fun _ => -5⟩, ⟨1, 0, fun _ => 3⟩] ∧
    SameTape (1 : Fin 2) (sh := fun _ => Unit) [⟨4, .mul 3 0 (.none Unit) (.none Unit)⟩, ⟨3, .leaf 1 fun _ => 7⟩, ⟨0, .param⟩] [⟨4, .mul 3 0 (.none Unit) (.none Unit)⟩, ⟨3, .leaf 1 fun _ => 8⟩, ⟨0, .param⟩] :=
  ⟨.cons (.inr ⟨0, _, _, rfl, rfl⟩) (.cons (.inl rfl) .nil), .cons (.inl rfl) (.cons (.inr ⟨3, _, _, rfl, rfl⟩) (.cons (.inl rfl) .nil))⟩

end CrypTen.Training

import Verif.Spec.Sgd
import Verif.Props.Logic
import Verif.Props.FixedPoint
import Mathlib.Tactic.Linarith
import Mathlib.Tactic.Ring

/-!
# C44: SGD follows the documented update for every history
-/

namespace CrypTen.Sgd

variable {κ : Type}

/-- what one step of a parameter's loop body leaves alone, and what it establishes -/
private structure Frame (params : List ℕ) (p : ℕ) (s s' : State κ) : Prop where
  sep : Separate params s'
  grad : s'.grad = s.grad
  next : s.next ≤ s'.next
  gradVal : ∀ q ∈ params, ∀ g, s.grad q = some g → s'.val g = s.val g
  others : ∀ q ∈ params, q ≠ p → s'.view q = s.view q

private theorem sep_alloc {params : List ℕ} {s : State κ} (h : Separate params s) (v : κ → ℚ) : Separate params (s.alloc v).1 where
  nodup := h.nodup
  params_lt p hp := Nat.lt_succ_of_lt (h.params_lt p hp)
  grad_lt p hp g hg := ⟨Nat.lt_succ_of_lt (h.grad_lt p hp g hg).1, (h.grad_lt p hp g hg).2⟩
  buf_lt p hp b hb := ⟨Nat.lt_succ_of_lt (h.buf_lt p hp b hb).1, (h.buf_lt p hp b hb).2⟩
  buf_inj := h.buf_inj

private theorem sep_write {params : List ℕ} {s : State κ} (h : Separate params s) (a : ℕ) (v : κ → ℚ) : Separate params (s.write a v) where
  nodup := h.nodup
  params_lt := h.params_lt
  grad_lt := h.grad_lt
  buf_lt := h.buf_lt
  buf_inj := h.buf_inj

private theorem alloc_val_of_lt (s : State κ) (v : κ → ℚ) {a : ℕ} (h : a < s.next) : (s.alloc v).1.val a = s.val a := if_neg (Nat.ne_of_lt h)
private theorem alloc_val_self (s : State κ) (v : κ → ℚ) : (s.alloc v).1.val s.next = v := if_pos rfl
private theorem write_val_self (s : State κ) (a : ℕ) (v : κ → ℚ) : (s.write a v).val a = v := if_pos rfl
private theorem write_val_ne (s : State κ) {a b : ℕ} (v : κ → ℚ) (h : b ≠ a) : (s.write a v).val b = s.val b := if_neg h

private theorem view_congr {s s' : State κ} {q : ℕ} (hb : s'.buf q = s.buf q) (hv : s'.val q = s.val q) (hbv : ∀ b, s.buf q = some b → s'.val b = s.val b) : s'.view q = s.view q := by
  unfold State.view
  rw [hb, hv]
  cases h : s.buf q with
  | none => rfl
  | some b => simp only [Option.map_some]; rw [hbv b h]

/-- an intermediate object: it is allocated, and is no parameter or velocity unless it is the velocity of `p` -/
private structure Temp (params : List ℕ) (s : State κ) (d : ℕ) : Prop where
  lt : d < s.next
  notParam : d ∉ params

/-- only new objects differ -/
private structure Ext (s s' : State κ) : Prop where
  grad : s'.grad = s.grad
  buf : s'.buf = s.buf
  next : s.next ≤ s'.next
  val : ∀ a, a < s.next → s'.val a = s.val a

private theorem Ext.refl (s : State κ) : Ext s s := ⟨rfl, rfl, le_rfl, fun _ _ => rfl⟩
private theorem Ext.trans {s t u : State κ} (h : Ext s t) (h' : Ext t u) : Ext s u :=
  ⟨h'.grad.trans h.grad, h'.buf.trans h.buf, h.next.trans h'.next, fun a ha => (h'.val a (lt_of_lt_of_le ha h.next)).trans (h.val a ha)⟩
private theorem ext_alloc (s : State κ) (v : κ → ℚ) : Ext s (s.alloc v).1 := ⟨rfl, rfl, Nat.le_succ _, fun _ ha => alloc_val_of_lt s v ha⟩

private theorem Ext.view {params : List ℕ} {s s' : State κ} (h : Ext s s') (hs : Separate params s) {q : ℕ} (hq : q ∈ params) : s'.view q = s.view q :=
  view_congr (by rw [h.buf]) (h.val q (hs.params_lt q hq)) fun b hb => h.val b (hs.buf_lt q hq b hb).1

private theorem abs_lt_iff_sq (a t : ℚ) : a * a < t * t ↔ |a| < |t| := abs_lt_iff_mul_self_lt.symm

private theorem threshold_spec {params : List ℕ} {s : State κ} (hs : Separate params s) (thr : Option ℚ) {g p : ℕ} (hp : p ∈ params) (hg : s.grad p = some g) :
    ∃ s' d, threshold (squareThreshold thr) s g = (s', d) ∧ Ext s s' ∧ Separate params s' ∧ Temp params s' d ∧ (∀ q ∈ params, s'.buf q ≠ some d) ∧
      s'.val d = fun i => match thr with
        | some t => if |s.val g i| < |t| then s.val g i else 0
        | none => s.val g i := by
  obtain ⟨g1, g2, g3⟩ := hs.grad_lt p hp g hg
  cases thr with
  | none => exact ⟨s, g, rfl, Ext.refl s, hs, ⟨g1, g2⟩, g3, rfl⟩
  | some t =>
    refine ⟨(s.alloc _).1, s.next, rfl, ext_alloc s _, sep_alloc hs _, ⟨Nat.lt_succ_self _, fun h => absurd (hs.params_lt _ h) (lt_irrefl _)⟩, fun q hq h => absurd (hs.buf_lt q hq _ h).1 (lt_irrefl _), ?_⟩
    rw [alloc_val_self]
    funext i
    dsimp only
    simp only [abs_lt_iff_sq]
    split <;> simp

private theorem decay_spec {params : List ℕ} {s : State κ} (hs : Separate params s) (h : Hyper) {p d : ℕ} (hp : p ∈ params) (hd : Temp params s d) (hdb : ∀ q ∈ params, s.buf q ≠ some d) :
    ∃ s' d', decay h p s d = (s', d') ∧ Ext s s' ∧ Separate params s' ∧ Temp params s' d' ∧ (∀ q ∈ params, s'.buf q ≠ some d') ∧ s'.val d' = fun i => s.val d i + h.weightDecay * s.val p i := by
  unfold decay
  split
  · refine ⟨(s.alloc _).1, s.next, rfl, ext_alloc s _, sep_alloc hs _, ⟨Nat.lt_succ_self _, fun h => absurd (hs.params_lt _ h) (lt_irrefl _)⟩, fun q hq h => absurd (hs.buf_lt q hq _ h).1 (lt_irrefl _), ?_⟩
    rw [alloc_val_self]
    funext i
    ring
  · next hw =>
    rw [not_not] at hw
    refine ⟨s, d, rfl, Ext.refl s, hs, hd, hdb, ?_⟩
    funext i
    rw [hw]; ring

/-- the velocity update -/
private theorem velocity_spec {params : List ℕ} {s : State κ} (hs : Separate params s) (h : Hyper) {p d : ℕ} (hp : p ∈ params) (hd : Temp params s d) (hdb : ∀ q ∈ params, s.buf q ≠ some d) :
    ∃ s' b, velocity h p s d = (s', b) ∧ Frame params p s s' ∧ s'.val p = s.val p ∧ s'.buf p = some b ∧ s'.val d = s.val d ∧ s'.val b = newVelocity h ((s.buf p).map s.val) (s.val d)
      ∧ Temp params s' b := by
  unfold velocity
  cases hb : s.buf p with
  | none =>
    have hsa := sep_alloc hs (s.val d)
    have hnext : ∀ q ∈ params, s.buf q ≠ some s.next := fun q hq e => absurd (hs.buf_lt q hq _ e).1 (lt_irrefl _)
    refine ⟨_, s.next, rfl, ⟨⟨hsa.nodup, hsa.params_lt, ?_, ?_, ?_⟩, rfl, Nat.le_succ _, ?_, ?_⟩, ?_, if_pos rfl, ?_, ?_, ⟨Nat.lt_succ_self _, fun e => absurd (hs.params_lt _ e) (lt_irrefl _)⟩⟩
    · intro q hq g hg
      refine ⟨(hsa.grad_lt q hq g hg).1, (hsa.grad_lt q hq g hg).2.1, fun r hr e => ?_⟩
      by_cases hrp : r = p
      · rw [show ({ (s.alloc (s.val d)).1 with buf := fun q => if q = p then some s.next else s.buf q } : State κ).buf r = some s.next from if_pos hrp] at e
        cases e
        exact absurd (hs.grad_lt q hq _ hg).1 (lt_irrefl _)
      · rw [show ({ (s.alloc (s.val d)).1 with buf := fun q => if q = p then some s.next else s.buf q } : State κ).buf r = s.buf r from if_neg hrp] at e
        exact (hs.grad_lt q hq g hg).2.2 r hr e
    · intro q hq b e
      by_cases hqp : q = p
      · rw [show ({ (s.alloc (s.val d)).1 with buf := fun q => if q = p then some s.next else s.buf q } : State κ).buf q = some s.next from if_pos hqp] at e
        cases e
        exact ⟨Nat.lt_succ_self _, fun e => absurd (hs.params_lt _ e) (lt_irrefl _)⟩
      · rw [show ({ (s.alloc (s.val d)).1 with buf := fun q => if q = p then some s.next else s.buf q } : State κ).buf q = s.buf q from if_neg hqp] at e
        exact hsa.buf_lt q hq b e
    · intro q hq r hr b e1 e2
      have f : ∀ x, ({ (s.alloc (s.val d)).1 with buf := fun q => if q = p then some s.next else s.buf q } : State κ).buf x = if x = p then some s.next else s.buf x := fun _ => rfl
      rw [f] at e1 e2
      by_cases hqp : q = p <;> by_cases hrp : r = p
      · rw [hqp, hrp]
      · rw [if_pos hqp] at e1; rw [if_neg hrp] at e2; cases e1; exact absurd e2 (hnext r hr)
      · rw [if_neg hqp] at e1; rw [if_pos hrp] at e2; cases e2; exact absurd e1 (hnext q hq)
      · rw [if_neg hqp] at e1; rw [if_neg hrp] at e2; exact hs.buf_inj q hq r hr b e1 e2
    · intro q hq g hg
      exact alloc_val_of_lt s _ (hs.grad_lt q hq g hg).1
    · intro q hq hqp
      exact view_congr (if_neg hqp) (alloc_val_of_lt s _ (hs.params_lt q hq)) fun b e => alloc_val_of_lt s _ (hs.buf_lt q hq b e).1
    · exact alloc_val_of_lt s _ (hs.params_lt p hp)
    · exact alloc_val_of_lt s _ hd.lt
    · exact (alloc_val_self s (s.val d)).trans rfl
  | some b =>
    obtain ⟨b1, b2⟩ := hs.buf_lt p hp b hb
    have hdn : d ≠ b := fun e => hdb p hp (by rw [e]; exact hb)
    have hpn : p ≠ b := fun e => b2 (by rw [← e]; exact hp)
    have val_ne : ∀ a, a ≠ b → ((s.write b fun i => s.val b i * h.momentum).write b fun i => (s.write b fun i => s.val b i * h.momentum).val b i + (s.write b fun i => s.val b i * h.momentum).val d i * (1 - h.dampening)).val a = s.val a :=
      fun a ha => by rw [write_val_ne _ _ ha, write_val_ne _ _ ha]
    refine ⟨_, b, rfl, ⟨sep_write (sep_write hs _ _) _ _, rfl, le_rfl, ?_, ?_⟩, val_ne p hpn, hb, val_ne d hdn, ?_, ⟨b1, b2⟩⟩
    · intro q hq g hg
      exact val_ne g fun e => (hs.grad_lt q hq g hg).2.2 p hp (by rw [e]; exact hb)
    · intro q hq hqp
      refine view_congr rfl (val_ne q fun e => b2 (by rw [← e]; exact hq)) fun c hc => val_ne c fun e => hqp (hs.buf_inj q hq p hp b (by rw [← e]; exact hc) hb)
    · rw [write_val_self, write_val_self, write_val_ne _ _ hdn]
      funext i
      simp only [newVelocity, Option.map_some]
      ring

private theorem momentum_spec {params : List ℕ} {s : State κ} (hs : Separate params s) (h : Hyper) {p d : ℕ} (hp : p ∈ params) (hd : Temp params s d) (hdb : ∀ q ∈ params, s.buf q ≠ some d) :
    ∃ s' d', momentumStep h p s d = (s', d') ∧ Frame params p s s' ∧ s'.val p = s.val p ∧ Temp params s' d' ∧
      (s'.buf p).map s'.val = (if h.momentum = 0 then (s.buf p).map s.val else some (newVelocity h ((s.buf p).map s.val) (s.val d))) ∧
      s'.val d' = (if h.momentum = 0 then s.val d else fun i => if h.nesterov then s.val d i + h.momentum * newVelocity h ((s.buf p).map s.val) (s.val d) i else newVelocity h ((s.buf p).map s.val) (s.val d) i) := by
  unfold momentumStep
  by_cases hm : h.momentum = 0
  · simp only [hm, ne_eq, not_true_eq_false, if_false, if_true]
    exact ⟨s, d, rfl, ⟨hs, rfl, le_rfl, fun _ _ _ _ => rfl, fun _ _ _ => rfl⟩, rfl, hd, rfl, rfl⟩
  · simp only [hm, ne_eq, not_false_eq_true, if_true, if_false]
    obtain ⟨t, b, e, hf, h1, h2, h3, h4, h5⟩ := velocity_spec hs h hp hd hdb
    rw [e]
    dsimp only
    by_cases hn : h.nesterov = true
    · rw [if_pos hn]
      have hx := ext_alloc t fun i => t.val d i + t.val b i * h.momentum
      refine ⟨(t.alloc fun i => t.val d i + t.val b i * h.momentum).1, t.next, rfl, ⟨sep_alloc hf.sep _, hf.grad, hf.next.trans (Nat.le_succ _), ?_, ?_⟩, ?_, ⟨Nat.lt_succ_self _, fun e => absurd (hf.sep.params_lt _ e) (lt_irrefl _)⟩, ?_, ?_⟩
      · intro q hq g hg
        rw [hx.val g (hf.sep.grad_lt q hq g (by rw [hf.grad]; exact hg)).1]
        exact hf.gradVal q hq g hg
      · intro q hq hqp
        rw [hx.view hf.sep hq]; exact hf.others q hq hqp
      · rw [hx.val p (hf.sep.params_lt p hp), h1]
      · rw [hx.buf, h2, Option.map_some, hx.val b h5.lt, h4]
      · rw [alloc_val_self, h3, h4]
        funext i
        rw [if_pos hn]; ring
    · rw [if_neg hn]
      refine ⟨t, b, rfl, hf, h1, h5, by rw [h2, Option.map_some, h4], ?_⟩
      rw [h4]
      funext i
      rw [if_neg hn]

/-- **C44.** One pass of the loop body: the parameter and its velocity take one documented step, nothing else that the user can see changes, in particular no gradient. -/
private theorem stepParam_spec {params : List ℕ} {s : State κ} (hs : Separate params s) (thr : Option ℚ) (h : Hyper) {p : ℕ} (hp : p ∈ params) :
    Frame params p s (stepParam (squareThreshold thr) h s p) ∧ (stepParam (squareThreshold thr) h s p).view p = docStep thr h (s.view p) (s.gradient p) := by
  unfold stepParam State.gradient
  cases hg : s.grad p with
  | none => exact ⟨⟨hs, rfl, le_rfl, fun _ _ _ _ => rfl, fun _ _ _ => rfl⟩, rfl⟩
  | some g =>
    dsimp only
    obtain ⟨s1, d1, e1, x1, sep1, t1, b1, v1⟩ := threshold_spec hs thr hp hg
    rw [e1]; dsimp only
    obtain ⟨s2, d2, e2, x2, sep2, t2, b2, v2⟩ := decay_spec sep1 h hp t1 b1
    rw [e2]; dsimp only
    obtain ⟨s3, d3, e3, f3, p3, t3, w3, v3⟩ := momentum_spec sep2 h hp t2 b2
    rw [e3]; dsimp only
    have x12 := x1.trans x2
    have hpv : s2.val p = s.val p := x12.val p (hs.params_lt p hp)
    have hbv : (s2.buf p).map s2.val = (s.buf p).map s.val := congrArg Prod.snd (x12.view hs hp)
    have hd2 : s2.val d2 = usedGradient thr h.weightDecay (s.val g) (s.val p) := by
      rw [v2, v1, x1.val p (hs.params_lt p hp)]; rfl
    have hpd : p ≠ d3 := fun e => t3.notParam (by rw [← e]; exact hp)
    refine ⟨⟨sep_write f3.sep _ _, f3.grad.trans x12.grad, x12.next.trans f3.next, ?_, ?_⟩, ?_⟩
    · intro q hq g' hg'
      have hgp : g' ≠ p := fun e => (hs.grad_lt q hq g' hg').2.1 (by rw [e]; exact hp)
      rw [write_val_ne _ _ hgp, f3.gradVal q hq g' (by rw [x12.grad]; exact hg'), x12.val g' (hs.grad_lt q hq g' hg').1]
    · intro q hq hqp
      rw [← x12.view hs hq, ← f3.others q hq hqp]
      exact view_congr rfl (write_val_ne _ _ hqp) fun b hb => write_val_ne _ _ fun e => (f3.sep.buf_lt q hq b hb).2 (by rw [e]; exact hp)
    · have hw : ((s3.write p fun i => s3.val p i - s3.val d3 i * h.lr).buf p).map (s3.write p fun i => s3.val p i - s3.val d3 i * h.lr).val = (s3.buf p).map s3.val := by
        show (s3.buf p).map _ = _
        cases hb : s3.buf p with
        | none => rfl
        | some b =>
          simp only [Option.map_some]
          rw [write_val_ne _ _ fun e => (f3.sep.buf_lt p hp b hb).2 (by rw [e]; exact hp)]
      unfold State.view
      rw [hw, w3, write_val_self, p3, v3, hbv, hpv, hd2]
      simp only [docStep, Option.map_some]
      by_cases hm : h.momentum = 0
      · simp only [hm, if_true]
        refine Prod.ext ?_ rfl
        funext i; dsimp only; ring
      · simp only [hm, if_false]
        refine Prod.ext ?_ rfl
        funext i; dsimp only; ring

private theorem group_spec {params : List ℕ} (thr : Option ℚ) (h : Hyper) : ∀ (ps : List ℕ) (s : State κ), Separate params s → ps.Nodup → (∀ p ∈ ps, p ∈ params) →
    Separate params (ps.foldl (stepParam (squareThreshold thr) h) s) ∧ (ps.foldl (stepParam (squareThreshold thr) h) s).grad = s.grad ∧
    (∀ q ∈ params, ∀ g, s.grad q = some g → (ps.foldl (stepParam (squareThreshold thr) h) s).val g = s.val g) ∧
    (∀ q ∈ params, q ∉ ps → (ps.foldl (stepParam (squareThreshold thr) h) s).view q = s.view q) ∧
    ∀ q ∈ ps, (ps.foldl (stepParam (squareThreshold thr) h) s).view q = docStep thr h (s.view q) (s.gradient q)
  | [], s, hs, _, _ => ⟨hs, rfl, fun _ _ _ _ => rfl, fun _ _ _ => rfl, fun _ h => absurd h (by simp)⟩
  | p :: ps, s, hs, hn, hsub => by
    have hp := hsub p (by simp)
    obtain ⟨hf, hv⟩ := stepParam_spec hs thr h hp
    rw [List.nodup_cons] at hn
    obtain ⟨i1, i2, i3, i4, i5⟩ := group_spec thr h ps (stepParam (squareThreshold thr) h s p) hf.sep hn.2 fun q hq => hsub q (by simp [hq])
    rw [List.foldl_cons]
    refine ⟨i1, i2.trans hf.grad, fun q hq g hg => (i3 q hq g (by rw [hf.grad]; exact hg)).trans (hf.gradVal q hq g hg), ?_, ?_⟩
    · intro q hq hnot
      rw [List.mem_cons, not_or] at hnot
      rw [i4 q hq hnot.2, hf.others q hq hnot.1]
    · intro q hq
      rcases List.mem_cons.1 hq with rfl | hq
      · rw [i4 q hp hn.1, hv]
      · rw [i5 q hq, hf.others q (hsub q (by simp [hq])) fun e => hn.1 (by rw [← e]; exact hq)]
        congr 1
        unfold State.gradient
        rw [hf.grad]
        cases hg : s.grad q with
        | none => rfl
        | some g => simp only [Option.map_some]; rw [hf.gradVal q (hsub q (by simp [hq])) g hg]

/-- **C44.** One step, for all groups: every parameter takes one documented step with its own group's hyper-parameters; gradients keep their values. -/
theorem C44_step (thr : Option ℚ) (params : List ℕ) : ∀ (groups : List (Hyper × List ℕ)) (s : State κ), Separate params s → (groups.flatMap Prod.snd).Nodup → (∀ gr ∈ groups, ∀ p ∈ gr.2, p ∈ params) →
    Separate params (step (squareThreshold thr) groups s) ∧ (step (squareThreshold thr) groups s).grad = s.grad ∧
    (∀ q ∈ params, (step (squareThreshold thr) groups s).gradient q = s.gradient q) ∧
    (∀ q ∈ params, (∀ gr ∈ groups, q ∉ gr.2) → (step (squareThreshold thr) groups s).view q = s.view q) ∧
    ∀ gr ∈ groups, ∀ q ∈ gr.2, (step (squareThreshold thr) groups s).view q = docStep thr gr.1 (s.view q) (s.gradient q)
  | [], s, hs, _, _ => ⟨hs, rfl, fun _ _ => rfl, fun _ _ _ => rfl, fun _ h => absurd h (by simp)⟩
  | gr :: groups, s, hs, hn, hsub => by
    rw [List.flatMap_cons, List.nodup_append] at hn
    obtain ⟨i1, i2, i3, i4, i5⟩ := group_spec thr gr.1 gr.2 s hs hn.1 (hsub gr (by simp))
    obtain ⟨s', hs'⟩ : ∃ s', gr.2.foldl (stepParam (squareThreshold thr) gr.1) s = s' := ⟨_, rfl⟩
    rw [hs'] at i1 i2 i3 i4 i5
    have e : step (squareThreshold thr) (gr :: groups) s = step (squareThreshold thr) groups s' := by rw [← hs']; rfl
    obtain ⟨j1, j2, j3, j4, j5⟩ := C44_step thr params groups s' i1 hn.2.1 fun g hg => hsub g (by simp [hg])
    have hgrad : ∀ q ∈ params, s'.gradient q = s.gradient q := by
      intro q hq
      unfold State.gradient
      rw [i2]
      cases hg : s.grad q with
      | none => rfl
      | some g => simp only [Option.map_some]; rw [i3 q hq g hg]
    rw [e]
    refine ⟨j1, j2.trans i2, fun q hq => (j3 q hq).trans (hgrad q hq), ?_, ?_⟩
    · intro q hq hnot
      rw [j4 q hq fun g hg => hnot g (by simp [hg]), i4 q hq (hnot gr (by simp))]
    · intro gr' hgr' q hq
      rcases List.mem_cons.1 hgr' with rfl | hgr'
      · rw [j4 q (hsub _ (by simp) q hq) fun g hg hqg => (hn.2.2 q hq q (List.mem_flatMap.2 ⟨g, hg, hqg⟩)) rfl, i5 q hq]
      · have hnot : q ∉ gr.2 := fun hq' => hn.2.2 q hq' q (List.mem_flatMap.2 ⟨gr', hgr', hq⟩) rfl
        have hqp := hsub gr' (by simp [hgr']) q hq
        rw [j5 gr' hgr' q hq, i4 q hqp hnot, hgrad q hqp]

/-- **C44.** For every history, with anything happening between the steps that does not touch parameters and velocities: after `k` rounds every parameter has the documented value, as a function of
the gradients that were present at the steps. -/
theorem C44_history (thr : Option ℚ) (groups : List (Hyper × List ℕ)) (hn : (groups.flatMap Prod.snd).Nodup) (user : ℕ → State κ → State κ) (s : State κ) (hs : Separate (groups.flatMap Prod.snd) s)
    (hfresh : ∀ p, s.buf p = none) (huser : ∀ k t, Separate (groups.flatMap Prod.snd) t → Between (groups.flatMap Prod.snd) t (user k t)) (k : ℕ) :
    ∀ gr ∈ groups, ∀ p ∈ gr.2, (rounds (squareThreshold thr) groups user s k).view p =
      docRun thr gr.1 (s.val p) ((List.range k).map fun j => (user j (rounds (squareThreshold thr) groups user s j)).gradient p) := by
  have hsub : ∀ gr ∈ groups, ∀ p ∈ gr.2, p ∈ groups.flatMap Prod.snd := fun gr h p hp => List.mem_flatMap.2 ⟨gr, h, hp⟩
  have hsep : ∀ k, Separate (groups.flatMap Prod.snd) (rounds (squareThreshold thr) groups user s k) := by
    intro k
    induction k with
    | zero => exact hs
    | succ k ih => exact (C44_step thr _ groups _ (huser k _ ih).1 hn hsub).1
  induction k with
  | zero =>
    intro gr _ p _
    show (s.val p, (s.buf p).map s.val) = _
    rw [hfresh p]; rfl
  | succ k ih =>
    intro gr hgr p hp
    have hu := huser k _ (hsep k)
    rw [List.range_succ, List.map_append, docRun, List.foldl_append]
    have := ih gr hgr p hp
    rw [docRun] at this
    rw [← this, ← hu.2 p (hsub gr hgr p hp)]
    exact (C44_step thr _ groups _ hu.1 hn hsub).2.2.2.2 gr hgr p hp

/-- Two parameters in two groups (momentum with dampening and decay; Nesterov), sharing one gradient object: the hypotheses can be met. -/
example : Separate [0, 1] (⟨fun a _ => a, 3, fun p => if p ≤ 1 then some 2 else none, fun _ => none⟩ : State Unit) := by
  refine ⟨by decide, by simp, ?_, by simp, by simp⟩
  intro p hp g hg
  have h1 : p ≤ 1 := by simp at hp; omega
  simp only [h1, if_true, Option.some.injEq] at hg
  subst hg
  simp

/-- The documented run without decay and threshold, in closed form: `v_t = μ^{t-1} g_1 + (1 − τ) Σ_{1<s≤t} μ^{t-s} g_s` and `p_k = p_0 − lr Σ_{t≤k} v_t`. -/
theorem C44_closed_form (h : Hyper) (hm : h.momentum ≠ 0) (hn : h.nesterov = false) (hw : h.weightDecay = 0) (p : κ → ℚ) (g : ℕ → κ → ℚ) (k : ℕ) (i : κ) :
    let v : ℕ → ℚ := fun t => h.momentum ^ t * g 0 i + (1 - h.dampening) * ∑ j ∈ Finset.range t, h.momentum ^ (t - 1 - j) * g (j + 1) i
    (docRun none h p ((List.range k).map fun j => some (g j))).1 i = p i - h.lr * ∑ t ∈ Finset.range k, v t ∧
      (docRun none h p ((List.range (k + 1)).map fun j => some (g j))).2.map (fun w => w i) = some (v k) := by
  intro v
  have main : ∀ k, (docRun none h p ((List.range k).map fun j => some (g j))).1 i = p i - h.lr * ∑ t ∈ Finset.range k, v t ∧
      (docRun none h p ((List.range k).map fun j => some (g j))).2.map (fun w => w i) = if k = 0 then none else some (v (k - 1)) := by
    intro k
    induction k with
    | zero => simp [docRun]
    | succ k ih =>
      obtain ⟨s, hs⟩ : ∃ s, docRun none h p ((List.range k).map fun j => some (g j)) = s := ⟨_, rfl⟩
      rw [List.range_succ, List.map_append, docRun, List.foldl_append]
      rw [docRun] at hs
      rw [docRun, hs] at ih
      rw [hs]
      have e : newVelocity h s.2 (usedGradient none h.weightDecay (g k) s.1) i = v k := by
        simp only [newVelocity, usedGradient, hw, zero_mul, add_zero]
        cases hk : k with
        | zero =>
          subst hk
          have h2 := ih.2
          simp only [if_true, Option.map_eq_none_iff] at h2
          rw [h2]; simp [v]
        | succ k =>
          subst hk
          have h2 := ih.2
          simp only [Nat.succ_ne_zero, if_false, Option.map_eq_some_iff] at h2
          obtain ⟨w, hw1, hw2⟩ := h2
          rw [hw1]
          dsimp only
          rw [hw2]
          simp only [v, Nat.add_sub_cancel]
          rw [Finset.sum_range_succ]
          have : ∀ j ∈ Finset.range k, h.momentum ^ (k - j) * g (j + 1) i = h.momentum * (h.momentum ^ (k - 1 - j) * g (j + 1) i) := by
            intro j hj
            rw [Finset.mem_range] at hj
            rw [← mul_assoc, ← pow_succ', show k - 1 - j + 1 = k - j by omega]
          rw [Finset.sum_congr rfl this, ← Finset.mul_sum, Nat.sub_self, pow_zero, pow_succ]
          ring
      simp only [List.map_cons, List.map_nil, List.foldl_cons, List.foldl_nil, docStep, hm, if_false, hn, Bool.false_eq_true, Option.map_some, Nat.succ_ne_zero, Nat.add_sub_cancel]
      refine ⟨?_, by rw [e]⟩
      rw [e, ih.1, Finset.sum_range_succ]
      ring
  refine ⟨(main k).1, ?_⟩
  have := (main (k + 1)).2
  simpa using this

/-- The documented threshold is "above": an entry equal to the threshold should be kept, the code drops it. -/
theorem C44_threshold_boundary_wrong : ∃ (s : State Unit) (h : Hyper), h.accepted ∧ Separate [0] s ∧ s.gradient 0 = some (fun _ => 1) ∧ (s.val 0 ()) = 5 ∧ h.lr = 1 ∧
    (step (squareThreshold (some 1)) [(h, [0])] s).val 0 () = 5 := by
  refine ⟨⟨fun a _ => if a = 0 then 5 else 1, 2, fun p => if p = 0 then some 1 else none, fun _ => none⟩, ⟨1, 0, 0, 0, false⟩, by simp [Hyper.accepted], ?_, by simp [State.gradient], rfl, rfl, ?_⟩
  · refine ⟨by simp, by simp, ?_, by simp, by simp⟩
    intro p hp g hg
    simp only [List.mem_singleton] at hp
    subst hp
    simp only [if_true, Option.some.injEq] at hg
    subst hg
    simp
  · simp [step, squareThreshold, stepParam, threshold, State.alloc, decay, momentumStep, State.write]

/-! ## zero_grad -/

private theorem foldl_flat {α β : Type} (f : α → β → α) (groups : List (Hyper × List β)) (s : α) : groups.foldl (fun s gr => gr.2.foldl f s) s = (groups.flatMap Prod.snd).foldl f s := by
  induction groups generalizing s with
  | nil => rfl
  | cons g gs ih => rw [List.foldl_cons, ih, List.flatMap_cons, List.foldl_append]

/-- **C44.** `zero_grad()` drops the gradients of exactly the optimizer's parameters; with `set_to_none=False` the present gradients become zero, also shared ones. Parameters and velocities stay. -/
theorem C44_zero_grad (groups : List (Hyper × List ℕ)) (s : State κ) (hs : Separate (groups.flatMap Prod.snd) s) :
    (∀ p, (zeroGrad true groups s).gradient p = if p ∈ groups.flatMap Prod.snd then none else s.gradient p) ∧
    (∀ p ∈ groups.flatMap Prod.snd, (zeroGrad true groups s).view p = s.view p ∧ (zeroGrad false groups s).view p = s.view p ∧
      (zeroGrad false groups s).gradient p = (s.gradient p).map fun _ => fun _ => 0) := by
  unfold zeroGrad
  simp only [if_true, Bool.false_eq_true, if_false, foldl_flat]
  obtain ⟨ps, hps⟩ : ∃ ps, groups.flatMap Prod.snd = ps := ⟨_, rfl⟩
  rw [hps] at hs ⊢
  have h1 : ∀ (l : List ℕ) (t : State κ), (l.foldl (fun s p => { s with grad := fun q => if q = p then none else s.grad q }) t).val = t.val ∧
      (l.foldl (fun s p => { s with grad := fun q => if q = p then none else s.grad q }) t).buf = t.buf ∧
      ∀ p, (l.foldl (fun s p => { s with grad := fun q => if q = p then none else s.grad q }) t).grad p = if p ∈ l then none else t.grad p := by
    intro l
    induction l with
    | nil => intro t; exact ⟨rfl, rfl, fun p => by simp⟩
    | cons a l ih =>
      intro t
      rw [List.foldl_cons]
      obtain ⟨i1, i2, i3⟩ := ih { t with grad := fun q => if q = a then none else t.grad q }
      refine ⟨i1, i2, fun p => ?_⟩
      rw [i3]
      by_cases hp : p ∈ l
      · simp [hp]
      · by_cases hpa : p = a
        · simp [hpa]
        · simp [hp, hpa]
  have h2 : ∀ (l : List ℕ) (t : State κ), (∀ p ∈ l, p ∈ ps) → Separate ps t →
      let t' := l.foldl zeroInPlace t
      t'.grad = t.grad ∧ (∀ p ∈ ps, t'.view p = t.view p) ∧ (∀ g, t.val g = (fun _ => 0) → t'.val g = fun _ => 0) ∧ ∀ p ∈ l, ∀ g, t.grad p = some g → t'.val g = fun _ => 0 := by
    intro l
    induction l with
    | nil => intro t _ _; exact ⟨rfl, fun _ _ => rfl, fun _ h => h, fun _ h => absurd h (by simp)⟩
    | cons a l ih =>
      intro t hl ht
      rw [List.foldl_cons, zeroInPlace]
      cases ha : t.grad a with
      | none =>
        dsimp only
        obtain ⟨i1, i2, i3, i4⟩ := ih t (fun p hp => hl p (by simp [hp])) ht
        refine ⟨i1, i2, i3, fun p hp g hg => ?_⟩
        rcases List.mem_cons.1 hp with rfl | hp
        · rw [ha] at hg; cases hg
        · exact i4 p hp g hg
      | some g =>
        dsimp only
        obtain ⟨g1, g2, g3⟩ := ht.grad_lt a (hl a (by simp)) g ha
        have hz : (t.write g fun i => t.val g i - t.val g i).val g = fun _ => 0 := by rw [write_val_self]; funext i; ring
        obtain ⟨i1, i2, i3, i4⟩ := ih (t.write g fun i => t.val g i - t.val g i) (fun p hp => hl p (by simp [hp])) (sep_write ht _ _)
        refine ⟨i1, fun p hp => ?_, fun b hb => ?_, fun p hp b hb => ?_⟩
        · rw [i2 p hp]
          exact view_congr rfl (write_val_ne _ _ fun e => g2 (by rw [← e]; exact hp)) fun b hb => write_val_ne _ _ fun e => g3 p hp (by rw [← e]; exact hb)
        · refine i3 b ?_
          by_cases hbg : b = g
          · rw [hbg]; exact hz
          · rw [write_val_ne _ _ hbg]; exact hb
        · rcases List.mem_cons.1 hp with rfl | hp
          · rw [ha] at hb; cases hb
            exact i3 g hz
          · exact i4 p hp b hb
  obtain ⟨a1, a2, a3⟩ := h1 ps s
  obtain ⟨b1, b2, b3, b4⟩ := h2 ps s (fun _ h => h) hs
  refine ⟨fun p => ?_, fun p hp => ⟨?_, b2 p hp, ?_⟩⟩
  · unfold State.gradient
    rw [a3, a1]
    by_cases hp : p ∈ ps <;> simp [hp]
  · unfold State.view
    rw [a1, a2]
  · unfold State.gradient
    rw [b1]
    cases hg : s.grad p with
    | none => rfl
    | some g => simp only [Option.map_some]; rw [b4 p hp g hg]

/-! ## Module.update_parameters -/

/-- **C60**, with a threshold, on an encrypted model: every parameter moves by `lr` times its thresholded gradient, and no gradient changes. -/
theorem C60_update_partial (t lr : ℚ) (params : List ℕ) (s : State κ) (hs : Separate params s) (hb : ∀ p, s.buf p = none) :
    (∀ p ∈ params, (updateParameters true (some t) lr params s).val p =
      match s.gradient p with
      | none => s.val p
      | some g => fun i => s.val p i - lr * if |g i| < |t| then g i else 0) ∧
    ∀ p ∈ params, (updateParameters true (some t) lr params s).gradient p = s.gradient p := by
  have one : ∀ (s : State κ) (p : ℕ), Separate params s → (∀ p, s.buf p = none) → p ∈ params →
      let s' := updateParam true (squareThreshold (some t)) lr s p
      Separate params s' ∧ s'.buf = s.buf ∧ s'.grad = s.grad ∧ (∀ q ∈ params, q ≠ p → s'.val q = s.val q) ∧ (∀ q ∈ params, s'.gradient q = s.gradient q) ∧
        s'.val p = match s.gradient p with
          | none => s.val p
          | some g => fun i => s.val p i - lr * if |g i| < |t| then g i else 0 := by
    intro s p hs hb hp
    unfold updateParam
    cases hg : s.grad p with
    | none =>
      dsimp only
      refine ⟨hs, rfl, rfl, fun _ _ _ => rfl, fun _ _ => rfl, ?_⟩
      unfold State.gradient; rw [hg]; rfl
    | some g =>
      dsimp only
      rw [if_pos rfl]
      obtain ⟨s1, d, e, x, sep, tmp, nb, v⟩ := threshold_spec hs (some t) hp hg
      have hd : d = s.next := by have := congrArg Prod.snd e; exact this.symm
      rw [e]
      dsimp only
      have hpd : p ≠ d := fun h => tmp.notParam (by rw [← h]; exact hp)
      have hval : ∀ a, a ≠ p → a ≠ d → ((s1.write d fun i => s1.val d i * lr).write p fun i => (s1.write d fun i => s1.val d i * lr).val p i - (s1.write d fun i => s1.val d i * lr).val d i).val a = s1.val a :=
        fun a h1 h2 => by rw [write_val_ne _ _ h1, write_val_ne _ _ h2]
      refine ⟨sep_write (sep_write sep _ _) _ _, x.buf, x.grad, ?_, ?_, ?_⟩
      · intro q hq hqp
        rw [hval q hqp fun h => tmp.notParam (by rw [← h]; exact hq), x.val q (hs.params_lt q hq)]
      · intro q hq
        unfold State.gradient
        show (s1.grad q).map _ = _
        rw [x.grad]
        cases hq' : s.grad q with
        | none => rfl
        | some g' =>
          obtain ⟨a1, a2, -⟩ := hs.grad_lt q hq g' hq'
          simp only [Option.map_some]
          rw [hval g' (fun h => a2 (by rw [h]; exact hp)) (fun h => absurd a1 (by rw [h, hd]; exact lt_irrefl _)), x.val g' a1]
      · rw [write_val_self, write_val_self, write_val_ne _ _ hpd, x.val p (hs.params_lt p hp), v]
        unfold State.gradient
        rw [hg]
        simp only [Option.map_some]
        funext i
        ring
  have all : ∀ (l : List ℕ) (s : State κ), Separate params s → (∀ p, s.buf p = none) → (∀ p ∈ l, p ∈ params) → l.Nodup →
      (∀ q ∈ params, q ∉ l → (l.foldl (updateParam true (squareThreshold (some t)) lr) s).val q = s.val q) ∧
      (∀ p ∈ l, (l.foldl (updateParam true (squareThreshold (some t)) lr) s).val p =
        match s.gradient p with
        | none => s.val p
        | some g => fun i => s.val p i - lr * if |g i| < |t| then g i else 0) ∧
      ∀ q ∈ params, (l.foldl (updateParam true (squareThreshold (some t)) lr) s).gradient q = s.gradient q := by
    intro l
    induction l with
    | nil => intro s _ _ _ _; exact ⟨fun _ _ _ => rfl, fun _ h => absurd h (by simp), fun _ _ => rfl⟩
    | cons a l ih =>
      intro s hs hb hl hn
      rw [List.nodup_cons] at hn
      obtain ⟨o1, o2, o3, o4, o5, o6⟩ := one s a hs hb (hl a (by simp))
      obtain ⟨i1, i2, i3⟩ := ih _ o1 (fun p => by rw [o2]; exact hb p) (fun p hp => hl p (by simp [hp])) hn.2
      rw [List.foldl_cons]
      refine ⟨fun q hq hq' => ?_, fun p hp => ?_, fun q hq => (i3 q hq).trans (o5 q hq)⟩
      · rw [List.mem_cons, not_or] at hq'
        rw [i1 q hq hq'.2, o4 q hq hq'.1]
      · rcases List.mem_cons.1 hp with rfl | hp
        · rw [i1 p (hl p (by simp)) hn.1, o6]
        · have hpp := hl p (by simp [hp])
          rw [i2 p hp, o5 p hpp, o4 p hpp fun h => hn.1 (by rw [← h]; exact hp)]
  have := all params s hs hb (fun _ h => h) hs.nodup
  exact ⟨this.2.1, this.2.2⟩

/-- **C60 fails** without a threshold: the gradient is scaled in place, so that calling `update_parameters` twice with the rate 1/2 moves the parameter by 3/4 of the gradient instead of 1. -/
theorem C60_update_twice_wrong : ∃ s : State Unit, Separate [0] s ∧ s.val 0 () = 10 ∧ s.gradient 0 = some (fun _ => 4) ∧
    (updateParameters true none (1 / 2) [0] s).gradient 0 = some (fun _ => 2) ∧
    (updateParameters true none (1 / 2) [0] (updateParameters true none (1 / 2) [0] s)).val 0 () = 7 := by
  refine ⟨⟨fun a _ => if a = 0 then 10 else 4, 2, fun p => if p = 0 then some 1 else none, fun _ => none⟩, ?_, by norm_num, by simp [State.gradient], ?_, ?_⟩
  · refine ⟨by simp, by simp, ?_, by simp, by simp⟩
    intro p hp g hg
    simp only [List.mem_singleton] at hp
    subst hp
    simp only [if_true, Option.some.injEq] at hg
    subst hg
    simp
  · simp only [updateParameters, squareThreshold, State.gradient, updateParam, threshold, State.write, List.foldl_cons, List.foldl_nil, Option.map_none, if_true, Option.map_some, Option.some.injEq]
    funext i
    norm_num
  · simp only [updateParameters, squareThreshold, updateParam, threshold, State.write, List.foldl_cons, List.foldl_nil, Option.map_none, if_true]
    norm_num

/-- **C60 fails** without a threshold when two parameters share a gradient object: the second one is moved by the square of the rate. -/
theorem C60_update_shared_wrong : ∃ s : State Unit, Separate [0, 1] s ∧ s.val 0 () = 10 ∧ s.val 1 () = 10 ∧ s.gradient 0 = some (fun _ => 4) ∧ s.gradient 1 = some (fun _ => 4) ∧
    (updateParameters true none (1 / 2) [0, 1] s).val 0 () = 8 ∧ (updateParameters true none (1 / 2) [0, 1] s).val 1 () = 9 := by
  refine ⟨⟨fun a _ => if a ≤ 1 then 10 else 4, 3, fun p => if p ≤ 1 then some 2 else none, fun _ => none⟩, ?_, by norm_num, by norm_num, by simp [State.gradient], by simp [State.gradient], ?_, ?_⟩
  · refine ⟨by simp, by simp, ?_, by simp, by simp⟩
    intro p hp g hg
    have h1 : p ≤ 1 := by simp at hp; omega
    simp only [h1, if_true, Option.some.injEq] at hg
    subst hg
    simp
  all_goals
    simp only [updateParameters, squareThreshold, updateParam, threshold, State.write, List.foldl_cons, List.foldl_nil, Option.map_none, if_true]
    norm_num

/-! ## The threshold on shares -/

open CrypTen in
/-- **C44**, threshold as run: every entry of the result is exactly the gradient's entry or exactly zero, and the decision is right up to the rounding `n / 2^k` of the square, as long as the square
does not overflow. -/
theorem C44_threshold_shares_partial {n : ℕ} {ι : Type} [NeZero n] (hn : n < 2 ^ 60) (k : ℕ) (hk : k ≤ 62) (thr2 : ℚ) (x : AST n ι) (hx : x.scale = 2 ^ k)
    (hfit : ∀ i, Fits (x.scale * x.scale * (x.value i * x.value i)))
    (hfit2 : ∀ i (q : ℚ), |q - x.value i * x.value i| < n / 2 ^ k → Fits (2 ^ k * (q - truncQ (2 ^ k * thr2) / 2 ^ k))) :
    Sat (thresholdShares (2 ^ k) thr2 x) fun z => z.scale = 2 ^ k ∧ ∀ i,
      (z.value i = x.value i ∨ z.value i = 0) ∧
      (x.value i * x.value i ≤ truncQ (2 ^ k * thr2) / 2 ^ k - n / 2 ^ k → z.value i = x.value i) ∧
      (truncQ (2 ^ k * thr2) / 2 ^ k + n / 2 ^ k ≤ x.value i * x.value i → z.value i = 0) := by
  unfold thresholdShares
  have hD : 0 < 2 ^ k := Nat.two_pow_pos k
  refine Sat.bind (C56_square hn x k hk hx hfit) fun sq hsq => ?_
  have hsc : sq.scale = 2 ^ k := hsq.1.trans hx
  have hva : ∀ i, (Operand.pub (n := n) fun _ : ι => thr2).valueAt sq.scale i = truncQ (2 ^ k * thr2) / 2 ^ k := by
    intro i
    show (truncQ (sq.scale * thr2) : ℚ) / sq.scale = _
    rw [hsc]; push_cast; rfl
  have hsq2 : ∀ i, |sq.value i - x.value i * x.value i| < n / 2 ^ k := by
    intro i
    have := hsq.2 i
    rw [hx] at this; push_cast at this; exact this
  refine Sat.bind (sat_lt_bit hD sq (Or.inr hsc) (.pub fun _ => thr2) trivial fun i => ?_).sat fun m hm => ?_
  · rw [hva]
    show Fits ((sq.scale : ℚ) * _)
    rw [hsc]; push_cast
    exact hfit2 i _ (hsq2 i)
  have hm' : ∀ i, m.value i = if sq.value i < truncQ (2 ^ k * thr2) / 2 ^ k then 1 else 0 := by
    intro i
    rw [hm.value, hva]
    simp
  have hxs : 0 < x.scale := by rw [hx]; exact hD
  refine ((C56_mul_unscaled (elementwise ι) x m hxs (by rw [hm.1]; norm_num) (Or.inr hm.1) fun i => ?_).mono fun z hz => ⟨by rw [hz.1, hm.1, hx, mul_one], fun i => ?_⟩).sat
  · rw [bilinearQ_elementwise, hm', hm.1, Nat.cast_one, mul_one]
    have := value_int_range x hxs i
    split
    · rw [mul_one]; exact this
    · rw [mul_zero, mul_zero]; constructor <;> norm_num
  · have hv : z.value i = if sq.value i < truncQ (2 ^ k * thr2) / 2 ^ k then x.value i else 0 := by
      rw [hz.2, bilinearQ_elementwise, hm']
      split <;> ring
    have h2 := abs_lt.1 (hsq2 i)
    refine ⟨?_, ?_, ?_⟩
    · rw [hv]; split
      · exact .inl rfl
      · exact .inr rfl
    · intro h
      rw [hv, if_pos (by linarith)]
    · intro h
      rw [hv, if_neg (by linarith)]

open CrypTen in
/-- **C44 fails** for the threshold when the square overflows: a gradient of 65536 is far above the threshold 1, and is kept (one party, precision 16). -/
theorem C44_threshold_overflow_wrong : ∃ (T : Tuples 1) (x : AST 1 Unit), T.Valid ∧ x.scale = 2 ^ 16 ∧ x.value () = 65536 ∧ (thresholdShares (2 ^ 16) 1 x T 0).val.value () = 65536 := by
  obtain ⟨T, hT, -⟩ := tuples_exist 1
  have hval : (⟨fun _ _ => 4294967296, 2 ^ 16⟩ : AST 1 Unit).value () = 65536 := by
    have e1 : reveal (fun _ _ => 4294967296 : Shares 1 Unit) () = 4294967296 := by rw [reveal_apply]; decide
    have t : (4294967296 : I64).toInt = 4294967296 := by decide
    rw [AST.value, e1, t]; norm_num
  obtain ⟨x, hx⟩ : ∃ x : AST 1 Unit, x = ⟨fun _ _ => 4294967296, 2 ^ 16⟩ := ⟨_, rfl⟩
  rw [← hx] at hval
  have hsc : x.scale = 2 ^ 16 := by rw [hx]
  refine ⟨T, x, hT, hsc, hval, ?_⟩
  have hsq : SatX x.square fun z => z.scale = 2 ^ 16 ∧ z.value () = 0 := by
    intro T hT c
    refine ⟨good_one_square x T c, hsc, ?_⟩
    have h1 := C10_beaver_square _ (hT.square c Unit) x.share ()
    have h2 : reveal x.share () * reveal x.share () = 0 := by rw [hx, reveal_apply]; decide
    rw [h2, reveal_apply, Fin.sum_univ_one] at h1
    have h3 : reveal (x.square T c).val.share () = 0 := by
      show reveal (divInt (T.wrap (c + 1) Unit) (beaverSquare (T.square c Unit) x.share) fun _ => (x.scale : ℤ)) () = 0
      rw [reveal_apply, Fin.sum_univ_one, divInt, if_neg (by decide), truncLocal, h1, hsc]
      decide
    show ((reveal (x.square T c).val.share ()).toInt : ℚ) / (x.square T c).val.scale = 0
    rw [h3]; simp
  have key : SatX (thresholdShares (2 ^ 16) 1 x) fun z => z.value () = 65536 := by
    unfold thresholdShares
    have ht : truncQ (((2 ^ 16 : ℕ) : ℚ) * 1) = 65536 := by rw [truncQ]; norm_num
    refine SatX.bind hsq fun sq hs => ?_
    have hva : ∀ i, (Operand.pub (n := 1) fun _ : Unit => (1 : ℚ)).valueAt sq.scale i = 1 := by
      intro i
      show (truncQ (sq.scale * 1) : ℚ) / sq.scale = _
      rw [hs.1, ht]; norm_num
    refine SatX.bind (sat_lt_bit (D := 2 ^ 16) (by norm_num) sq (Or.inr hs.1) (.pub fun _ => 1) trivial fun i => ?_) fun m hm => ?_
    · rw [hva, hs.2]
      show Fits ((sq.scale : ℚ) * _)
      rw [hs.1]; constructor <;> norm_num
    have hm' : m.value () = 1 := by rw [hm.value, hva, hs.2]; simp
    refine (C56_mul_unscaled (elementwise Unit) x m (by rw [hsc]; norm_num) (by rw [hm.1]; norm_num) (Or.inr hm.1) fun i => ?_).mono fun z hz => ?_
    · rw [bilinearQ_elementwise, hm', hm.1, Nat.cast_one, mul_one, mul_one]
      exact value_int_range x (by rw [hsc]; norm_num) i
    · rw [hz.2, bilinearQ_elementwise, hm', hval, mul_one]
  exact (key T hT 0).2

open CrypTen in
/-- A gradient of 2.5 and a threshold meet the conditions of `C44_threshold_shares_partial`. -/
example (x : AST 2 Unit) (hx : x.scale = 2 ^ 16) (hv : x.value () = 5 / 2) :
    (∀ i, Fits (x.scale * x.scale * (x.value i * x.value i))) ∧
      ∀ i (q : ℚ), |q - x.value i * x.value i| < (2 : ℕ) / 2 ^ 16 → Fits (2 ^ 16 * (q - truncQ (2 ^ 16 * 4) / 2 ^ 16)) := by
  refine ⟨fun i => ?_, fun i q hq => ?_⟩
  · rw [hx, hv]; constructor <;> norm_num
  · have ht : truncQ ((2 : ℚ) ^ 16 * 4) = 262144 := by rw [truncQ]; norm_num
    rw [hv] at hq
    have := abs_lt.1 hq
    rw [ht]
    constructor <;> push_cast at * <;> linarith

end CrypTen.Sgd

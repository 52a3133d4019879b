import Verif.Spec.GradBuffers
import Mathlib.Data.List.Basic
import Mathlib.Data.List.Induction
import Mathlib.Tactic.Abel
import Mathlib.Algebra.Group.Int.Defs

/-!
# C69: accumulation of gradients and the tensors it writes to
-/

namespace CrypTen.GradBuffers
variable {G : Type} [AddCommGroup G]

/-- What holds after a history in which no tensor of the caller was handed over twice. -/
structure Inv (inputs : ℕ → G) (l : List (Event G)) (s : State G) : Prop where
  grads : ∀ w, s.gradient w = expected inputs w l
  separate : ∀ v w r, s.grad v = some r → s.grad w = some r → v = w
  used : ∀ w b, s.grad w = some (.callers b) → Adopted inputs l b
  made : ∀ w k, s.grad w = some (.computed k) → k < s.next
  kept : ∀ b, ¬ Adopted inputs l b → s.read (.callers b) = inputs b

lemma Adopted.snoc {inputs : ℕ → G} {l : List (Event G)} {b : ℕ} (e : Event G) (h : Adopted inputs l b) : Adopted inputs (l ++ [e]) b := by
  obtain ⟨l₁, w, l₂, rfl, hw⟩ := h
  exact ⟨l₁, w, l₂ ++ [e], by simp, hw⟩

lemma adopted_last {inputs : ℕ → G} {l : List (Event G)} {w b : ℕ} (h : expected inputs w l = none) : Adopted inputs (l ++ [.arrive w (.callers b)]) b :=
  ⟨l, w, [], rfl, h⟩

/-- The tensor that arrives is not the gradient of any leaf, and has the value that the caller gave it. -/
lemma receive_inv {inputs : ℕ → G} {l : List (Event G)} {s : State G} (h : Inv inputs l s) (w : ℕ) (m : Message G)
    (hn : ∀ b, m = .callers b → ¬ Adopted inputs l b) :
    (s.receive m).1.grad = s.grad ∧ (∀ v, s.grad v ≠ some (s.receive m).2) ∧ (s.receive m).1.read (s.receive m).2 = m.value inputs ∧
    (∀ r, r ≠ (s.receive m).2 → (s.receive m).1.read r = s.read r) ∧ s.next ≤ (s.receive m).1.next ∧
    (∀ k, (s.receive m).2 = .computed k → k < (s.receive m).1.next) ∧ (∀ b, (s.receive m).2 = .callers b → m = .callers b) := by
  cases m with
  | computed g =>
    refine ⟨rfl, fun v hv => ?_, ?_, fun r hr => ?_, by simp [State.receive], fun k hk => ?_, fun b hb => by simp [State.receive] at hb⟩
    · have := h.made v _ hv
      omega
    · simp [State.receive, Message.value]
    · simp only [State.receive] at hr ⊢
      exact Function.update_of_ne hr _ _
    · simp only [State.receive, Ref.computed.injEq] at hk ⊢
      omega
  | callers b =>
    refine ⟨rfl, fun v hv => hn b rfl (h.used v b hv), h.kept b (hn b rfl), fun r _ => rfl, le_refl _, fun k hk => by simp [State.receive] at hk, fun c hc => ?_⟩
    simp only [State.receive, Ref.callers.injEq] at hc
    rw [hc]

lemma expected_snoc (inputs : ℕ → G) (w : ℕ) (l : List (Event G)) (e : Event G) :
    expected inputs w (l ++ [e]) = e.effect inputs w (expected inputs w l) := by
  simp [expected]

lemma step_inv {inputs : ℕ → G} {l : List (Event G)} {s : State G} (h : Inv inputs l s) (e : Event G)
    (hn : ∀ w b, e = .arrive w (.callers b) → ¬ Adopted inputs l b) : Inv inputs (l ++ [e]) (s.step e) := by
  cases e with
  | reset w =>
    refine ⟨fun v => ?_, fun v u r hv hu => ?_, fun v b hv => ?_, fun v k hv => ?_, fun b hb => ?_⟩
    · rw [expected_snoc, ← h.grads v]
      by_cases hvw : v = w
      · subst hvw; simp [State.step, State.gradient, Event.effect]
      · simp [State.step, State.gradient, Event.effect, Function.update_of_ne hvw, Ne.symm hvw]
    · simp only [State.step, Function.update_apply] at hv hu
      split_ifs at hv hu
      exact h.separate v u r hv hu
    · simp only [State.step, Function.update_apply] at hv
      split_ifs at hv
      exact (h.used v b hv).snoc _
    · simp only [State.step, Function.update_apply] at hv
      split_ifs at hv
      exact h.made v k hv
    · exact h.kept b fun hb' => hb (hb'.snoc _)
  | clear w =>
    cases hw : s.grad w with
    | none =>
      have hs : s.step (.clear w) = s := by simp [State.step, hw]
      rw [hs]
      refine ⟨fun v => ?_, h.separate, fun v b hv => (h.used v b hv).snoc _, h.made, fun b hb => h.kept b fun hb' => hb (hb'.snoc _)⟩
      rw [expected_snoc, ← h.grads v]
      by_cases hvw : w = v
      · subst hvw; simp [State.gradient, Event.effect, hw]
      · simp [Event.effect, hvw]
    | some a =>
      have hs : s.step (.clear w) = { s with read := Function.update s.read a (s.read a - s.read a) } := by simp [State.step, hw]
      rw [hs]
      refine ⟨fun v => ?_, h.separate, fun v b hv => (h.used v b hv).snoc _, h.made, fun b hb => ?_⟩
      · rw [expected_snoc, ← h.grads v]
        by_cases hvw : w = v
        · subst hvw; simp [State.gradient, Event.effect, hw]
        · cases hv : s.grad v with
          | none => simp [State.gradient, Event.effect, hv, hvw]
          | some r =>
            have : r ≠ a := fun hra => hvw (h.separate w v a hw (hra ▸ hv))
            simp [State.gradient, Event.effect, hv, hvw, Function.update_of_ne this]
      · have hb' : ¬ Adopted inputs l b := fun hb' => hb (hb'.snoc _)
        have : (Ref.callers b) ≠ a := fun hba => hb' (h.used w b (hba ▸ hw))
        simp only [Function.update_of_ne this]
        exact h.kept b hb'
  | arrive w m =>
    have hm : ∀ b, m = .callers b → ¬ Adopted inputs l b := fun b hb => hn w b (by rw [hb])
    obtain ⟨h1, h2, h3, h4, h5, h6, h7⟩ := receive_inv h w m hm
    simp only [State.step]
    generalize (s.receive m).1 = t at *
    generalize (s.receive m).2 = r at *
    have hread : ∀ v a, s.grad v = some a → t.read a = s.read a := fun v a hv => h4 a fun har => h2 v (har ▸ hv)
    cases hw : s.grad w with
    | none =>
      have hs : t.accumulate w r = { t with grad := Function.update t.grad w (some r) } := by simp [State.accumulate, h1, hw]
      have hexp : expected inputs w l = none := by rw [← h.grads w, State.gradient, hw]; rfl
      rw [hs, h1]
      refine ⟨fun v => ?_, fun v u q hv hu => ?_, fun v b hv => ?_, fun v k hv => ?_, fun b hb => ?_⟩
      · rw [expected_snoc, ← h.grads v]
        by_cases hvw : v = w
        · subst hvw; simp [State.gradient, Event.effect, hw, h3]
        · cases hv : s.grad v with
          | none => simp [State.gradient, Event.effect, hv, Function.update_of_ne hvw, Ne.symm hvw]
          | some a => simp [State.gradient, Event.effect, hv, Function.update_of_ne hvw, Ne.symm hvw, hread v a hv]
      · simp only [Function.update_apply] at hv hu
        split_ifs at hv hu with c1 c2 c2
        · rw [c1, c2]
        · exact absurd (hv ▸ hu) (h2 u)
        · exact absurd (hu ▸ hv) (h2 v)
        · exact h.separate v u q hv hu
      · simp only [Function.update_apply] at hv
        split_ifs at hv with c1
        · obtain rfl := h7 b (Option.some.inj hv)
          exact adopted_last hexp
        · exact (h.used v b hv).snoc _
      · simp only [Function.update_apply] at hv
        split_ifs at hv with c1
        · exact h6 k (Option.some.inj hv)
        · exact lt_of_lt_of_le (h.made v k hv) h5
      · have hb1 : ¬ Adopted inputs l b := fun hb' => hb (hb'.snoc _)
        by_cases hb2 : Ref.callers b = r
        · obtain rfl := h7 b hb2.symm
          rw [hb2]; exact h3
        · exact (h4 _ hb2).trans (h.kept b hb1)
    | some a =>
      have hs : t.accumulate w r = { t with read := Function.update t.read a (t.read a + t.read r) } := by simp [State.accumulate, h1, hw]
      rw [hs]
      refine ⟨fun v => ?_, fun v u q hv hu => h.separate v u q (h1 ▸ hv) (h1 ▸ hu), fun v b hv => (h.used v b (h1 ▸ hv)).snoc _,
        fun v k hv => lt_of_lt_of_le (h.made v k (h1 ▸ hv)) h5, fun b hb => ?_⟩
      · rw [expected_snoc, ← h.grads v]
        by_cases hvw : v = w
        · subst hvw; simp [State.gradient, Event.effect, hw, h1, h3, hread v a hw]
        · cases hv : s.grad v with
          | none => simp [State.gradient, Event.effect, hv, h1, Ne.symm hvw]
          | some q =>
            have : q ≠ a := fun hqa => hvw (h.separate v w a (hqa ▸ hv) hw)
            simp [State.gradient, Event.effect, hv, h1, Ne.symm hvw, Function.update_of_ne this, hread v q hv]
      · have hb1 : ¬ Adopted inputs l b := fun hb' => hb (hb'.snoc _)
        have : (Ref.callers b) ≠ a := fun hba => hb1 (h.used w b (hba ▸ hw))
        simp only [Function.update_of_ne this]
        by_cases hb2 : Ref.callers b = r
        · obtain rfl := h7 b hb2.symm
          rw [hb2]; exact h3
        · exact (h4 _ hb2).trans (h.kept b hb1)

lemma run_inv (inputs : ℕ → G) (l : List (Event G)) (hn : Careful inputs l) : Inv inputs l ((State.init inputs).run l) := by
  induction l using List.reverseRecOn with
  | nil => exact ⟨fun w => rfl, fun v w r h => (nomatch h), fun w b h => (nomatch h), fun w k h => (nomatch h), fun b _ => rfl⟩
  | append_singleton l e ih =>
    have hrun : (State.init inputs).run (l ++ [e]) = ((State.init inputs).run l).step e := by simp [State.run]
    rw [hrun]
    refine step_inv (ih fun l₁ w b l₂ hl => hn l₁ w b (l₂ ++ [e]) (by simp [hl])) e fun w b hb => ?_
    exact hn l w b [] (by rw [hb])

/-- **C69 (partial).** After every history of backward passes and `zero_grad` calls, the gradient of every leaf is the sum of the gradients that have arrived at it since it was last dropped or
cleared, and the tensors that the caller used as gradient inputs are as they were unless they became gradients of leaves. Proved for callers who do not hand a tensor over again after
it has become the gradient of a leaf. Missing: the other callers, and the values of tensors that became gradients (`C69_triple_wrong`, `C69_shared_wrong`, `C69_clear_wrong`, `C69_caller_wrong`). -/
theorem C69_accumulate_partial (inputs : ℕ → G) (l : List (Event G)) (hn : Careful inputs l) :
    (∀ w, ((State.init inputs).run l).gradient w = expected inputs w l) ∧
    ∀ b, ¬ Adopted inputs l b → ((State.init inputs).run l).read (.callers b) = inputs b :=
  ⟨(run_inv inputs l hn).grads, (run_inv inputs l hn).kept⟩

/-- The history hands over the caller's tensor `b`. -/
def handsOver (b : ℕ) : Event G → Bool
  | .arrive _ (.callers c) => c == b
  | _ => false

/-- **C69.** In particular the sums are right if every backward pass is started with a tensor of its own. -/
theorem C69_new_inputs (inputs : ℕ → G) (l : List (Event G)) (hn : ∀ b, l.countP (handsOver b) ≤ 1) :
    ∀ w, ((State.init inputs).run l).gradient w = expected inputs w l := by
  refine (C69_accumulate_partial inputs l ?_).1
  rintro l₁ w b l₂ rfl ⟨l₃, v, l₄, rfl, -⟩
  have := hn b
  simp [List.countP_append, handsOver] at this
  omega

/-- **C69.** The sums are also right, and no tensor of the caller is written to, if gradients arrive at leaves without a gradient only through operations that compute new tensors. -/
theorem C69_computed_first (inputs : ℕ → G) (l : List (Event G)) (hf : ∀ b, ¬ Adopted inputs l b) :
    (∀ w, ((State.init inputs).run l).gradient w = expected inputs w l) ∧ ∀ b, ((State.init inputs).run l).read (.callers b) = inputs b := by
  have h := C69_accumulate_partial inputs l (by
    rintro l₁ w b l₂ rfl ⟨l₃, v, l₄, rfl, hv⟩
    exact hf b ⟨l₃, v, l₄ ++ .arrive w (.callers b) :: l₂, by simp, hv⟩)
  exact ⟨h.1, fun b => h.2 b (hf b)⟩

/-- A history with two leaves: `x` is reached through a view, `y` through a product, both twice, with a `zero_grad()` of `x` and a `zero_grad(set_to_none=False)` of `y`. -/
def sample : List (Event ℤ) :=
  [.arrive 0 (.callers 0), .arrive 1 (.computed 5), .arrive 0 (.callers 1), .reset 0, .arrive 0 (.callers 2), .clear 1, .arrive 1 (.callers 1), .arrive 0 (.computed 3)]

lemma split_snoc {α : Type} {l l₁ l₂ : List α} {e x : α} (h : l ++ [e] = l₁ ++ x :: l₂) :
    (l = l₁ ∧ e = x ∧ l₂ = []) ∨ ∃ l₃, l₂ = l₃ ++ [e] ∧ l = l₁ ++ x :: l₃ := by
  rcases List.eq_nil_or_concat l₂ with rfl | ⟨l₃, y, rfl⟩
  · obtain ⟨h1, h2⟩ := List.append_inj' h rfl
    exact .inl ⟨h1, by simpa using h2, rfl⟩
  · rw [List.concat_eq_append, ← List.cons_append, ← List.append_assoc] at h
    obtain ⟨h1, h2⟩ := List.append_inj' h rfl
    simp only [List.cons.injEq, and_true] at h2
    exact .inr ⟨l₃, by rw [h2, List.concat_eq_append], h1⟩

lemma adopted_snoc {inputs : ℕ → G} {l : List (Event G)} {e : Event G} {b : ℕ} (h : Adopted inputs (l ++ [e]) b) :
    Adopted inputs l b ∨ ∃ w, e = .arrive w (.callers b) ∧ expected inputs w l = none := by
  obtain ⟨l₁, w, l₂, hl, hw⟩ := h
  rcases split_snoc hl with ⟨rfl, rfl, -⟩ | ⟨l₃, -, rfl⟩
  · exact .inr ⟨w, rfl, hw⟩
  · exact .inl ⟨l₁, w, l₃, rfl, hw⟩

lemma not_adopted_snoc {inputs : ℕ → G} {l : List (Event G)} {e : Event G} {b : ℕ} (h : ¬ Adopted inputs l b)
    (he : ∀ w, e = .arrive w (.callers b) → expected inputs w l ≠ none) : ¬ Adopted inputs (l ++ [e]) b := by
  intro ha
  rcases adopted_snoc ha with ha | ⟨w, hw, hx⟩
  · exact h ha
  · exact he w hw hx

lemma Careful.snoc {inputs : ℕ → G} {l : List (Event G)} {e : Event G} (h : Careful inputs l)
    (he : ∀ w b, e = .arrive w (.callers b) → ¬ Adopted inputs l b) : Careful inputs (l ++ [e]) := by
  intro l₁ w b l₂ hl
  rcases split_snoc hl with ⟨rfl, rfl, -⟩ | ⟨l₃, -, rfl⟩
  · exact he w b rfl
  · exact h l₁ w b l₃ rfl

example : ∀ inputs : ℕ → ℤ, Careful inputs sample ∧ expected inputs 0 sample = some (inputs 2 + 3) ∧ expected inputs 1 sample = some (inputs 1) := by
  intro inputs
  refine ⟨?_, by simp [sample, expected, Event.effect, Message.value], by simp [sample, expected, Event.effect, Message.value]⟩
  have h0 : ∀ b, ¬ Adopted inputs ([] : List (Event ℤ)) b := by rintro b ⟨l₁, w, l₂, hl, -⟩; simp at hl
  have c0 : Careful inputs ([] : List (Event ℤ)) := by rintro l₁ w b l₂ hl; simp at hl
  have e : sample = (((((((([] ++ [.arrive 0 (.callers 0)]) ++ [.arrive 1 (.computed 5)]) ++ [.arrive 0 (.callers 1)]) ++ [.reset 0]) ++ [.arrive 0 (.callers 2)]) ++ [.clear 1]) ++
    [.arrive 1 (.callers 1)]) ++ [.arrive 0 (.computed 3)]) := rfl
  rw [e]
  refine Careful.snoc (Careful.snoc (Careful.snoc (Careful.snoc (Careful.snoc (Careful.snoc (Careful.snoc (Careful.snoc c0 ?_) ?_) ?_) ?_) ?_) ?_) ?_) ?_ <;>
    intro w b hb ha <;> simp at hb
  · exact h0 b ha
  all_goals
    obtain ⟨rfl, rfl⟩ := hb
    revert ha
    repeat' refine not_adopted_snoc ?_ ?_
    all_goals first
      | exact h0 _
      | (intro w hw; simp at hw; done)
      | (intro w hw; obtain rfl := (Event.arrive.injEq .. ▸ hw : _ ∧ _).1; simp [expected, Event.effect]; done)

/-- Without the condition the sums are wrong: with one tensor `g`, `x.backward(g)` three times on a leaf gives `4 g` instead of `3 g`. -/
theorem C69_triple_wrong (inputs : ℕ → G) (w : ℕ) :
    ((State.init inputs).run (List.replicate 3 (.arrive w (.callers 0)))).gradient w = some (inputs 0 + inputs 0 + (inputs 0 + inputs 0)) ∧
    expected inputs w (List.replicate 3 (.arrive w (.callers 0))) = some (inputs 0 + inputs 0 + inputs 0) := by
  simp [State.run, State.step, State.receive, State.accumulate, State.gradient, expected, Event.effect, Message.value, State.init, List.replicate]

/-- In general `n + 1` such calls give `2 ^ n` times `g`. -/
theorem C69_power_wrong (inputs : ℕ → G) (w n : ℕ) :
    ((State.init inputs).run (List.replicate (n + 1) (.arrive w (.callers 0)))).gradient w = some (2 ^ n • inputs 0) := by
  suffices h : ((State.init inputs).run (List.replicate (n + 1) (.arrive w (.callers 0)))).grad w = some (.callers 0) ∧
      ((State.init inputs).run (List.replicate (n + 1) (.arrive w (.callers 0)))).read (.callers 0) = 2 ^ n • inputs 0 by
    rw [State.gradient, h.1, Option.map_some, h.2]
  induction n with
  | zero => simp [State.run, State.step, State.receive, State.accumulate, State.init, one_nsmul]
  | succ n ih =>
    have hrun : (State.init inputs).run (List.replicate (n + 1 + 1) (.arrive w (.callers 0))) =
        ((State.init inputs).run (List.replicate (n + 1) (.arrive w (.callers 0)))).step (.arrive w (.callers 0)) := by
      rw [List.replicate_succ' (n := n + 1)]
      simp [State.run]
    rw [hrun]
    generalize (State.init inputs).run (List.replicate (n + 1) (.arrive w (.callers 0))) = s at *
    simp only [State.step, State.receive, State.accumulate, ih.1]
    refine ⟨trivial, ?_⟩
    rw [Function.update_self, ih.2, pow_succ, mul_nsmul, two_nsmul]

/-- Leaves that were given the same tensor share their gradients from then on: a later gradient of `v` changes that of `w`. -/
theorem C69_shared_wrong (inputs : ℕ → G) (v w : ℕ) (h : v ≠ w) (g : G) :
    ((State.init inputs).run [.arrive v (.callers 0), .arrive w (.callers 0), .arrive v (.computed g)]).gradient w = some (inputs 0 + g) ∧
    expected inputs w [.arrive v (.callers 0), .arrive w (.callers 0), .arrive v (.computed g)] = some (inputs 0) := by
  simp [State.run, State.step, State.receive, State.accumulate, State.gradient, expected, Event.effect, Message.value, State.init, h, h.symm]

/-- `zero_grad(set_to_none=False)` of an optimizer with parameter `v` then also clears the gradient of `w`, which is not one of its parameters. -/
theorem C69_clear_wrong (inputs : ℕ → G) (v w : ℕ) (h : v ≠ w) :
    ((State.init inputs).run [.arrive v (.callers 0), .arrive w (.callers 0), .clear v]).gradient w = some 0 ∧
    expected inputs w [.arrive v (.callers 0), .arrive w (.callers 0), .clear v] = some (inputs 0) := by
  simp [State.run, State.step, State.receive, State.accumulate, State.gradient, expected, Event.effect, Message.value, State.init, h, h.symm]

/-- The caller's tensor itself is changed by a later backward pass. -/
theorem C69_caller_wrong (inputs : ℕ → G) (w : ℕ) (g : G) :
    ((State.init inputs).run [.arrive w (.callers 0), .arrive w (.computed g)]).read (.callers 0) = inputs 0 + g := by
  simp [State.run, State.step, State.receive, State.accumulate, State.init]

end CrypTen.GradBuffers

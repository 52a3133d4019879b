import Verif.Props.Autograd

/-!
# C42 for graphs with detached leaves

`detach()` makes a copy that does not require a gradient and still has the tensor as its child. If that tensor is a leaf, this makes no difference.
-/

namespace CrypTen
variable {G : Type} [AddCommGroup G]

namespace Tape
variable {requiresGrad : ℕ → Bool}

/-- the graph without the children of tensors that do not require a gradient -/
def cut (requiresGrad : ℕ → Bool) (E : ℕ → List (ℕ × Option (G →+ G))) (v : ℕ) : List (ℕ × Option (G →+ G)) := if requiresGrad v then E v else []

/-- same gradients; counters agree where they matter -/
private structure Sim (requiresGrad : ℕ → Bool) (E : ℕ → List (ℕ × Option (G →+ G))) (s s' : Tape G) : Prop where
  grad : s.grad = s'.grad
  received : s.received = s'.received
  log : s.log = s'.log
  children : ∀ v, requiresGrad v = true → s.children v = s'.children v
  none : ∀ v, requiresGrad v = false → s'.children v = []
  sub : ∀ v, s.children v = [] ∨ s.children v = E v
  expected : ∀ v, requiresGrad v = true → E v ≠ [] → s.expected v = s'.expected v

private theorem identify_leaf {E : ℕ → List (ℕ × Option (G →+ G))} {s s' : Tape G} (h : Sim requiresGrad E s s') (f v : ℕ) (hv : E v = []) :
    Sim requiresGrad E (identify f s v) s' := by
  have hc : s.children v = [] := by rcases h.sub v with e | e <;> simp [e, hv]
  cases f with
  | zero => exact h
  | succ f =>
    unfold identify
    simp only [hc, List.foldl_nil, ite_self]
    refine ⟨h.grad, h.received, h.log, h.children, h.none, h.sub, fun x hx hEx => ?_⟩
    show Function.update s.expected v (s.expected v + 1) x = _
    rw [Function.update_of_ne (fun e : x = v => hEx (by rw [e]; exact hv))]
    exact h.expected x hx hEx

private theorem identify_leaves {E : ℕ → List (ℕ × Option (G →+ G))} {s' : Tape G} (f : ℕ) (l : List (ℕ × Option (G →+ G))) (hl : ∀ c ∈ l, E c.1 = []) :
    ∀ s : Tape G, Sim requiresGrad E s s' → Sim requiresGrad E (l.foldl (fun s c => identify f s c.1) s) s' := by
  induction l with
  | nil => exact fun s h => h
  | cons c l ih => exact fun s h => ih (fun x hx => hl x (by simp [hx])) _ (identify_leaf h f c.1 (hl c (by simp)))

private theorem fold_sim {E : ℕ → List (ℕ × Option (G →+ G))} {α : Type} {F : Tape G → α → Tape G}
    (hF : ∀ s s' x, Sim requiresGrad E s s' → Sim requiresGrad E (F s x) (F s' x)) (l : List α) :
    ∀ s s' : Tape G, Sim requiresGrad E s s' → Sim requiresGrad E (l.foldl F s) (l.foldl F s') := by
  induction l with
  | nil => exact fun s s' h => h
  | cons c l ih => exact fun s s' h => ih _ _ (hF s s' c h)

private theorem identify_sim {E : ℕ → List (ℕ × Option (G →+ G))} (hE : ∀ v, requiresGrad v = false → ∀ c ∈ E v, E c.1 = []) (f : ℕ) :
    ∀ (s s' : Tape G) (v : ℕ), Sim requiresGrad E s s' → Sim requiresGrad E (identify f s v) (identify f s' v) := by
  induction f with
  | zero => exact fun s s' v h => h
  | succ f ih =>
    intro s s' v h
    have hup : Sim requiresGrad E { s with expected := Function.update s.expected v (s.expected v + 1) }
        { s' with expected := Function.update s'.expected v (s'.expected v + 1) } := by
      refine ⟨h.grad, h.received, h.log, h.children, h.none, h.sub, fun x hx hEx => ?_⟩
      by_cases e : x = v
      · subst e; simp [h.expected x hx hEx]
      · simp [Function.update_of_ne e, h.expected x hx hEx]
    unfold identify
    simp only [Function.update_self]
    cases hr : requiresGrad v with
    | false =>
      have hs' : (if s'.expected v + 1 = 1 then
          (s'.children v).foldl (fun s c => identify f s c.1) { s' with expected := Function.update s'.expected v (s'.expected v + 1) }
          else { s' with expected := Function.update s'.expected v (s'.expected v + 1) }) = { s' with expected := Function.update s'.expected v (s'.expected v + 1) } := by
        rw [h.none v hr]; simp
      rw [hs']
      split
      · refine identify_leaves f _ (fun c hc => ?_) _ hup
        rcases h.sub v with e | e
        · rw [e] at hc; cases hc
        · rw [e] at hc; exact hE v hr c hc
      · exact hup
    | true =>
      by_cases hEv : E v = []
      · have hc : s.children v = [] := by rcases h.sub v with e | e <;> simp [e, hEv]
        have hc' : s'.children v = [] := by rw [← h.children v hr, hc]
        simp only [hc, hc', List.foldl_nil, ite_self]
        exact hup
      · rw [h.expected v hr hEv, h.children v hr]
        split
        · rw [h.expected v hr hEv] at hup
          exact fold_sim (fun s s' c => ih s s' c.1) _ _ _ hup
        · rw [h.expected v hr hEv] at hup
          exact hup

private theorem backwardRec_sim {E : ℕ → List (ℕ × Option (G →+ G))} (f : ℕ) :
    ∀ (s s' : Tape G) (v : ℕ) (g : G), Sim requiresGrad E s s' → Sim requiresGrad E (backwardRec requiresGrad f s v g) (backwardRec requiresGrad f s' v g) := by
  induction f with
  | zero => exact fun s s' v g h => h
  | succ f ih =>
    intro s s' v g h
    unfold backwardRec
    split
    · rename_i hr
      have h1 : Sim requiresGrad E (s.receive v g) (s'.receive v g) := by
        refine ⟨?_, ?_, h.log, h.children, h.none, h.sub, h.expected⟩
        · simp only [receive, h.grad]
        · simp only [receive, h.received]
      have hcond : ((s.receive v g).children v = [] ∨ (s.receive v g).received v < (s.receive v g).expected v)
          ↔ ((s'.receive v g).children v = [] ∨ (s'.receive v g).received v < (s'.receive v g).expected v) := by
        rw [h1.children v hr, h1.received]
        by_cases hc : (s'.receive v g).children v = []
        · simp [hc]
        · have : E v ≠ [] := by
            rcases h1.sub v with e | e
            · rw [h1.children v hr] at e; exact absurd e hc
            · rw [h1.children v hr] at e; rwa [← e]
          rw [h1.expected v hr this]
      simp only [hcond]
      split
      · exact h1
      · have hm : messages ((s.receive v g).children v) (((s.receive v g).grad v).getD 0) = messages ((s'.receive v g).children v) (((s'.receive v g).grad v).getD 0) := by
          rw [h1.children v hr, h1.grad]
        simp only [hm]
        have h2 : Sim requiresGrad E { s.receive v g with log := v :: (s.receive v g).log } { s'.receive v g with log := v :: (s'.receive v g).log } :=
          ⟨h1.grad, h1.received, by simp [h1.log], h1.children, h1.none, h1.sub, h1.expected⟩
        have h3 := fold_sim (F := fun s (m : ℕ × G) => backwardRec requiresGrad f s m.1 m.2) (fun s s' m => ih s s' m.1 m.2)
          (messages ((s'.receive v g).children v) (((s'.receive v g).grad v).getD 0)) _ _ h2
        refine ⟨?_, ?_, h3.log, fun x hx => ?_, fun x hx => ?_, fun x => ?_, fun x hx hEx => ?_⟩
        · simp only [cleanUp, h3.grad]
        · simp only [cleanUp, h3.received]
        · by_cases e : x = v
          · subst e; simp [cleanUp]
          · simpa [cleanUp, Function.update_of_ne e] using h3.children x hx
        · by_cases e : x = v
          · subst e; simp [cleanUp]
          · simpa [cleanUp, Function.update_of_ne e] using h3.none x hx
        · by_cases e : x = v
          · subst e; simp [cleanUp]
          · simpa [cleanUp, Function.update_of_ne e] using h3.sub x
        · by_cases e : x = v
          · subst e; simp [cleanUp]
          · simpa [cleanUp, Function.update_of_ne e] using h3.expected x hx hEx
    · exact h

end Tape

open Tape

/-- **C42, partial, with detached leaves.** As `C42_backward_partial`, for graphs in which a tensor that does not require a gradient may have children without children of their own:
such tensors count as constants. -/
theorem C42_detached_leaf_partial {requiresGrad : ℕ → Bool} (s : Tape G) (hE : Recorded requiresGrad (cut requiresGrad s.children))
    (hd : ∀ v, requiresGrad v = false → ∀ c ∈ s.children v, s.children c.1 = [])
    (hg : ∀ v, s.children v ≠ [] → s.grad v = none ∧ s.expected v = 0 ∧ s.received v = 0) (hlog : s.log = []) (t : ℕ) (ht : requiresGrad t = true) (g : G) (w : ℕ)
    (hw : s.children w = []) (hr : requiresGrad w = true) :
    ((backward requiresGrad s t g).grad w).getD 0 = (s.grad w).getD 0 + sumOverPaths (cut requiresGrad s.children) w (t + 1) t g := by
  obtain ⟨s', hs'⟩ : ∃ s' : Tape G, { s with children := cut requiresGrad s.children } = s' := ⟨_, rfl⟩
  have hc : s'.children = cut requiresGrad s.children := by rw [← hs']
  have hsim : Sim requiresGrad s.children s s' := by
    rw [← hs']
    refine ⟨rfl, rfl, rfl, fun v hv => ?_, fun v hv => ?_, fun v => .inr rfl, fun _ _ _ => rfl⟩
    · simp [cut, hv]
    · simp [cut, hv]
  have hsub : ∀ v, s'.children v ≠ [] → s.children v ≠ [] := by
    intro v hv e
    rw [hc, cut] at hv
    split at hv
    · exact hv e
    · exact hv rfl
  have hw' : s'.children w = [] := by rw [hc, cut, if_pos hr, hw]
  have hm := (C42_backward_partial s' (by rw [hc]; exact hE) (fun v hv => by rw [← hs']; exact hg v (hsub v hv)) (by rw [← hs']; exact hlog) t ht g).1 w hw' hr
  have hb : (backward requiresGrad s t g).grad = (backward requiresGrad s' t g).grad := by
    unfold backward
    rw [if_pos ht, if_pos ht]
    exact (backwardRec_sim (t + 1) _ _ t g (identify_sim hd (t + 1) s s' t hsim)).grad
  rw [hb, hm, hc]
  rw [← hs']

/-- `x`, `d = x.detach()`, `z = x * d` at `x = 3`: the gradient of `x` is 3, not 6. -/
example : Recorded (fun v => v != 1) (cut (fun v => v != 1) (tapeOf [[], [(0, idGrad)], [(0, some (3 • AddMonoidHom.id ℤ)), (1, some (3 • AddMonoidHom.id ℤ))]]).children)
    ∧ (backward (fun v => v != 1) (tapeOf [[], [(0, idGrad)], [(0, some (3 • AddMonoidHom.id ℤ)), (1, some (3 • AddMonoidHom.id ℤ))]]) 2 1).grad 0 = some 3 := by
  refine ⟨⟨fun v c hc => ?_, fun v hv => ?_, fun v c hc h => ?_⟩, by decide⟩
  · rcases v with _ | _ | _ | v
    · simp [cut, tapeOf] at hc
    · simp [cut, tapeOf] at hc
    · simp [cut, tapeOf] at hc
      rcases hc with rfl | rfl <;> decide
    · simp [cut, tapeOf] at hc
  · by_contra hne
    exact hv (by simp only [cut, if_neg hne])
  · rcases v with _ | _ | _ | v
    · simp [cut, tapeOf] at hc
    · simp [cut, tapeOf] at hc
    · simp [cut, tapeOf] at hc
      rcases hc with rfl | rfl <;> cases h
    · simp [cut, tapeOf] at hc

end CrypTen

import Verif.Spec.Autograd
import Mathlib.Algebra.BigOperators.Group.Finset.Basic
import Mathlib.Algebra.BigOperators.Group.List.Basic
import Mathlib.Tactic.Abel
import Mathlib.Tactic.Linarith
import Mathlib.Tactic.IntervalCases
import Mathlib.Logic.Relation
import Mathlib.Data.Finset.Max
import Mathlib.Algebra.Order.BigOperators.Group.Finset

/-!
# C42: back-propagation
-/

namespace CrypTen
variable {G : Type} [AddCommGroup G]

namespace Tape
variable {requiresGrad : ℕ → Bool} {E : ℕ → List (ℕ × Option (G →+ G))}

/-- edges from `u` to `v` -/
private def mult (E : ℕ → List (ℕ × Option (G →+ G))) (u v : ℕ) : ℕ := ((E u).map Prod.fst).count v

/-! ## Identification -/

private structure InvI (E : ℕ → List (ℕ × Option (G →+ G))) (t : ℕ) (V : Finset ℕ) (s : Tape G) (pend : List ℕ) : Prop where
  children : s.children = E
  count : ∀ x, E x ≠ [] → s.expected x + pend.count x = [t].count x + ∑ u ∈ V, mult E u x
  mem : ∀ x, E x ≠ [] → (x ∈ V ↔ 1 ≤ s.expected x)
  interior : ∀ x ∈ V, E x ≠ []

/-- everything but the counters `expected` is unchanged -/
private structure SameI (s s' : Tape G) : Prop where
  grad : s'.grad = s.grad
  received : s'.received = s.received
  log : s'.log = s.log

private theorem identify_list (t f : ℕ)
    (ih : ∀ (s : Tape G) (v : ℕ) (V : Finset ℕ) (rest : List ℕ), v < f → InvI E t V s (v :: rest) → ∃ V', InvI E t V' (identify f s v) rest ∧ SameI s (identify f s v)) :
    ∀ (l : List (ℕ × Option (G →+ G))) (s : Tape G) (V : Finset ℕ) (rest : List ℕ), (∀ c ∈ l, c.1 < f) → InvI E t V s (l.map Prod.fst ++ rest) →
      ∃ V', InvI E t V' (l.foldl (fun s c => identify f s c.1) s) rest ∧ SameI s (l.foldl (fun s c => identify f s c.1) s) := by
  intro l
  induction l with
  | nil => exact fun s V rest _ h => ⟨V, h, ⟨rfl, rfl, rfl⟩⟩
  | cons c l ihl =>
    intro s V rest hl h
    obtain ⟨V1, h1, e1⟩ := ih s c.1 V (l.map Prod.fst ++ rest) (hl c (by simp)) h
    obtain ⟨V2, h2, e2⟩ := ihl (identify f s c.1) V1 rest (fun x hx => hl x (by simp [hx])) h1
    exact ⟨V2, h2, ⟨e2.grad.trans e1.grad, e2.received.trans e1.received, e2.log.trans e1.log⟩⟩

private theorem identify_inv (hE : ∀ v, ∀ c ∈ E v, c.1 < v) (t : ℕ) : ∀ (f : ℕ) (s : Tape G) (v : ℕ) (V : Finset ℕ) (rest : List ℕ), v < f → InvI E t V s (v :: rest) →
    ∃ V', InvI E t V' (identify f s v) rest ∧ SameI s (identify f s v) := by
  intro f
  induction f with
  | zero => intro s v V rest hv; omega
  | succ f ih =>
    intro s v V rest hv h
    unfold identify
    simp only [Function.update_self]
    by_cases hv0 : s.expected v + 1 = 1
    · rw [if_pos hv0]
      obtain ⟨s1, hs1⟩ : ∃ s1, ({ s with expected := Function.update s.expected v (s.expected v + 1) } : Tape G) = s1 := ⟨_, rfl⟩
      have hc1 : s1.children = E := by rw [← hs1]; exact h.children
      have he1 : s1.expected = Function.update s.expected v (s.expected v + 1) := by rw [← hs1]
      by_cases hEv : E v = []
      · refine ⟨V, ?_, ?_⟩
        · rw [hs1, show s.children v = [] by rw [h.children, hEv]]
          refine ⟨hc1, fun x hx => ?_, fun x hx => ?_, h.interior⟩
          · have hxv : x ≠ v := fun e => hx (e ▸ hEv)
            have := h.count x hx
            rw [List.foldl_nil, he1, Function.update_of_ne hxv]
            rw [List.count_cons_of_ne (Ne.symm hxv)] at this
            exact this
          · have hxv : x ≠ v := fun e => hx (e ▸ hEv)
            rw [List.foldl_nil, he1, Function.update_of_ne hxv]
            exact h.mem x hx
        · rw [hs1, show s.children v = [] by rw [h.children, hEv], List.foldl_nil, ← hs1]
          exact ⟨rfl, rfl, rfl⟩
      · have hvV : v ∉ V := by
          rw [h.mem v hEv]; omega
        have hinv : InvI E t (insert v V) s1 ((E v).map Prod.fst ++ rest) := by
          refine ⟨hc1, fun x hx => ?_, fun x hx => ?_, fun x hx => ?_⟩
          · have := h.count x hx
            rw [Finset.sum_insert hvV, List.count_append, he1]
            by_cases hxv : x = v
            · subst hxv
              rw [Function.update_self]
              rw [List.count_cons_self] at this
              have hm : mult E x x = ((E x).map Prod.fst).count x := rfl
              rw [hm]
              omega
            · rw [Function.update_of_ne hxv]
              rw [List.count_cons_of_ne (Ne.symm hxv)] at this
              have hm : mult E v x = ((E v).map Prod.fst).count x := rfl
              rw [hm]
              omega
          · rw [he1, Finset.mem_insert]
            by_cases hxv : x = v
            · subst hxv; simp
            · rw [Function.update_of_ne hxv]
              simpa [hxv] using h.mem x hx
          · rw [Finset.mem_insert] at hx
            rcases hx with rfl | hx
            · exact hEv
            · exact h.interior x hx
        obtain ⟨V', a, b⟩ := identify_list t f (fun s v V rest => ih s v V rest) (E v) s1 (insert v V) rest (fun c hc => by have := hE v c hc; omega) hinv
        refine ⟨V', ?_, ?_⟩
        · rw [hs1, h.children]; exact a
        · rw [hs1, h.children]
          rw [← hs1] at b ⊢
          exact ⟨b.grad, b.received, b.log⟩
    · rw [if_neg hv0]
      refine ⟨V, ⟨h.children, fun x hx => ?_, fun x hx => ?_, h.interior⟩, ⟨rfl, rfl, rfl⟩⟩
      · have := h.count x hx
        by_cases hxv : x = v
        · subst hxv
          rw [List.count_cons_self] at this
          simp only [Function.update_self]
          omega
        · rw [List.count_cons_of_ne (Ne.symm hxv)] at this
          simp only [Function.update_of_ne hxv]
          exact this
      · by_cases hxv : x = v
        · subst hxv
          simp only [Function.update_self]
          rw [h.mem x hx]
          omega
        · simp only [Function.update_of_ne hxv]
          exact h.mem x hx

/-! ## The sum over paths -/

private theorem sumOverPaths_len (hE : ∀ v, ∀ c ∈ E v, c.1 < v) (w : ℕ) : ∀ (f f' v : ℕ) (g : G), v < f → v < f' → sumOverPaths E w f v g = sumOverPaths E w f' v g := by
  intro f
  induction f with
  | zero => intro f' v g h; omega
  | succ f ih =>
    intro f' v g hv hv'
    obtain ⟨f', rfl⟩ : ∃ k, f' = k + 1 := ⟨f' - 1, by omega⟩
    unfold sumOverPaths
    split
    · rfl
    · congr 1
      refine List.map_congr_left fun c hc => ?_
      have hcv := hE v c hc
      cases hJ : c.2 with
      | none => rfl
      | some J => exact ih f' c.1 (J g) (by omega) (by omega)

/-- the sum over all paths -/
private def T (E : ℕ → List (ℕ × Option (G →+ G))) (w v : ℕ) (g : G) : G := sumOverPaths E w (v + 1) v g

private theorem T_eq (hE : ∀ v, ∀ c ∈ E v, c.1 < v) (w v : ℕ) (g : G) :
    T E w v g = if v = w then g else ((messages (E v) g).map fun m => T E w m.1 m.2).sum := by
  unfold T
  conv_lhs => unfold sumOverPaths
  split
  · rfl
  · have : ∀ l : List (ℕ × Option (G →+ G)), (∀ c ∈ l, c.1 < v) → (l.map fun c => match c.2 with
        | some J => sumOverPaths E w v c.1 (J g)
        | none => 0).sum = ((messages l g).map fun m => sumOverPaths E w (m.1 + 1) m.1 m.2).sum := by
      intro l
      induction l with
      | nil => intro _; rfl
      | cons c l ih =>
        intro hl
        have ih' := ih fun x hx => hl x (by simp [hx])
        have hc := hl c (by simp)
        rw [List.map_cons, List.sum_cons, ih']
        obtain ⟨c1, c2⟩ := c
        cases c2 with
        | none => simp [messages]
        | some J =>
          simp only [messages, List.filterMap_cons, Option.map_some, List.map_cons, List.sum_cons]
          rw [sumOverPaths_len hE w v (c1 + 1) c1 (J g) hc (by omega)]
    exact this (E v) (hE v)

private theorem T_leaf (hE : ∀ v, ∀ c ∈ E v, c.1 < v) {w v : ℕ} (hv : E v = []) (g : G) : T E w v g = if v = w then g else 0 := by
  rw [T_eq hE, hv]; rfl

private theorem T_add (hE : ∀ v, ∀ c ∈ E v, c.1 < v) (w v : ℕ) : ∀ g h : G, T E w v (g + h) = T E w v g + T E w v h := by
  induction v using Nat.strong_induction_on with
  | _ v ih =>
    intro g h
    rw [T_eq hE, T_eq hE w v g, T_eq hE w v h]
    split
    · rfl
    · have : ∀ l : List (ℕ × Option (G →+ G)), (∀ c ∈ l, c.1 < v) → ((messages l (g + h)).map fun m => T E w m.1 m.2).sum
          = ((messages l g).map fun m => T E w m.1 m.2).sum + ((messages l h).map fun m => T E w m.1 m.2).sum := by
        intro l
        induction l with
        | nil => intro _; simp [messages]
        | cons c l ihl =>
          intro hl
          have ih' := ihl fun x hx => hl x (by simp [hx])
          have hc := hl c (by simp)
          obtain ⟨c1, c2⟩ := c
          unfold messages at ih' ⊢
          cases c2 with
          | none => simpa using ih'
          | some J =>
            simp only [List.filterMap_cons, Option.map_some, List.map_cons, List.sum_cons]
            rw [ih', map_add, ih c1 hc]
            abel
      exact this (E v) (hE v)

private theorem T_zero (hE : ∀ v, ∀ c ∈ E v, c.1 < v) (w v : ℕ) : T E w v 0 = 0 := by
  have := T_add hE w v 0 0
  rw [add_zero] at this
  exact left_eq_add.1 this

/-! ## The backward pass -/

private def gv (s : Tape G) (w : ℕ) : G := (s.grad w).getD 0

/-- messages to a tensor with children come from all edges -/
private theorem messages_count (hE : Recorded requiresGrad E) (v x : ℕ) (hx : E x ≠ []) (g : G) : ((messages (E v) g).map Prod.fst).count x = mult E v x := by
  unfold mult
  have : ∀ l : List (ℕ × Option (G →+ G)), (∀ c ∈ l, c ∈ E v) → ((messages l g).map Prod.fst).count x = (l.map Prod.fst).count x := by
    intro l
    induction l with
    | nil => intro _; rfl
    | cons c l ih =>
      intro hl
      have ih' := ih fun y hy => hl y (by simp [hy])
      have hc := hl c (by simp)
      obtain ⟨c1, c2⟩ := c
      unfold messages at ih' ⊢
      cases c2 with
      | none =>
        have hne : c1 ≠ x := fun e => hx (e ▸ hE.leaf v _ hc rfl)
        simpa [List.count_cons_of_ne hne] using ih'
      | some J =>
        simp only [List.filterMap_cons, Option.map_some, List.map_cons, List.count_cons]
        rw [ih']
  exact this (E v) fun c hc => hc

private structure InvB (requiresGrad : ℕ → Bool) (E : ℕ → List (ℕ × Option (G →+ G))) (V : Finset ℕ) (C : ℕ → G) (F : Finset ℕ) (s : Tape G) (P : List (ℕ × G)) : Prop where
  children : ∀ v, v ∉ F → s.children v = E v
  target : ∀ m ∈ P, E m.1 ≠ [] → m.1 ∈ V \ F
  count : ∀ v ∈ V \ F, s.received v + (P.map Prod.fst).count v + ∑ u ∈ V \ F, mult E u v = s.expected v
  lt : ∀ v ∈ V \ F, s.received v < s.expected v
  closed : ∀ x ∈ F, ∀ u ∈ V \ F, mult E u x = 0
  value : ∀ w, E w = [] → requiresGrad w = true → gv s w + (P.map fun m => T E w m.1 m.2).sum + ∑ v ∈ V \ F, T E w v (gv s v) = C w
  nodup : s.log.Nodup
  log : s.log.toFinset = F
  sub : F ⊆ V

/-- what is left of a tensor that has propagated its gradient -/
private structure Cleaned (E : ℕ → List (ℕ × Option (G →+ G))) (s : Tape G) (v : ℕ) : Prop where
  children : s.children v = []
  expected : s.expected v = 0
  received : s.received v = 0
  grad : (∃ c ∈ E v, c.2 ≠ none) → s.grad v = none

private structure SameAt (s s' : Tape G) (v : ℕ) : Prop where
  children : s'.children v = s.children v
  expected : s'.expected v = s.expected v
  received : s'.received v = s.received v
  grad : s'.grad v = s.grad v

private structure Frame (E : ℕ → List (ℕ × Option (G →+ G))) (F F' : Finset ℕ) (s s' : Tape G) : Prop where
  sub : F ⊆ F'
  same : ∀ v ∈ F, SameAt s s' v
  cleaned : ∀ v ∈ F', v ∉ F → Cleaned E s' v

private theorem SameAt.trans {s s' s'' : Tape G} {v : ℕ} (h : SameAt s s' v) (h' : SameAt s' s'' v) : SameAt s s'' v :=
  ⟨h'.children.trans h.children, h'.expected.trans h.expected, h'.received.trans h.received, h'.grad.trans h.grad⟩

private theorem Cleaned.same {s s' : Tape G} {v : ℕ} (h : Cleaned E s v) (h' : SameAt s s' v) : Cleaned E s' v :=
  ⟨h'.children.trans h.children, h'.expected.trans h.expected, h'.received.trans h.received, fun e => h'.grad.trans (h.grad e)⟩

private theorem Frame.refl (F : Finset ℕ) (s : Tape G) : Frame E F F s s :=
  ⟨subset_rfl, fun _ _ => ⟨rfl, rfl, rfl, rfl⟩, fun v h h' => absurd h h'⟩

private theorem Frame.trans {F F' F'' : Finset ℕ} {s s' s'' : Tape G} (h : Frame E F F' s s') (h' : Frame E F' F'' s' s'') : Frame E F F'' s s'' := by
  refine ⟨h.sub.trans h'.sub, fun v hv => (h.same v hv).trans (h'.same v (h.sub hv)), fun v hv hv' => ?_⟩
  by_cases e : v ∈ F'
  · exact (h.cleaned v e hv').same (h'.same v e)
  · exact h'.cleaned v hv e

private theorem backward_list (V : Finset ℕ) (C : ℕ → G) (f : ℕ)
    (ih : ∀ (s : Tape G) (v : ℕ) (g : G) (F : Finset ℕ) (rest : List (ℕ × G)), v < f → InvB requiresGrad E V C F s ((v, g) :: rest) →
      ∃ F', InvB requiresGrad E V C F' (backwardRec requiresGrad f s v g) rest ∧ Frame E F F' s (backwardRec requiresGrad f s v g)) :
    ∀ (l : List (ℕ × G)) (s : Tape G) (F : Finset ℕ) (rest : List (ℕ × G)), (∀ m ∈ l, m.1 < f) → InvB requiresGrad E V C F s (l ++ rest) →
      ∃ F', InvB requiresGrad E V C F' (l.foldl (fun s m => backwardRec requiresGrad f s m.1 m.2) s) rest
        ∧ Frame E F F' s (l.foldl (fun s m => backwardRec requiresGrad f s m.1 m.2) s) := by
  intro l
  induction l with
  | nil => exact fun s F rest _ h => ⟨F, h, Frame.refl F s⟩
  | cons c l ihl =>
    intro s F rest hl h
    obtain ⟨F1, h1, e1⟩ := ih s c.1 c.2 F (l ++ rest) (hl c (by simp)) h
    obtain ⟨F2, h2, e2⟩ := ihl (backwardRec requiresGrad f s c.1 c.2) F1 rest (fun x hx => hl x (by simp [hx])) h1
    exact ⟨F2, h2, e1.trans e2⟩

private theorem gv_receive (s : Tape G) (v : ℕ) (g : G) (w : ℕ) : gv (s.receive v g) w = if w = v then gv s v + g else gv s w := by
  unfold gv receive
  by_cases h : w = v
  · subst h
    simp only [Function.update_self, if_true]
    cases s.grad w <;> simp
  · simp [Function.update_of_ne h, h]

private theorem backward_inv (hE : Recorded requiresGrad E) (V : Finset ℕ) (hV : ∀ v ∈ V, E v ≠ []) (hclosed : ∀ u ∈ V, ∀ c ∈ E u, E c.1 ≠ [] → c.1 ∈ V) (C : ℕ → G) :
    ∀ (f : ℕ) (s : Tape G) (v : ℕ) (g : G) (F : Finset ℕ) (rest : List (ℕ × G)), v < f → InvB requiresGrad E V C F s ((v, g) :: rest) →
      ∃ F', InvB requiresGrad E V C F' (backwardRec requiresGrad f s v g) rest ∧ Frame E F F' s (backwardRec requiresGrad f s v g) := by
  intro f
  induction f with
  | zero => intro s v g F rest h; omega
  | succ f ih =>
    intro s v g F rest hv h
    unfold backwardRec
    by_cases hr : requiresGrad v = true
    swap
    · -- no gradient required: a leaf
      have hl : E v = [] := by
        by_contra h0
        exact hr (hE.requires v h0)
      rw [if_neg hr]
      refine ⟨F, ⟨h.children, fun m hm => h.target m (List.mem_cons_of_mem _ hm), fun x hx => ?_, h.lt, h.closed, fun w hw hrw => ?_, h.nodup, h.log, h.sub⟩, Frame.refl F s⟩
      · have hxv : v ≠ x := fun e => hV x (Finset.mem_sdiff.1 hx).1 (e ▸ hl)
        have := h.count x hx
        rwa [List.map_cons, List.count_cons_of_ne hxv] at this
      · have := h.value w hw hrw
        have hvw : v ≠ w := fun e => hr (e ▸ hrw)
        rw [List.map_cons, List.sum_cons, T_leaf hE.older hl, if_neg hvw, zero_add] at this
        exact this
    rw [if_pos hr]
    obtain ⟨s1, hs1⟩ : ∃ s1, s.receive v g = s1 := ⟨_, rfl⟩
    have hgv : ∀ w, gv s1 w = if w = v then gv s v + g else gv s w := by rw [← hs1]; exact gv_receive s v g
    have hrec : ∀ w, s1.received w = if w = v then s.received v + 1 else s.received w := by
      intro w; rw [← hs1]; simp only [receive]
      by_cases e : w = v
      · subst e; simp
      · simp [Function.update_of_ne e, e]
    have hexp : s1.expected = s.expected := by rw [← hs1]; rfl
    have hch : s1.children = s.children := by rw [← hs1]; rfl
    have hlog : s1.log = s.log := by rw [← hs1]; rfl
    have hsame : ∀ x, x ≠ v → SameAt s s1 x := by
      intro x hx
      refine ⟨by rw [hch], by rw [hexp], by rw [hrec, if_neg hx], ?_⟩
      rw [← hs1]; simp [receive, Function.update_of_ne hx]
    simp only [hs1]
    by_cases hl : E v = []
    · -- a leaf: the gradient is kept
      have hvF : v ∉ F := fun e => hV v (h.sub e) hl
      have hvV : v ∉ V := fun e => hV v e hl
      rw [if_pos (.inl (by rw [hch, h.children v hvF, hl]))]
      have hne : ∀ x ∈ V \ F, x ≠ v := fun x hx e => hvV (e ▸ (Finset.mem_sdiff.1 hx).1)
      refine ⟨F, ⟨by rw [hch]; exact h.children, fun m hm => h.target m (List.mem_cons_of_mem _ hm), fun x hx => ?_, fun x hx => ?_, h.closed, fun w hw hrw => ?_,
        by rw [hlog]; exact h.nodup, by rw [hlog]; exact h.log, h.sub⟩, ⟨subset_rfl, fun x hx => hsame x fun e => hvF (e ▸ hx), fun x a b => absurd a b⟩⟩
      · have := h.count x hx
        rw [List.map_cons, List.count_cons_of_ne (Ne.symm (hne x hx))] at this
        rw [hrec, if_neg (hne x hx), hexp]; exact this
      · rw [hrec, if_neg (hne x hx), hexp]; exact h.lt x hx
      · have := h.value w hw hrw
        rw [List.map_cons, List.sum_cons, T_leaf hE.older hl] at this
        have hsum : ∑ x ∈ V \ F, T E w x (gv s1 x) = ∑ x ∈ V \ F, T E w x (gv s x) :=
          Finset.sum_congr rfl fun x hx => by rw [hgv, if_neg (hne x hx)]
        rw [hsum, ← this, hgv]
        by_cases e : w = v
        · subst e; simp; abel
        · rw [if_neg e, if_neg (Ne.symm e)]; simp
    · -- inside the graph
      have hvm := h.target (v, g) (by simp) hl
      have hvm' : v ∈ V ∧ v ∉ F := Finset.mem_sdiff.1 hvm
      have hcnt := h.count v hvm
      rw [List.map_cons, List.count_cons_self] at hcnt
      have hr1 : s1.received v = s.received v + 1 := by rw [hrec, if_pos rfl]
      have hval : ∀ w, E w = [] → requiresGrad w = true → gv s1 w + (rest.map fun m => T E w m.1 m.2).sum + ∑ x ∈ V \ F, T E w x (gv s1 x) = C w := by
        intro w hw hrw
        have hwv : w ≠ v := fun e => hl (e ▸ hw)
        have := h.value w hw hrw
        rw [List.map_cons, List.sum_cons] at this
        rw [← this, hgv, if_neg hwv, ← Finset.add_sum_erase _ _ hvm, ← Finset.add_sum_erase _ _ hvm]
        have hsum : ∑ x ∈ (V \ F).erase v, T E w x (gv s1 x) = ∑ x ∈ (V \ F).erase v, T E w x (gv s x) :=
          Finset.sum_congr rfl fun x hx => by rw [hgv, if_neg (Finset.ne_of_mem_erase hx)]
        rw [hsum, hgv, if_pos rfl, T_add hE.older]
        abel
      by_cases hlt : s1.received v < s1.expected v
      · -- more gradients will arrive
        rw [if_pos (.inr hlt)]
        refine ⟨F, ⟨by rw [hch]; exact h.children, fun m hm => h.target m (List.mem_cons_of_mem _ hm), fun x hx => ?_, fun x hx => ?_, h.closed, hval,
          by rw [hlog]; exact h.nodup, by rw [hlog]; exact h.log, h.sub⟩, ⟨subset_rfl, fun x hx => hsame x fun e => hvm'.2 (e ▸ hx), fun x a b => absurd a b⟩⟩
        · rw [hexp]
          by_cases e : x = v
          · subst e; rw [hr1]; omega
          · have := h.count x hx
            rw [List.map_cons, List.count_cons_of_ne (Ne.symm e)] at this
            rw [hrec, if_neg e]; exact this
        · by_cases e : x = v
          · rw [e]; exact hlt
          · rw [hrec, if_neg e, hexp]; exact h.lt x hx
      · -- the last gradient has arrived
        have hcv : s1.children v = E v := by rw [hch]; exact h.children v hvm'.2
        rw [if_neg (by rw [hcv]; exact fun e => e.elim hl hlt)]
        rw [hr1, hexp] at hlt
        have hz : (rest.map Prod.fst).count v = 0 ∧ ∑ u ∈ V \ F, mult E u v = 0 := by omega
        obtain ⟨s2, hs2⟩ : ∃ s2, ({ s1 with log := v :: s1.log } : Tape G) = s2 := ⟨_, rfl⟩
        have a1 : s2.children = s1.children := by rw [← hs2]
        have a2 : s2.expected = s1.expected := by rw [← hs2]
        have a3 : s2.received = s1.received := by rw [← hs2]
        have a4 : s2.grad = s1.grad := by rw [← hs2]
        have a5 : s2.log = v :: s1.log := by rw [← hs2]
        have agv : ∀ w, gv s2 w = gv s1 w := fun w => by unfold gv; rw [a4]
        have hgr : (s1.grad v).getD 0 = gv s1 v := rfl
        rw [hcv, hgr]
        simp only [hs2]
        obtain ⟨out, hout⟩ : ∃ out, messages (E v) (gv s1 v) = out := ⟨_, rfl⟩
        have hout1 : ∀ m ∈ out, ∃ c ∈ E v, c.1 = m.1 := by
          intro m hm
          rw [← hout] at hm
          unfold messages at hm
          rw [List.mem_filterMap] at hm
          obtain ⟨c, hc, hm⟩ := hm
          rw [Option.map_eq_some_iff] at hm
          obtain ⟨J, -, rfl⟩ := hm
          exact ⟨c, hc, rfl⟩
        have hsd : V \ insert v F = (V \ F).erase v := by
          ext x; simp only [Finset.mem_sdiff, Finset.mem_insert, Finset.mem_erase]; tauto
        have hinv : InvB requiresGrad E V C (insert v F) s2 (out ++ rest) := by
          refine ⟨fun x hx => ?_, fun m hm hm' => ?_, fun x hx => ?_, fun x hx => ?_, fun x hx u hu => ?_, fun w hw hrw => ?_, ?_, ?_, ?_⟩
          · rw [a1, hch]
            exact h.children x fun e => hx (Finset.mem_insert_of_mem e)
          · rw [List.mem_append] at hm
            rcases hm with hm | hm
            · obtain ⟨c, hc, hcm⟩ := hout1 m hm
              rw [← hcm] at hm' ⊢
              have h1 := hclosed v hvm'.1 c hc hm'
              have h2 := hE.older v c hc
              rw [hsd, Finset.mem_erase, Finset.mem_sdiff]
              refine ⟨by omega, h1, fun hF => ?_⟩
              have := h.closed c.1 hF v hvm
              unfold mult at this
              rw [List.count_eq_zero] at this
              exact this (List.mem_map_of_mem hc)
            · have h1 := h.target m (List.mem_cons_of_mem _ hm) hm'
              rw [hsd, Finset.mem_erase]
              refine ⟨fun e => ?_, h1⟩
              have := hz.1
              rw [List.count_eq_zero] at this
              exact this (e ▸ List.mem_map_of_mem hm)
          · rw [hsd, Finset.mem_erase] at hx
            have := h.count x hx.2
            rw [List.map_cons, List.count_cons_of_ne (Ne.symm hx.1), ← Finset.add_sum_erase _ _ hvm] at this
            beta_reduce at this
            change _ + _ + (mult E v x + ∑ u ∈ (V \ F).erase v, mult E u x) = _ at this
            rw [a3, hrec, if_neg hx.1, a2, hexp, List.map_append, List.count_append, ← hout,
              messages_count hE v x (hV x (Finset.mem_sdiff.1 hx.2).1), hsd]
            omega
          · rw [hsd, Finset.mem_erase] at hx
            rw [a3, hrec, if_neg hx.1, a2, hexp]
            exact h.lt x hx.2
          · rw [hsd, Finset.mem_erase] at hu
            rw [Finset.mem_insert] at hx
            rcases hx with rfl | hx
            · exact Finset.sum_eq_zero_iff.1 hz.2 u hu.2
            · exact h.closed x hx u hu.2
          · have hwv : v ≠ w := fun e => hl (e ▸ hw)
            have := hval w hw hrw
            rw [← Finset.add_sum_erase _ _ hvm, T_eq hE.older w v, if_neg hwv, hout] at this
            rw [List.map_append, List.sum_append, hsd, agv, ← this]
            have : ∑ x ∈ (V \ F).erase v, T E w x (gv s2 x) = ∑ x ∈ (V \ F).erase v, T E w x (gv s1 x) :=
              Finset.sum_congr rfl fun x _ => by rw [agv]
            rw [this]
            abel
          · rw [a5, hlog, List.nodup_cons]
            refine ⟨fun e => hvm'.2 ?_, h.nodup⟩
            rw [← h.log, List.mem_toFinset]; exact e
          · rw [a5, hlog, List.toFinset_cons, h.log]
          · exact Finset.insert_subset hvm'.1 h.sub
        obtain ⟨F2, hi2, hf2⟩ := backward_list V C f (fun s v g F rest => ih s v g F rest) out s2 (insert v F) rest
          (fun m hm => by obtain ⟨c, hc, e⟩ := hout1 m hm; have := hE.older v c hc; omega) hinv
        obtain ⟨s3, hs3⟩ : ∃ s3, out.foldl (fun s m => backwardRec requiresGrad f s m.1 m.2) s2 = s3 := ⟨_, rfl⟩
        rw [hs3] at hi2 hf2
        rw [hout, hs3]
        have hvF2 : v ∈ F2 := hf2.sub (Finset.mem_insert_self v F)
        have hsame2 : ∀ x, x ≠ v → SameAt s3 (s3.cleanUp v (!out.isEmpty)) x := by
          intro x hx
          refine ⟨?_, ?_, ?_, ?_⟩ <;> simp only [cleanUp]
          · rw [Function.update_of_ne hx]
          · rw [Function.update_of_ne hx]
          · rw [Function.update_of_ne hx]
          · split
            · rw [Function.update_of_ne hx]
            · rfl
        have hne2 : ∀ x ∈ V \ F2, x ≠ v := fun x hx e => (Finset.mem_sdiff.1 hx).2 (e ▸ hvF2)
        have hgv2 : ∀ x, x ≠ v → gv (s3.cleanUp v (!out.isEmpty)) x = gv s3 x := fun x hx => by unfold gv; rw [(hsame2 x hx).grad]
        refine ⟨F2, ⟨fun x hx => ?_, hi2.target, fun x hx => ?_, fun x hx => ?_, hi2.closed, fun w hw hrw => ?_, hi2.nodup, hi2.log, hi2.sub⟩,
          ⟨(Finset.subset_insert v F).trans hf2.sub, fun x hx => ?_, fun x hx hx' => ?_⟩⟩
        · rw [(hsame2 x fun e => hx (e ▸ hvF2)).children]; exact hi2.children x hx
        · rw [(hsame2 x (hne2 x hx)).received, (hsame2 x (hne2 x hx)).expected]; exact hi2.count x hx
        · rw [(hsame2 x (hne2 x hx)).received, (hsame2 x (hne2 x hx)).expected]; exact hi2.lt x hx
        · have hwv : w ≠ v := fun e => hl (e ▸ hw)
          rw [hgv2 w hwv, ← hi2.value w hw hrw]
          congr 1
          exact Finset.sum_congr rfl fun x hx => by rw [hgv2 x (hne2 x hx)]
        · have hxv : x ≠ v := fun e => hvm'.2 (e ▸ hx)
          have h12 : SameAt s1 s2 x := ⟨by rw [a1], by rw [a2], by rw [a3], by rw [a4]⟩
          exact (((hsame x hxv).trans h12).trans (hf2.same x (Finset.mem_insert_of_mem hx))).trans (hsame2 x hxv)
        · by_cases e : x = v
          · subst e
            refine ⟨by simp [cleanUp], by simp [cleanUp], by simp [cleanUp], ?_⟩
            rintro ⟨c, hc, hc'⟩
            have hne : out ≠ [] := by
              intro h0
              obtain ⟨J, hJ⟩ := Option.ne_none_iff_exists'.1 hc'
              have : (c.1, J (gv s1 x)) ∈ out := by
                rw [← hout]; unfold messages
                rw [List.mem_filterMap]
                exact ⟨c, hc, by rw [hJ]; rfl⟩
              rw [h0] at this
              cases this
            simp [cleanUp, hne]
          · exact (hf2.cleaned x hx (by rw [Finset.mem_insert]; tauto)).same (hsame2 x e)

end Tape

open Tape

/-- Some path leads from `t` to `v`. -/
def ReachableFrom (children : ℕ → List (ℕ × Option (G →+ G))) (t v : ℕ) : Prop := Relation.ReflTransGen (fun u x => ∃ c ∈ children u, c.1 = x) t v

/-- **C42, partial** (see the three counterexamples below for what is missing). Take any recorded graph in which the tensors with children carry no gradient and no pending counts. After `t.backward(g)`, every leaf that requires a gradient has its
old gradient plus the sum over all paths from `t` to it of the local derivatives applied to `g`. The tensors with children that can be reached from `t`, and only those, have propagated
their gradient, each exactly once; they are detached from the graph, and have dropped their gradient unless none of their children is differentiable. -/
theorem C42_backward_partial {requiresGrad : ℕ → Bool} (s : Tape G) (hE : Recorded requiresGrad s.children)
    (hg : ∀ v, s.children v ≠ [] → s.grad v = none ∧ s.expected v = 0 ∧ s.received v = 0) (hlog : s.log = []) (t : ℕ) (ht : requiresGrad t = true) (g : G) :
    (∀ w, s.children w = [] → requiresGrad w = true →
        ((backward requiresGrad s t g).grad w).getD 0 = (s.grad w).getD 0 + sumOverPaths s.children w (t + 1) t g)
      ∧ (backward requiresGrad s t g).log.Nodup
      ∧ (∀ v, v ∈ (backward requiresGrad s t g).log ↔ ReachableFrom s.children t v ∧ s.children v ≠ [])
      ∧ ∀ v ∈ (backward requiresGrad s t g).log, (backward requiresGrad s t g).children v = []
          ∧ ((∃ c ∈ s.children v, c.2 ≠ none) → (backward requiresGrad s t g).grad v = none) := by
  obtain ⟨E, hEs⟩ : ∃ E, s.children = E := ⟨_, rfl⟩
  rw [hEs] at hE hg ⊢
  have hI : InvI E t ∅ s [t] := ⟨hEs, fun x hx => by rw [(hg x hx).2.1]; simp, fun x hx => by simp [(hg x hx).2.1], by simp⟩
  obtain ⟨V, hV, hs⟩ := identify_inv hE.older t (t + 1) s t ∅ [] (Nat.lt_succ_self t) hI
  unfold backward
  rw [if_pos ht]
  obtain ⟨s1, hs1⟩ : ∃ s1, identify (t + 1) s t = s1 := ⟨_, rfl⟩
  rw [hs1] at hV hs ⊢
  have hcnt : ∀ x, E x ≠ [] → s1.expected x = [t].count x + ∑ u ∈ V, mult E u x := fun x hx => by simpa using hV.count x hx
  have hclosed : ∀ u ∈ V, ∀ c ∈ E u, E c.1 ≠ [] → c.1 ∈ V := by
    intro u hu c hc hc'
    rw [hV.mem c.1 hc', hcnt c.1 hc']
    have h1 : 1 ≤ mult E u c.1 := List.count_pos_iff.2 (List.mem_map_of_mem hc)
    have h2 : mult E u c.1 ≤ ∑ u ∈ V, mult E u c.1 := Finset.single_le_sum (f := fun u => mult E u c.1) (fun _ _ => Nat.zero_le _) hu
    omega
  have hgv0 : ∀ w, gv s1 w = gv s w := fun w => by unfold gv; rw [hs.grad]
  have hB : InvB requiresGrad E V (fun w => gv s w + T E w t g) ∅ s1 [(t, g)] := by
    refine ⟨fun v _ => by rw [hV.children], fun m hm hm' => ?_, fun v hv => ?_, fun v hv => ?_, by simp, fun w hw hr => ?_, ?_, ?_, by simp⟩
    · rw [List.mem_singleton] at hm
      subst hm
      rw [Finset.sdiff_empty, hV.mem t hm', hcnt t hm']
      simp
    · rw [Finset.sdiff_empty] at hv ⊢
      rw [hs.received, (hg v (hV.interior v hv)).2.2, hcnt v (hV.interior v hv)]
      simp
    · rw [Finset.sdiff_empty] at hv
      rw [hs.received, (hg v (hV.interior v hv)).2.2]
      exact (hV.mem v (hV.interior v hv)).1 hv
    · rw [Finset.sdiff_empty, hgv0]
      have : ∑ v ∈ V, T E w v (gv s1 v) = 0 := Finset.sum_eq_zero fun v hv => by
        rw [hgv0, gv, (hg v (hV.interior v hv)).1]
        exact T_zero hE.older w v
      rw [this]; simp
    · rw [hs.log, hlog]; exact List.nodup_nil
    · rw [hs.log, hlog]; rfl
  obtain ⟨F, hF, hfr⟩ := backward_inv hE V hV.interior hclosed _ (t + 1) s1 t g ∅ [] (Nat.lt_succ_self t) hB
  obtain ⟨s', hs'⟩ : ∃ s', backwardRec requiresGrad (t + 1) s1 t g = s' := ⟨_, rfl⟩
  rw [hs'] at hF hfr ⊢
  have hmult : ∀ u v, mult E u v ≠ 0 → v < u := by
    intro u v h
    have : 0 < ((E u).map Prod.fst).count v := Nat.pos_of_ne_zero h
    rw [List.count_pos_iff, List.mem_map] at this
    obtain ⟨c, hc, rfl⟩ := this
    exact hE.older u c hc
  have hdone : V \ F = ∅ := by
    by_contra hne
    obtain ⟨v, hv, hmax⟩ := Finset.exists_max_image (V \ F) id (Finset.nonempty_iff_ne_empty.2 hne)
    have h0 : ∑ u ∈ V \ F, mult E u v = 0 := Finset.sum_eq_zero fun u hu => by
      by_contra h
      have h1 := hmult u v h
      have h2 : u ≤ v := hmax u hu
      omega
    have h1 := hF.count v hv
    have h2 := hF.lt v hv
    rw [h0] at h1
    simp at h1
    omega
  have hFV : F = V := Finset.Subset.antisymm hF.sub (Finset.sdiff_eq_empty_iff_subset.1 hdone)
  have hmemlog : ∀ v, v ∈ s'.log ↔ v ∈ V := by
    intro v
    rw [← hFV, ← hF.log, List.mem_toFinset]
  refine ⟨fun w hw hr => ?_, hF.nodup, fun v => ?_, fun v hv => ?_⟩
  · have := hF.value w hw hr
    rw [hdone] at this
    simpa [gv, T] using this
  · rw [hmemlog]
    constructor
    · intro hv
      refine ⟨?_, hV.interior v hv⟩
      by_contra hnr
      classical
      obtain ⟨x, hx, hmax⟩ := Finset.exists_max_image (V.filter fun x => ¬ReachableFrom E t x) id ⟨v, Finset.mem_filter.2 ⟨hv, hnr⟩⟩
      rw [Finset.mem_filter] at hx
      have he := (hV.mem x (hV.interior x hx.1)).1 hx.1
      rw [hcnt x (hV.interior x hx.1)] at he
      have hxt : t ≠ x := fun e => hx.2 (e ▸ Relation.ReflTransGen.refl)
      rw [List.count_cons_of_ne hxt, List.count_nil, Nat.zero_add] at he
      obtain ⟨u, hu, hu'⟩ : ∃ u ∈ V, mult E u x ≠ 0 := by
        by_contra hno
        push Not at hno
        rw [Finset.sum_eq_zero hno] at he
        omega
      have hlt := hmult u x hu'
      have hur : ReachableFrom E t u := by
        by_contra hur
        have : u ≤ x := hmax u (Finset.mem_filter.2 ⟨hu, hur⟩)
        omega
      refine hx.2 (hur.tail ?_)
      have : 0 < ((E u).map Prod.fst).count x := Nat.pos_of_ne_zero hu'
      rw [List.count_pos_iff, List.mem_map] at this
      obtain ⟨c, hc, e⟩ := this
      exact ⟨c, hc, e⟩
    · rintro ⟨hr, hv⟩
      have key : ∀ x, ReachableFrom E t x → E x ≠ [] → x ∈ V := by
        intro x hx
        induction hx with
        | refl =>
          intro h
          rw [hV.mem t h, hcnt t h]; simp
        | tail hab hbc ih =>
          intro h
          obtain ⟨c, hc, rfl⟩ := hbc
          exact hclosed _ (ih (List.ne_nil_of_mem hc)) c hc h
      exact key v hr hv
  · rw [hmemlog, ← hFV] at hv
    have := hfr.cleaned v hv (by simp)
    exact ⟨this.children, this.grad⟩

/-- the identity as local derivative -/
def idGrad : Option (ℤ →+ ℤ) := some (AddMonoidHom.id ℤ)

/-- a graph given by a list of child lists -/
def tapeOf (l : List (List (ℕ × Option (ℤ →+ ℤ)))) : Tape ℤ := { grad := fun _ => none, expected := fun _ => 0, received := fun _ => 0, children := fun v => l.getD v [] }

/-- A graph that meets the hypotheses: `y = 3x`, `z = y + y·2`, `w = y + z` with a constant `c` multiplied in. Two paths join in `y`. -/
def sampleTape : Tape ℤ := tapeOf [[], [], [(0, some (3 • AddMonoidHom.id ℤ)), (1, none)], [(2, idGrad), (2, some (2 • AddMonoidHom.id ℤ))], [(2, idGrad), (3, idGrad)]]

example : Recorded (fun v => v != 1) sampleTape.children ∧ (∀ v, sampleTape.children v ≠ [] → sampleTape.grad v = none ∧ sampleTape.expected v = 0 ∧ sampleTape.received v = 0)
    ∧ (backward (fun v => v != 1) sampleTape 4 1).grad 0 = some 12 := by
  refine ⟨⟨?_, ?_, ?_⟩, fun _ _ => ⟨rfl, rfl, rfl⟩, by decide⟩
  · intro v c hc
    have : v < 5 := by
      by_contra h
      rw [sampleTape, tapeOf] at hc
      simp only [List.getD] at hc
      rw [List.getElem?_eq_none (by simpa using h)] at hc
      cases hc
    interval_cases v <;> simp [sampleTape, tapeOf] at hc <;> rcases hc with rfl | rfl <;> decide
  · intro v hv
    rw [bne_iff_ne]
    rintro rfl
    exact hv rfl
  · intro v c hc h
    have : v < 5 := by
      by_contra h
      rw [sampleTape, tapeOf] at hc
      simp only [List.getD] at hc
      rw [List.getElem?_eq_none (by simpa using h)] at hc
      cases hc
    interval_cases v <;> simp [sampleTape, tapeOf, idGrad] at hc <;> rcases hc with rfl | rfl <;> simp_all [sampleTape, tapeOf]

/-- **C42 fails after `detach_`.** `y = x`, `z = y`, `w = y + z`, then `z.detach_()` and `w.backward()`. The tensor `z` still has its children and takes no part in the backward pass, so
that `y` waits for its contribution: `x` receives no gradient at all, although it should receive the idGrad through `y`. -/
theorem C42_detach_wrong :
    let s := tapeOf [[], [(0, idGrad)], [(1, idGrad)], [(1, idGrad), (2, idGrad)]]
    let requiresGrad : ℕ → Bool := fun v => v != 2
    (backward requiresGrad s 3 1).grad 0 = none ∧ sumOverPaths (fun v => if v = 2 then [] else s.children v) 0 4 3 (1 : ℤ) = 1 := by
  refine ⟨by decide, by decide⟩

/-- **C42 fails if a non-differentiable argument was itself computed.** `t = x`, `p = t`, `loss(p, t)` with target `t`: the tensor `t` waits for a second gradient that the loss
never sends, so `x` receives no gradient, although it should receive the idGrad through `p`. -/
theorem C42_non_differentiable_wrong :
    let s := tapeOf [[], [(0, idGrad)], [(1, idGrad)], [(2, idGrad), (1, none)]]
    (backward (fun _ => true) s 3 1).grad 0 = none ∧ sumOverPaths s.children 0 4 3 (1 : ℤ) = 1 := by
  refine ⟨by decide, by decide⟩

/-- **C42 fails for a second output of the same graph.** `y = x`, `a = y`, `b = y`, then `a.backward()` and `b.backward()`: the second call stops silently at `y`, the gradient
of `x` is 1 instead of 2. -/
theorem C42_second_backward_wrong :
    let s := tapeOf [[], [(0, idGrad)], [(1, idGrad)], [(1, idGrad)]]
    let requiresGrad : ℕ → Bool := fun _ => true
    (backward requiresGrad (backward requiresGrad s 2 1) 3 1).grad 0 = some 1
      ∧ sumOverPaths s.children 0 4 2 (1 : ℤ) + sumOverPaths s.children 0 4 3 (1 : ℤ) = 2 := by
  refine ⟨by decide, by decide⟩

end CrypTen

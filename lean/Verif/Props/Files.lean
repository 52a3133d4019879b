import Verif.Spec.Files
import Mathlib.Data.List.Infix
import Mathlib.Algebra.Group.Basic
import Mathlib.Data.List.OfFn

/-!
# C83: output and files of several parties
-/

namespace CrypTen.Files

variable {n : ℕ} {α : Type}

theorem joined_cons (s : List (Act α)) (l : List (List (Act α))) :
    joined (s :: l) = s.map .act ++ (if l = [] then [] else .barrier :: joined l) := by
  cases l with
  | nil => simp [joined]
  | cons t l => simp [joined]

theorem proj_cons (r q : Fin n) (a : Act α) (t : List (Fin n × Act α)) :
    proj r ((q, a) :: t) = if q = r then a :: proj r t else proj r t := by
  unfold proj
  by_cases h : q = r <;> simp [h]

theorem proj_append (r : Fin n) (t u : List (Fin n × Act α)) : proj r (t ++ u) = proj r t ++ proj r u := by
  simp [proj]

theorem mem_proj {r : Fin n} {a : Act α} {t : List (Fin n × Act α)} : a ∈ proj r t ↔ (r, a) ∈ t := by
  unfold proj
  simp

/-- All parties have the same number of segments, at least one. -/
def SameLength (P : Fin n → List (List (Act α))) : Prop := ∃ m, ∀ r, (P r).length = m + 1

theorem inStep_prepend {P : Fin n → List (List (Act α))} {t : List (Fin n × Act α)} (h : InStep P t) (r : Fin n) (a : Act α)
    (f : List (Act α)) (first : Fin n → List (Act α)) (later : Fin n → List (List (Act α)))
    (hP : P = fun q => (if q = r then f else first q) :: later q) (hf : first r = a :: f) :
    InStep (fun q => first q :: later q) ((r, a) :: t) := by
  cases h with
  | within first' later' _ h =>
    have h1 : ∀ q, first' q = (if q = r then f else first q) := fun q => (List.cons.inj (congrFun hP q)).1
    refine InStep.within first later _ fun q => ?_
    rw [proj_cons]
    split
    · next e =>
      subst e
      have := h r
      rw [h1, if_pos rfl] at this
      rw [hf]
      exact (List.prefix_cons_inj a).mpr this
    · next e =>
      have := h q
      rwa [h1, if_neg (fun h => e h.symm)] at this
  | next first' later' t u h hu =>
    have h1 : ∀ q, first' q = (if q = r then f else first q) := fun q => (List.cons.inj (congrFun hP q)).1
    have h2 : later' = later := funext fun q => (List.cons.inj (congrFun hP q)).2
    subst h2
    rw [← List.cons_append]
    refine InStep.next first later' _ u (fun q => ?_) hu
    rw [proj_cons]
    split
    · next e => subst e; rw [h, h1, if_pos rfl, hf]
    · next e => rw [h, h1, if_neg (fun h => e h.symm)]

theorem complete_prepend {P : Fin n → List (List (Act α))} {t : List (Fin n × Act α)} (h : Complete P t) (r : Fin n) (a : Act α)
    (f : List (Act α)) (first : Fin n → List (Act α)) (later : Fin n → List (List (Act α)))
    (hP : P = fun q => (if q = r then f else first q) :: later q) (hf : first r = a :: f) :
    Complete (fun q => first q :: later q) ((r, a) :: t) := by
  cases h with
  | last first' _ h =>
    have h1 : ∀ q, first' q = (if q = r then f else first q) := fun q => (List.cons.inj (congrFun hP q)).1
    have h2 : later = fun _ => [] := funext fun q => ((List.cons.inj (congrFun hP q)).2).symm
    subst h2
    refine Complete.last first _ fun q => ?_
    rw [proj_cons]
    split
    · next e => subst e; rw [h, h1, if_pos rfl, hf]
    · next e => rw [h, h1, if_neg (fun h => e h.symm)]
  | next first' later' t u h hu =>
    have h1 : ∀ q, first' q = (if q = r then f else first q) := fun q => (List.cons.inj (congrFun hP q)).1
    have h2 : later' = later := funext fun q => (List.cons.inj (congrFun hP q)).2
    subst h2
    rw [← List.cons_append]
    refine Complete.next first later' _ u (fun q => ?_) hu
    rw [proj_cons]
    split
    · next e => subst e; rw [h, h1, if_pos rfl, hf]
    · next e => rw [h, h1, if_neg (fun h => e h.symm)]

/-- The state is in the middle of programs made of segments. -/
def At (P : Fin n → List (List (Act α))) (s : State n α) : Prop := ∀ r, s.rest r = joined (P r)

theorem split_segments {P : Fin n → List (List (Act α))} {m : ℕ} (h : ∀ r, (P r).length = m + 1) :
    ∃ (first : Fin n → List (Act α)) (later : Fin n → List (List (Act α))), P = (fun r => first r :: later r) ∧
      ∀ r, (later r).length = m := by
  refine ⟨fun r => (P r).head (by intro e; have := h r; rw [e] at this; simp at this), fun r => (P r).tail, ?_, ?_⟩
  · funext r
    exact (List.cons_head_tail _).symm
  · intro r
    simp [h r]

/-- One step of a party in the middle of segments. -/
theorem step_at {P : Fin n → List (List (Act α))} (hP : SameLength P) {s : State n α} (hs : At P s) (r : Fin n) :
    step false s r = s ∨
    (∃ (a : Act α) (f : List (Act α)) (first : Fin n → List (Act α)) (later : Fin n → List (List (Act α))),
      P = (fun q => first q :: later q) ∧ first r = a :: f ∧
      At (fun q => (if q = r then f else first q) :: later q) (step false s r) ∧
      (step false s r).trace = s.trace ++ [(r, a)]) ∨
    (∃ later : Fin n → List (List (Act α)), P = (fun q => [] :: later q) ∧ SameLength later ∧ At later (step false s r) ∧
      (step false s r).trace = s.trace) := by
  obtain ⟨m, hm⟩ := hP
  obtain ⟨first, later, rfl, hl⟩ := split_segments hm
  have hr := hs r
  rw [joined_cons] at hr
  cases hf : first r with
  | cons a f =>
    right; left
    refine ⟨a, f, first, later, rfl, hf, ?_, ?_⟩
    · rw [hf] at hr
      simp only [step, hr, List.map_cons, List.cons_append]
      intro q
      simp only
      split
      · next e => subst e; rw [joined_cons]
      · exact hs q
    · rw [hf] at hr
      simp only [step, hr, List.map_cons, List.cons_append]
  | nil =>
    rw [hf] at hr
    simp only [List.map_nil, List.nil_append] at hr
    by_cases hlr : later r = []
    · left
      rw [if_pos hlr] at hr
      simp only [step, hr]
    · rw [if_neg hlr] at hr
      by_cases hb : s.allAtBarrier
      · right; right
        have hq : ∀ q, first q = [] ∧ later q ≠ [] := by
          intro q
          have h1 := hb q
          rw [hs q, joined_cons] at h1
          cases hfq : first q with
          | cons a f => rw [hfq] at h1; simp at h1
          | nil =>
            refine ⟨rfl, fun e => ?_⟩
            rw [hfq, e] at h1
            simp at h1
        refine ⟨later, ?_, ?_, ?_, ?_⟩
        · funext q; rw [(hq q).1]
        · refine ⟨m - 1, fun q => ?_⟩
          have h1 := hl q
          have h2 : 0 < (later q).length := List.length_pos_iff.mpr (hq q).2
          omega
        · intro q
          simp only [step, hr, Bool.false_eq_true, ↓reduceIte, if_pos hb]
          rw [hs q, joined_cons, (hq q).1, if_neg (hq q).2]
          simp
        · simp only [step, hr, Bool.false_eq_true, ↓reduceIte, if_pos hb]
      · left
        simp only [step, hr, Bool.false_eq_true, ↓reduceIte, if_neg hb]

theorem finished_at {P : Fin n → List (List (Act α))} (hP : SameLength P) {s : State n α} (hs : At P s) (hf : s.finished) :
    Complete P [] := by
  obtain ⟨m, hm⟩ := hP
  obtain ⟨first, later, rfl, hl⟩ := split_segments hm
  have h : ∀ r, first r = [] ∧ later r = [] := by
    intro r
    have h1 := hf r
    rw [hs r, joined_cons] at h1
    rw [List.append_eq_nil_iff] at h1
    refine ⟨by simpa using h1.1, ?_⟩
    by_contra hc
    have := h1.2
    rw [if_neg hc] at this
    exact nomatch this
  have h2 : later = fun _ => [] := funext fun r => (h r).2
  subst h2
  exact Complete.last first [] fun r => by rw [(h r).1]; rfl

theorem inStep_run (schedule : List (Fin n)) : ∀ {P : Fin n → List (List (Act α))} (_ : SameLength P) {s : State n α}
    (_ : At P s), ∃ t, (run false s schedule).trace = s.trace ++ t ∧ InStep P t ∧
      ((run false s schedule).finished → Complete P t) ∧
      ∃ P', SameLength P' ∧ At P' (run false s schedule) := by
  induction schedule with
  | nil =>
    intro P hP s hs
    refine ⟨[], by simp [run], ?_, fun hf => finished_at hP hs hf, P, hP, hs⟩
    obtain ⟨m, hm⟩ := hP
    obtain ⟨first, later, rfl, -⟩ := split_segments hm
    exact InStep.within first later [] fun r => List.nil_prefix
  | cons r schedule ih =>
    intro P hP s hs
    rcases step_at hP hs r with h | ⟨a, f, first, later, rfl, hf, h1, h2⟩ | ⟨later, rfl, hl, h1, h2⟩
    · obtain ⟨t, ht⟩ := ih hP hs
      refine ⟨t, ?_⟩
      have : run false s (r :: schedule) = run false s schedule := by
        show run false (step false s r) schedule = _
        rw [h]
      rw [this]
      exact ht
    · have hP' : SameLength (fun q => (if q = r then f else first q) :: later q) := by
        obtain ⟨m, hm⟩ := hP
        exact ⟨m, fun q => by have := hm q; simpa using this⟩
      obtain ⟨t, ht1, ht2, ht3, ht4⟩ := ih hP' h1
      refine ⟨(r, a) :: t, ?_, inStep_prepend ht2 r a f first later rfl hf,
        fun hfin => complete_prepend (ht3 hfin) r a f first later rfl hf, ht4⟩
      show (run false (step false s r) schedule).trace = _
      rw [ht1, h2]
      simp
    · obtain ⟨t, ht1, ht2, ht3, ht4⟩ := ih hl h1
      refine ⟨t, ?_, ?_, fun hfin => ?_, ht4⟩
      · show (run false (step false s r) schedule).trace = _
        rw [ht1, h2]
      · exact InStep.next (fun _ => []) later [] t (fun _ => rfl) ht2
      · exact Complete.next (fun _ => []) later [] t (fun _ => rfl) (ht3 hfin)

/-- **C83.** For every schedule: between the barriers the parties are in step.  Whatever the programs do, no action after a
barrier happens before all parties have done everything they do before it. -/
theorem C83_in_step (P : Fin n → List (List (Act α))) (hP : SameLength P) (schedule : List (Fin n)) :
    InStep P (run false (start fun r => joined (P r)) schedule).trace ∧
    ((run false (start fun r => joined (P r)) schedule).finished →
      Complete P (run false (start fun r => joined (P r)) schedule).trace) := by
  obtain ⟨t, h1, h2, h3, -⟩ := inStep_run schedule hP (s := start fun r => joined (P r)) (fun _ => rfl)
  have h1 : (run false (start fun r => joined (P r)) schedule).trace = t := h1
  rw [h1]
  exact ⟨h2, h3⟩

/-- **C83.** Nobody waits for ever: as long as not everything is done, some party can move. -/
theorem C83_no_deadlock (P : Fin n → List (List (Act α))) (hP : SameLength P) (schedule : List (Fin n))
    (h : ¬(run false (start fun r => joined (P r)) schedule).finished) :
    ∃ r, step false (run false (start fun r => joined (P r)) schedule) r
      ≠ run false (start fun r => joined (P r)) schedule := by
  obtain ⟨t, -, -, -, P', ⟨m, hm⟩, hs⟩ := inStep_run schedule hP (s := start fun r => joined (P r)) (fun _ => rfl)
  generalize run false (start fun r => joined (P r)) schedule = s at h hs
  obtain ⟨first, later, rfl, hl⟩ := split_segments hm
  by_cases hf : ∃ r, first r ≠ []
  · obtain ⟨r, hr⟩ := hf
    refine ⟨r, fun he => ?_⟩
    have hrest := hs r
    rw [joined_cons] at hrest
    cases hfr : first r with
    | nil => exact hr hfr
    | cons a f =>
      rw [hfr] at hrest
      have := congrArg (fun s => (s.trace).length) he
      simp [step, hrest] at this
  · push Not at hf
    have hl0 : ∀ r, later r ≠ [] := by
      intro r e
      apply h
      intro q
      rw [hs q, joined_cons, hf q]
      have h1 := hl q
      have h2 := hl r
      rw [e] at h2
      have : later q = [] := List.length_eq_zero_iff.mp (by rw [h1, ← h2]; rfl)
      simp [this]
    have hrest : ∀ r, s.rest r = .barrier :: joined (later r) := fun r => by
      rw [hs r, joined_cons, hf r, if_neg (hl0 r)]; rfl
    have hb : s.allAtBarrier := fun q => by rw [hrest q]; rfl
    have : ∃ r, s.rest r ≠ [] := by
      by_contra hc
      push Not at hc
      exact h hc
    obtain ⟨r, -⟩ := this
    refine ⟨r, fun he => ?_⟩
    have := congrArg (fun s => (s.rest r).length) he
    simp [step, hrest r, if_pos hb] at this

/-! ## Printing in order -/

/-- The segments of `print(..., in_order=True)`. -/
def printSegments (rank : ℕ) (message : α) : (i k : ℕ) → List (List (Act α))
  | _, 0 => [[]]
  | i, k + 1 => (if rank = i then [.print message] else []) :: printSegments rank message (i + 1) k

theorem printSegments_length (rank : ℕ) (message : α) (i k : ℕ) : (printSegments rank message i k).length = k + 1 := by
  induction k generalizing i with
  | zero => rfl
  | succ k ih => simp [printSegments, ih]

theorem printInOrder_segments (rank : ℕ) (message : α) (i k : ℕ) :
    printInOrderFrom rank message i k = joined (printSegments rank message i k) := by
  induction k generalizing i with
  | zero => rfl
  | succ k ih =>
    have : printSegments rank message (i + 1) k ≠ [] := by
      intro e
      have := printSegments_length rank message (i + 1) k
      rw [e] at this
      simp at this
    simp only [printInOrderFrom, printSegments, joined_cons, if_neg this, ih]
    split <;> rfl

theorem single_of_proj {t : List (Fin n × Act α)} {i : Fin n} (h : ∀ r, r ≠ i → proj r t = []) :
    t = (proj i t).map fun a => (i, a) := by
  induction t with
  | nil => rfl
  | cons x t ih =>
    obtain ⟨q, a⟩ := x
    have hq : q = i := by
      by_contra hne
      have := h q hne
      rw [proj_cons, if_pos rfl] at this
      exact nomatch this
    subst hq
    have ih := ih fun r hr => by
      have := h r hr
      rwa [proj_cons, if_neg (fun e => hr e.symm)] at this
    rw [proj_cons, if_pos rfl, List.map_cons, ← ih]

theorem drop_inOrder (message : Fin n → α) (i : ℕ) (hi : i < n) :
    (inOrder message).drop i = (⟨i, hi⟩, Act.print (message ⟨i, hi⟩)) :: (inOrder message).drop (i + 1) := by
  have hlen : i < (inOrder message).length := by simpa [inOrder] using hi
  rw [List.drop_eq_getElem_cons hlen]
  simp [inOrder]

theorem nil_of_proj {t : List (Fin n × Act α)} (h : ∀ r, proj r t = []) : t = [] := by
  cases t with
  | nil => rfl
  | cons x t =>
    obtain ⟨q, a⟩ := x
    have := h q
    rw [proj_cons, if_pos rfl] at this
    exact nomatch this

theorem InStep.ne_nil {P : Fin n → List (List (Act α))} {t : List (Fin n × Act α)} (h : InStep P t) (r : Fin n) : P r ≠ [] := by
  cases h <;> simp

theorem Complete.ne_nil {P : Fin n → List (List (Act α))} {t : List (Fin n × Act α)} (h : Complete P t) (r : Fin n) :
    P r ≠ [] := by
  cases h <;> simp

theorem no_parties (h : n = 0) (t : List (Fin n × Act α)) : t = [] := by
  cases t with
  | nil => rfl
  | cons x t => exact absurd x.1.isLt (by omega)

/-- The trace of one round of printing. -/
theorem round_print (message : Fin n → α) {t : List (Fin n × Act α)} {i : ℕ} (hi : i < n)
    (h : ∀ r : Fin n, proj r t = if r.val = i then [Act.print (message r)] else []) :
    t = [(⟨i, hi⟩, .print (message ⟨i, hi⟩))] := by
  have := single_of_proj (t := t) (i := ⟨i, hi⟩) fun r hr => by
    rw [h r, if_neg (fun e => hr (Fin.ext e))]
  rw [h ⟨i, hi⟩, if_pos rfl] at this
  exact this

theorem inStep_print (message : Fin n → α) {P : Fin n → List (List (Act α))} {t : List (Fin n × Act α)} (h : InStep P t) :
    ∀ i k, i + k = n → P = (fun r : Fin n => printSegments r (message r) i k) → t <+: (inOrder message).drop i := by
  induction h with
  | within first later t h =>
    intro i k hk hP
    have h1 : ∀ r, first r :: later r = printSegments r (message r) i k := fun r => congrFun hP r
    cases k with
    | zero =>
      have : t = [] := nil_of_proj fun r => by
        have e := h r
        have := (List.cons.inj (h1 r)).1
        rw [this] at e
        exact List.prefix_nil.mp e
      rw [this]
      exact List.nil_prefix
    | succ k =>
      have hi : i < n := by omega
      have hf : ∀ r : Fin n, first r = if r.val = i then [Act.print (message r)] else [] := fun r =>
        (List.cons.inj (h1 r)).1
      have hne : ∀ r, r ≠ ⟨i, hi⟩ → proj r t = [] := by
        intro r hr
        have e := h r
        rw [hf r, if_neg (fun e => hr (Fin.ext e))] at e
        exact List.prefix_nil.mp e
      have he := h ⟨i, hi⟩
      rw [hf, if_pos rfl] at he
      rw [single_of_proj hne, drop_inOrder message i hi]
      obtain ⟨u, hu⟩ := he
      cases hp : proj (⟨i, hi⟩ : Fin n) t with
      | nil => exact List.nil_prefix
      | cons a l =>
        rw [hp] at hu
        simp only [List.cons_append, List.cons.injEq, List.append_eq_nil_iff] at hu
        rw [hu.1, hu.2.1]
        simp
  | next first later t u h hu ih =>
    intro i k hk hP
    have h1 : ∀ r, first r :: later r = printSegments r (message r) i k := fun r => congrFun hP r
    by_cases hn : n = 0
    · rw [no_parties hn (t ++ u)]
      exact List.nil_prefix
    cases k with
    | zero => exact absurd (List.cons.inj (h1 ⟨0, by omega⟩)).2 (hu.ne_nil _)
    | succ k =>
      have hi : i < n := by omega
      rw [round_print message hi fun r => (h r).trans (List.cons.inj (h1 r)).1, drop_inOrder message i hi, List.singleton_append]
      exact (List.prefix_cons_inj _).mpr (ih (i + 1) k (by omega) (funext fun r => (List.cons.inj (h1 r)).2))

theorem complete_print (message : Fin n → α) {P : Fin n → List (List (Act α))} {t : List (Fin n × Act α)} (h : Complete P t) :
    ∀ i k, i + k = n → P = (fun r : Fin n => printSegments r (message r) i k) → t = (inOrder message).drop i := by
  induction h with
  | last first t h =>
    intro i k hk hP
    have h1 : ∀ r, [first r] = printSegments r (message r) i k := fun r => congrFun hP r
    by_cases hn : n = 0
    · rw [no_parties hn t, no_parties hn ((inOrder message).drop i)]
    cases k with
    | zero =>
      rw [nil_of_proj fun r => (h r).trans (List.cons.inj (h1 r)).1, eq_comm, List.drop_eq_nil_iff]
      simp [inOrder]
      omega
    | succ k =>
      have := congrArg List.length (h1 ⟨0, by omega⟩)
      rw [printSegments_length] at this
      simp at this
  | next first later t u h hu ih =>
    intro i k hk hP
    have h1 : ∀ r, first r :: later r = printSegments r (message r) i k := fun r => congrFun hP r
    by_cases hn : n = 0
    · rw [no_parties hn (t ++ u), no_parties hn ((inOrder message).drop i)]
    cases k with
    | zero => exact absurd (List.cons.inj (h1 ⟨0, by omega⟩)).2 (hu.ne_nil _)
    | succ k =>
      have hi : i < n := by omega
      rw [round_print message hi fun r => (h r).trans (List.cons.inj (h1 r)).1, drop_inOrder message i hi, List.singleton_append,
        ih (i + 1) k (by omega) (funext fun r => (List.cons.inj (h1 r)).2)]

/-- **C83.** `print(..., in_order=True)`: for every schedule of the parties what has been printed is the beginning of the
messages in the order of the ranks, and when everybody has returned it is all of them. -/
theorem C83_print_in_order (message : Fin n → α) (schedule : List (Fin n)) :
    (run false (start fun r : Fin n => printInOrder n r (message r)) schedule).trace <+: inOrder message ∧
    ((run false (start fun r : Fin n => printInOrder n r (message r)) schedule).finished →
      (run false (start fun r : Fin n => printInOrder n r (message r)) schedule).trace = inOrder message) := by
  have hP : (fun r : Fin n => printInOrder n r (message r)) = fun r : Fin n => joined (printSegments r (message r) 0 n) :=
    funext fun r => printInOrder_segments r (message r) 0 n
  have h := C83_in_step (fun r : Fin n => printSegments r (message r) 0 n) ⟨n, fun r => printSegments_length _ _ _ _⟩ schedule
  rw [hP]
  exact ⟨inStep_print message h.1 0 n (by omega) rfl, fun hf => complete_print message (h.2 hf) 0 n (by omega) rfl⟩

/-! ## Files -/

theorem content_append (disk : Fin n → ℕ) (d : ℕ) (p : String) (t u : List (Fin n × Act α)) :
    content disk d p (t ++ u) = (content disk d p u).or (content disk d p t) := by
  induction t with
  | nil => simp [content]
  | cons x t ih =>
    obtain ⟨r, a⟩ := x
    cases a with
    | print m => simpa [content] using ih
    | read m => simpa [content] using ih
    | write q v =>
      simp only [List.cons_append, content, ih]
      cases content disk d p u <;> simp

/-- No writing in `t`. -/
def ReadOnly (t : List (Fin n × Act α)) : Prop := ∀ x ∈ t, ∃ p, x.2 = .read p

/-- No reading in `t`. -/
def WriteOnly (t : List (Fin n × Act α)) : Prop := ∀ x ∈ t, ∃ p v, x.2 = .write p v

theorem content_readOnly (disk : Fin n → ℕ) (d : ℕ) (p : String) {t : List (Fin n × Act α)} (h : ReadOnly t) :
    content disk d p t = none := by
  induction t with
  | nil => rfl
  | cons x t ih =>
    obtain ⟨q, e⟩ := h x (by simp)
    obtain ⟨r, a⟩ := x
    simp only at e
    subst e
    simpa [content] using ih fun x hx => h x (by simp [hx])

theorem reads_writeOnly (disk : Fin n → ℕ) (r : Fin n) {t : List (Fin n × Act α)} (h : WriteOnly t) :
    ∀ before u, reads disk r before (t ++ u) = reads disk r (before ++ t) u := by
  induction t with
  | nil => simp
  | cons x t ih =>
    intro before u
    obtain ⟨p, v, e⟩ := h x (by simp)
    obtain ⟨q, a⟩ := x
    simp only at e
    subst e
    simp only [List.cons_append, reads]
    rw [ih fun x hx => h x (by simp [hx])]
    simp

theorem reads_readOnly (disk : Fin n → ℕ) (r : Fin n) (p : String) {u : List (Fin n × Act α)} (h : ReadOnly u)
    (hp : ∀ a ∈ proj r u, a = Act.read p) :
    ∀ before, reads disk r before u = (proj r u).map fun _ => content disk (disk r) p before := by
  induction u with
  | nil => intro before; rfl
  | cons x u ih =>
    intro before
    obtain ⟨p', e⟩ := h x (by simp)
    obtain ⟨q, a⟩ := x
    simp only at e
    subst e
    have hc : content disk (disk r) p (before ++ [(q, Act.read p')]) = content disk (disk r) p before := by
      rw [content_append]
      simp [content]
    simp only [reads]
    rw [ih (fun x hx => h x (by simp [hx])) (fun a ha => hp a (by
      rw [proj_cons]; split
      · exact List.mem_cons_of_mem _ ha
      · exact ha)), hc]
    rw [proj_cons]
    by_cases hq : q = r
    · subst hq
      have := hp (.read p') (by rw [proj_cons]; simp)
      injection this with this
      subst this
      simp
    · simp [hq]

/-- The contents of a file were written to it. -/
theorem content_mem (disk : Fin n → ℕ) (d : ℕ) (p : String) {t : List (Fin n × Act α)} {v : α}
    (h : content disk d p t = some v) : ∃ q, (q, Act.write p v) ∈ t ∧ disk q = d := by
  induction t with
  | nil => exact nomatch h
  | cons x t ih =>
    obtain ⟨q, a⟩ := x
    have hc : content disk d p ((q, a) :: t) = content disk d p ([(q, a)] ++ t) := rfl
    rw [hc, content_append] at h
    cases ht : content disk d p t with
    | some w =>
      rw [ht] at h
      have h : w = v := by simpa using h
      subst h
      obtain ⟨q', h1, h2⟩ := ih ht
      exact ⟨q', List.mem_cons_of_mem _ h1, h2⟩
    | none =>
      rw [ht] at h
      cases a with
      | print m => simp [content] at h
      | read m => simp [content] at h
      | write p' v' =>
        by_cases e : disk q = d ∧ p' = p
        · simp [content, e] at h
          exact ⟨q, by simp [e.2, h], e.1⟩
        · simp [content, e] at h

/-- A file that does not exist was not written. -/
theorem content_none (disk : Fin n → ℕ) (d : ℕ) (p : String) {t : List (Fin n × Act α)}
    (h : content disk d p t = none) {q : Fin n} {v : α} (hq : (q, Act.write p v) ∈ t) : disk q ≠ d := by
  obtain ⟨a, b, rfl⟩ := List.append_of_mem hq
  intro e
  rw [content_append] at h
  have hc : content disk d p ((q, Act.write p v) :: b) = content disk d p ([(q, Act.write p v)] ++ b) := rfl
  rw [hc, content_append] at h
  simp [content, e] at h

theorem inStep_one {P : Fin n → List (List (Act α))} {s : List (Fin n × Act α)} (h : InStep P s) {a : Fin n → List (Act α)}
    (hP : P = fun r => [a r]) : ∀ r, proj r s <+: a r := by
  cases h with
  | within first later _ h =>
    intro r
    rw [← (List.cons.inj (congrFun hP r)).1]
    exact h r
  | next first later t u h hu =>
    intro r
    exact absurd (List.cons.inj (congrFun hP r)).2 (hu.ne_nil r)

theorem inStep_two {P : Fin n → List (List (Act α))} {s : List (Fin n × Act α)} (h : InStep P s) {a b : Fin n → List (Act α)}
    (hP : P = fun r => [a r, b r]) : (∀ r, proj r s <+: a r) ∨
      ∃ t u, s = t ++ u ∧ (∀ r, proj r t = a r) ∧ ∀ r, proj r u <+: b r := by
  cases h with
  | within first later _ h =>
    left
    intro r
    rw [← (List.cons.inj (congrFun hP r)).1]
    exact h r
  | next first later t u h hu =>
    right
    refine ⟨t, u, rfl, fun r => ?_, inStep_one hu (funext fun r => (List.cons.inj (congrFun hP r)).2)⟩
    rw [← (List.cons.inj (congrFun hP r)).1]
    exact h r

theorem complete_one {P : Fin n → List (List (Act α))} {s : List (Fin n × Act α)} (h : Complete P s) {a : Fin n → List (Act α)}
    (hP : P = fun r => [a r]) : ∀ r, proj r s = a r := by
  cases h with
  | last first _ h =>
    intro r
    rw [← (List.cons.inj (congrFun hP r)).1]
    exact h r
  | next first later t u h hu =>
    intro r
    exact absurd (List.cons.inj (congrFun hP r)).2 (hu.ne_nil r)

theorem complete_two {P : Fin n → List (List (Act α))} {s : List (Fin n × Act α)} (h : Complete P s) {a b : Fin n → List (Act α)}
    (hP : P = fun r => [a r, b r]) : ∃ t u, s = t ++ u ∧ (∀ r, proj r t = a r) ∧ ∀ r, proj r u = b r := by
  cases h with
  | last first _ h =>
    by_cases hn : n = 0
    · exact ⟨[], [], no_parties hn _, fun r => absurd r.isLt (by omega), fun r => absurd r.isLt (by omega)⟩
    · exact absurd (List.cons.inj (congrFun hP ⟨0, by omega⟩)).2 (by simp)
  | next first later t u h hu =>
    refine ⟨t, u, rfl, fun r => ?_, complete_one hu (funext fun r => (List.cons.inj (congrFun hP r)).2)⟩
    rw [← (List.cons.inj (congrFun hP r)).1]
    exact h r

/-- Two segments: writing, then reading. -/
theorem write_then_read (disk : Fin n → ℕ) (w : Fin n → List (Act α)) (path : Fin n → String)
    (hw : ∀ r, ∀ a ∈ w r, ∃ p v, a = .write p v) (schedule : List (Fin n)) :
    (∀ r, ∀ x ∈ reads disk r [] (run false (start fun r => joined [w r, [.read (path r)]]) schedule).trace,
      ∃ t : List (Fin n × Act α), (∀ q, proj q t = w q) ∧ x = content disk (disk r) (path r) t) ∧
    ((run false (start fun r => joined [w r, [.read (path r)]]) schedule).finished →
      ∃ t : List (Fin n × Act α), (∀ q, proj q t = w q) ∧ ∀ r,
        reads disk r [] (run false (start fun r => joined [w r, [.read (path r)]]) schedule).trace =
          [content disk (disk r) (path r) t]) := by
  have h := C83_in_step (fun r => [w r, [.read (path r)]]) ⟨1, fun _ => rfl⟩ schedule
  generalize run false (start fun r => joined [w r, [.read (path r)]]) schedule = s at h
  obtain ⟨h1, h2⟩ := h
  have hwo : ∀ t : List (Fin n × Act α), (∀ q, proj q t <+: w q) → WriteOnly t := by
    intro t ht x hx
    exact hw x.1 x.2 ((ht x.1).subset (mem_proj.mpr hx))
  have hro : ∀ u : List (Fin n × Act α), (∀ q, proj q u <+: [Act.read (path q)]) → ReadOnly u := by
    intro u hu x hx
    have := (hu x.1).subset (mem_proj.mpr hx)
    exact ⟨path x.1, by simpa using this⟩
  have key : ∀ t u : List (Fin n × Act α), (∀ q, proj q t <+: w q) → (∀ q, proj q u <+: [Act.read (path q)]) → ∀ r,
      reads disk r [] (t ++ u) = (proj r u).map fun _ => content disk (disk r) (path r) t := by
    intro t u ht hu r
    rw [reads_writeOnly disk r (hwo t ht), List.nil_append, reads_readOnly disk r (path r) (hro u hu)]
    intro a ha
    have := (hu r).subset ha
    simpa using this
  constructor
  · intro r x hx
    rcases inStep_two h1 rfl with ht | ⟨t, u, e, ht, hu⟩
    · have := key s.trace [] ht (fun q => List.nil_prefix) r
      rw [List.append_nil] at this
      rw [this] at hx
      exact absurd hx (by simp [proj])
    · rw [e, key t u (fun q => by rw [ht q]) hu r] at hx
      obtain ⟨-, -, rfl⟩ := List.mem_map.mp hx
      exact ⟨t, ht, rfl⟩
  · intro hf
    obtain ⟨t, u, e, ht, hu⟩ := complete_two (h2 hf) rfl
    refine ⟨t, ht, fun r => ?_⟩
    rw [e, key t u (fun q => by rw [ht q]) (fun q => by rw [hu q]) r, hu r]
    rfl

theorem content_own (disk : Fin n → ℕ) (path : Fin n → String) (share : Fin n → α)
    (hd : ∀ r q, disk r = disk q → path r = path q → r = q) {t : List (Fin n × Act α)}
    (ht : ∀ q, proj q t = [.write (path q) (share q)]) (r : Fin n) : content disk (disk r) (path r) t = some (share r) := by
  cases hc : content disk (disk r) (path r) t with
  | none =>
    have : Act.write (path r) (share r) ∈ proj r t := by rw [ht r]; simp
    exact absurd rfl (content_none disk _ _ hc (mem_proj.mp this))
  | some v =>
    obtain ⟨q, h1, h2⟩ := content_mem disk _ _ hc
    have h3 := mem_proj.mpr h1
    rw [ht q] at h3
    simp only [List.mem_singleton, Act.write.injEq] at h3
    have := hd r q h2.symm h3.1
    subst this
    rw [h3.2]

/-- **C83 (partial).** `save` and then `load`, when no two parties write to the same file (on different machines, or with
different paths): whatever the schedule, each party reads its own share, once.  Missing: parties that share a file system and use
the same path, see `C83_shared_file_wrong`. -/
theorem C83_save_load_partial (disk : Fin n → ℕ) (path : Fin n → String) (share : Fin n → α)
    (hd : ∀ r q, disk r = disk q → path r = path q → r = q) (schedule : List (Fin n)) (r : Fin n) :
    (∀ x ∈ reads disk r [] (run false (start fun r => save (path r) (share r) ++ load (path r)) schedule).trace,
      x = some (share r)) ∧
    ((run false (start fun r => save (path r) (share r) ++ load (path r)) schedule).finished →
      reads disk r [] (run false (start fun r => save (path r) (share r) ++ load (path r)) schedule).trace = [some (share r)]) := by
  have h := write_then_read disk (fun r => [.write (path r) (share r)]) path (by simp) schedule
  constructor
  · intro x hx
    obtain ⟨t, ht, rfl⟩ := h.1 r x hx
    exact content_own disk path share hd ht r
  · intro hf
    obtain ⟨t, ht, e⟩ := h.2 hf
    rw [← content_own disk path share hd ht r]
    exact e r

/-- **C83, what fails.** Parties on one machine that save to the same path: for every schedule, once all have returned, all of them
have read the share of one and the same party. -/
theorem C83_shared_file_wrong [NeZero n] (d : ℕ) (path : String) (share : Fin n → α) (schedule : List (Fin n))
    (hf : (run false (start fun r => save path (share r) ++ load path) schedule).finished) :
    ∃ w, ∀ r, reads (fun _ => d) r [] (run false (start fun r => save path (share r) ++ load path) schedule).trace =
      [some (share w)] := by
  have h := write_then_read (fun _ => d) (fun r => [.write path (share r)]) (fun _ => path) (by simp) schedule
  obtain ⟨t, ht, e⟩ := h.2 hf
  cases hc : content (fun _ : Fin n => d) d path t with
  | none =>
    have : Act.write path (share 0) ∈ proj (0 : Fin n) t := by rw [ht 0]; simp
    exact absurd rfl (content_none _ _ _ hc (mem_proj.mp this))
  | some v =>
    obtain ⟨q, h1, -⟩ := content_mem _ _ _ hc
    have h3 := mem_proj.mpr h1
    rw [ht q] at h3
    simp only [List.mem_singleton, Act.write.injEq, true_and] at h3
    refine ⟨q, fun r => ?_⟩
    rw [← h3, ← hc]
    exact e r

/-- What is then decrypted is a multiple of one share; the value is lost. -/
theorem C83_shared_file_value_wrong {M : Type} [AddCommGroup M] (d : ℕ) (path : String) (share : Fin 2 → M) (h01 : share 0 ≠ share 1)
    (schedule : List (Fin 2)) (hf : (run false (start fun r => save path (share r) ++ load path) schedule).finished) :
    ∃ v : Fin 2 → M, (∀ r, reads (fun _ => d) r [] (run false (start fun r => save path (share r) ++ load path) schedule).trace =
      [some (v r)]) ∧ v 0 + v 1 ≠ share 0 + share 1 := by
  obtain ⟨w, hw⟩ := C83_shared_file_wrong d path share schedule hf
  refine ⟨fun _ => share w, hw, fun e => ?_⟩
  obtain rfl | rfl : w = 0 ∨ w = 1 := by omega
  · exact h01 (add_left_cancel e)
  · exact h01 (add_right_cancel e).symm

/-- **C83.** `save_from_party` and then `load`: whatever the schedule, parties that see the file system of the source read what it
has written; parties on other machines find no file. -/
theorem C83_save_from_party (disk : Fin n → ℕ) (path : String) (src : Fin n) (value : Fin n → α) (schedule : List (Fin n))
    (r : Fin n) :
    (∀ x ∈ reads disk r [] (run false (start fun r => saveFromParty src r path (value r) ++ load path) schedule).trace,
      x = if disk r = disk src then some (value src) else none) ∧
    ((run false (start fun r => saveFromParty src r path (value r) ++ load path) schedule).finished →
      reads disk r [] (run false (start fun r => saveFromParty src r path (value r) ++ load path) schedule).trace =
        [if disk r = disk src then some (value src) else none]) := by
  have hprog : (fun r : Fin n => saveFromParty src r path (value r) ++ load path) =
      fun r => joined [if r = src then [.write path (value r)] else [], [.read path]] := by
    funext r
    by_cases e : r = src
    · simp [saveFromParty, load, joined, e]
    · have : ¬(r : ℕ) = src := fun h => e (Fin.ext h)
      simp [saveFromParty, load, joined, e, this]
  rw [hprog]
  have h := write_then_read disk (fun r => if r = src then [.write path (value r)] else []) (fun _ => path)
    (by intro r a ha; split at ha <;> simp at ha; exact ⟨_, _, ha⟩) schedule
  have hc : ∀ t : List (Fin n × Act α), (∀ q, proj q t = if q = src then [.write path (value q)] else []) →
      content disk (disk r) path t = if disk r = disk src then some (value src) else none := by
    intro t ht
    have hw : (src, Act.write path (value src)) ∈ t := mem_proj.mp (by rw [ht src, if_pos rfl]; simp)
    cases hc : content disk (disk r) path t with
    | none => rw [if_neg (fun e => content_none disk _ _ hc hw e.symm)]
    | some v =>
      obtain ⟨q, h1, h2⟩ := content_mem disk _ _ hc
      have h3 := mem_proj.mpr h1
      rw [ht q] at h3
      split at h3
      · next e =>
        subst e
        simp only [List.mem_singleton, Act.write.injEq, true_and] at h3
        rw [if_pos h2.symm, h3]
      · simp at h3
  constructor
  · intro x hx
    obtain ⟨t, ht, rfl⟩ := h.1 r x hx
    exact hc t ht
  · intro hf
    obtain ⟨t, ht, e⟩ := h.2 hf
    rw [← hc t ht]
    exact e r

/-- **C83, what fails.** If writing the file fails at the source, its call ends with the exception before the barrier, and all other
parties wait for ever, whatever they were to do next. -/
theorem C83_failed_save_wrong (path : String) (src : Fin n) (value : Fin n → α) (next : Fin n → List (Item α))
    (schedule : List (Fin n)) :
    let s := run false (start fun r => if r = src then saveFailed else saveFromParty src r path (value r) ++ next r) schedule
    s.trace = [] ∧ ∀ r, r ≠ src → s.rest r = .barrier :: next r := by
  intro s
  have key : ∀ (schedule : List (Fin n)) (s₀ : State n α), s₀.rest src = [] → (∀ r, r ≠ src → s₀.rest r = .barrier :: next r) →
      run false s₀ schedule = s₀ := by
    intro schedule
    induction schedule with
    | nil => intro s₀ _ _; rfl
    | cons r schedule ih =>
      intro s₀ h1 h2
      have hs : step false s₀ r = s₀ := by
        by_cases e : r = src
        · rw [step, e, h1]
        · have hb : ¬s₀.allAtBarrier := fun hb => by
            have := hb src
            rw [h1] at this
            exact nomatch this
          simp [step, h2 r e, if_neg hb]
      show run false (step false s₀ r) schedule = s₀
      rw [hs]
      exact ih s₀ h1 h2
  have h2 : ∀ r, r ≠ src → (start fun r => if r = src then saveFailed else saveFromParty src r path (value r) ++ next r).rest r
      = .barrier :: next r := by
    intro r hr
    have : ¬(r : ℕ) = src := fun h => hr (Fin.ext h)
    simp [start, hr, saveFromParty, this]
  have := key schedule (start fun r => if r = src then saveFailed else saveFromParty src r path (value r) ++ next r)
    (by simp [start, saveFailed]) h2
  show (run false _ schedule).trace = [] ∧ ∀ r, r ≠ src → (run false _ schedule).rest r = _
  rw [this]
  exact ⟨rfl, h2⟩

/-- Where a party is that prints in order in a thread. -/
def ThreadAt (message : Fin n → α) (s : State n α) (r : Fin n) : Prop :=
  (s.rest r = printInOrder n r (message r) ∧ s.raised r = false ∧ proj r s.trace = []) ∨
  (r.val = 0 ∧ (∃ l, s.rest r = .barrier :: l) ∧ s.raised r = false ∧ proj r s.trace = [.print (message r)]) ∨
  (s.rest r = [] ∧ s.raised r = true ∧ proj r s.trace = if r.val = 0 then [.print (message r)] else [])

theorem threadAt_step (message : Fin n → α) (s : State n α) (h : ∀ r, ThreadAt message s r) (q : Fin n) :
    ∀ r, ThreadAt message (step true s q) r := by
  intro r
  have hn : 0 < n := q.pos
  obtain ⟨m, rfl⟩ : ∃ m, n = m + 1 := ⟨n - 1, by omega⟩
  by_cases hq : q = r
  · subst hq
    rcases h q with ⟨h1, h2, h3⟩ | ⟨h0, ⟨l, h1⟩, h2, h3⟩ | ⟨h1, h2, h3⟩
    · by_cases h0 : q.val = 0
      · have h1 : s.rest q = .act (.print (message q)) :: .barrier :: printInOrderFrom q (message q) 1 m := by
          rw [h1, printInOrder, printInOrderFrom, if_pos h0]; rfl
        right; left
        refine ⟨h0, ⟨printInOrderFrom q (message q) 1 m, ?_⟩, ?_, ?_⟩
        · simp [step, h1]
        · simp [step, h1, h2]
        · simp [step, h1, proj_append, h3, proj_cons]
          rfl
      · have h1 : s.rest q = .barrier :: printInOrderFrom q (message q) 1 m := by
          rw [h1, printInOrder, printInOrderFrom, if_neg h0]; rfl
        right; right
        refine ⟨?_, ?_, ?_⟩
        · simp [step, h1]
        · simp [step, h1]
        · simp [step, h1, h3, h0]
    · right; right
      refine ⟨?_, ?_, ?_⟩
      · simp [step, h1]
      · simp [step, h1]
      · simp [step, h1, h3, h0]
    · right; right
      have : step true s q = s := by simp [step, h1]
      rw [this]
      exact ⟨h1, h2, h3⟩
  · have hr : (step true s q).rest r = s.rest r ∧ (step true s q).raised r = s.raised r ∧
        proj r (step true s q).trace = proj r s.trace := by
      unfold step
      split
      · exact ⟨rfl, rfl, rfl⟩
      · have : r ≠ q := fun e => hq e.symm
        simp [this, proj_append, proj_cons, hq]
        rfl
      · have : r ≠ q := fun e => hq e.symm
        simp [this]
    unfold ThreadAt
    rw [hr.1, hr.2.1, hr.2.2]
    exact h r

theorem threadAt_run (message : Fin n → α) (schedule : List (Fin n)) : ∀ (s : State n α), (∀ r, ThreadAt message s r) →
    ∀ r, ThreadAt message (run true s schedule) r := by
  induction schedule with
  | nil => intro s h; exact h
  | cons q schedule ih => intro s h; exact ih _ (threadAt_step message s h q)

/-- **C83, what fails.** In threads of one process `barrier` cannot be called: for every schedule, once all parties have stopped,
all have raised an exception, and only party 0 has printed. -/
theorem C83_threads_wrong [NeZero n] (message : Fin n → α) (schedule : List (Fin n))
    (hf : (run true (start fun r : Fin n => printInOrder n r (message r)) schedule).finished) :
    (∀ r, (run true (start fun r : Fin n => printInOrder n r (message r)) schedule).raised r = true) ∧
    (run true (start fun r : Fin n => printInOrder n r (message r)) schedule).trace = [(0, .print (message 0))] := by
  have h := threadAt_run message schedule (start fun r : Fin n => printInOrder n r (message r)) fun r => .inl ⟨rfl, rfl, rfl⟩
  generalize run true (start fun r : Fin n => printInOrder n r (message r)) schedule = s at h hf
  have hn : 0 < n := (0 : Fin n).pos
  have key : ∀ r, s.raised r = true ∧ proj r s.trace = if r.val = 0 then [.print (message r)] else [] := by
    intro r
    rcases h r with ⟨h1, -, -⟩ | ⟨-, ⟨l, h1⟩, -, -⟩ | ⟨-, h2, h3⟩
    · rw [hf r] at h1
      obtain ⟨m, rfl⟩ : ∃ m, n = m + 1 := ⟨n - 1, by omega⟩
      simp [printInOrder, printInOrderFrom] at h1
    · rw [hf r] at h1
      exact nomatch h1
    · exact ⟨h2, h3⟩
  refine ⟨fun r => (key r).1, ?_⟩
  have := single_of_proj (t := s.trace) (i := 0) fun r hr => by
    rw [(key r).2, if_neg (fun e => hr (Fin.ext (by simpa using e)))]
  rw [(key 0).2, if_pos (by simp)] at this
  exact this

/-- **C83.** `print(..., dst=dst)` prints once at each party of `dst` and nowhere else, for every schedule; it needs no barrier. -/
theorem C83_print_dst (dst : List ℕ) (message : Fin n → α) (schedule : List (Fin n)) (r : Fin n) :
    proj r (run false (start fun r : Fin n => printDst dst r (message r)) schedule).trace <+:
      (if r.val ∈ dst then [.print (message r)] else []) ∧
    ((run false (start fun r : Fin n => printDst dst r (message r)) schedule).finished →
      proj r (run false (start fun r : Fin n => printDst dst r (message r)) schedule).trace =
        if r.val ∈ dst then [.print (message r)] else []) := by
  have hP : (fun r : Fin n => printDst dst r (message r)) =
      fun r : Fin n => joined [if r.val ∈ dst then [.print (message r)] else []] := by
    funext r
    by_cases h : r.val ∈ dst <;> simp [printDst, joined, h]
  rw [hP]
  have h := C83_in_step (fun r : Fin n => [if r.val ∈ dst then [.print (message r)] else []]) ⟨0, fun _ => rfl⟩ schedule
  exact ⟨inStep_one h.1 rfl r, fun hf => complete_one (h.2 hf) rfl r⟩

/-! ## Examples -/

/-- Two parties print in order, whichever of them is faster. -/
example : (run false (start fun r : Fin 2 => printInOrder 2 r (r.val + 5)) [1, 1, 0, 1, 0, 1, 1, 0]).trace =
    [(0, .print 5), (1, .print 6)] ∧
    (run false (start fun r : Fin 2 => printInOrder 2 r (r.val + 5)) [1, 1, 0, 1, 0, 1, 1, 0]).finished := by
  simp [run, step, start, printInOrder, printInOrderFrom, State.allAtBarrier, State.finished, Fin.forall_fin_two]

/-- In threads. -/
example : (run true (start fun r : Fin 2 => printInOrder 2 r (r.val + 5)) [1, 1, 0, 1, 0]).finished := by
  simp [run, step, start, printInOrder, printInOrderFrom, State.finished, Fin.forall_fin_two]

/-- Two parties finish `save` and `load` on one machine: both have read the share that was written last. -/
example : (run false (start fun r : Fin 2 => save "f" (r.val + 5) ++ load "f") [0, 0, 1, 0, 0, 1]).finished ∧
    ∀ r, reads (fun _ => 0) r [] (run false (start fun r : Fin 2 => save "f" (r.val + 5) ++ load "f") [0, 0, 1, 0, 0, 1]).trace =
      [some 6] := by
  simp [run, step, start, save, load, State.allAtBarrier, State.finished, Fin.forall_fin_two, reads, content]

/-- Different machines, or different paths on one machine. -/
example : (∀ r q : Fin 2, r.val = q.val → "f" = "f" → r = q) ∧
    (∀ r q : Fin 2, (0 : ℕ) = 0 → (if r = 0 then "f" else "g") = (if q = 0 then "f" else "g") → r = q) := by
  constructor
  · intro r q h _; exact Fin.ext h
  · decide

/-- Programs with two barriers. -/
example : SameLength (n := 2) (fun r => [[Act.print r.val], [], [.read "f"]]) := ⟨2, fun _ => rfl⟩

end CrypTen.Files

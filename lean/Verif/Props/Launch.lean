import Verif.Spec.Launch
import Mathlib.Algebra.Order.BigOperators.Group.Finset

/-!
# C71: launching parties returns their values in the order of their ranks
-/

namespace CrypTen.Launch
variable {n : ℕ} {V : Type} {outcome : Fin n → Outcome V} {maxsize cap : ℕ}

/-- Bytes of the message that are in the pipe. -/
def written (o : Outcome V) : Phase → ℕ
  | .writing left => o.bytes - left
  | .flushed => o.bytes
  | .exited true => o.bytes
  | _ => 0

/-- Whether the process has taken the semaphore. -/
def taken : Phase → ℕ
  | .running => 0
  | .putting => 0
  | .exited false => 0
  | _ => 1

/-- A bound for the steps that the process still has to make. -/
def todo (o : Outcome V) : Phase → ℕ
  | .running => 5 + o.bytes
  | .putting => 4 + o.bytes
  | .waiting => 3 + o.bytes
  | .writing left => 2 + left
  | .flushed => 1
  | .exited _ => 0

section
variable (o : Outcome V) (l : ℕ)
@[simp] lemma written_running : written o .running = 0 := rfl
@[simp] lemma written_putting : written o .putting = 0 := rfl
@[simp] lemma written_waiting : written o .waiting = 0 := rfl
@[simp] lemma written_writing : written o (.writing l) = o.bytes - l := rfl
@[simp] lemma written_flushed : written o .flushed = o.bytes := rfl
@[simp] lemma written_true : written o (.exited true) = o.bytes := rfl
@[simp] lemma written_false : written o (.exited false) = 0 := rfl
@[simp] lemma taken_running : taken .running = 0 := rfl
@[simp] lemma taken_putting : taken .putting = 0 := rfl
@[simp] lemma taken_waiting : taken .waiting = 1 := rfl
@[simp] lemma taken_writing : taken (.writing l) = 1 := rfl
@[simp] lemma taken_flushed : taken .flushed = 1 := rfl
@[simp] lemma taken_true : taken (.exited true) = 1 := rfl
@[simp] lemma taken_false : taken (.exited false) = 0 := rfl
@[simp] lemma todo_running : todo o .running = 5 + o.bytes := rfl
@[simp] lemma todo_putting : todo o .putting = 4 + o.bytes := rfl
@[simp] lemma todo_waiting : todo o .waiting = 3 + o.bytes := rfl
@[simp] lemma todo_writing : todo o (.writing l) = 2 + l := rfl
@[simp] lemma todo_flushed : todo o .flushed = 1 := rfl
@[simp] lemma todo_exited (b : Bool) : todo o (.exited b) = 0 := rfl
end

lemma sum_update (f : Fin n → Phase → ℕ) (ph : Fin n → Phase) (p : Fin n) (x : Phase) :
    ∑ q, f q (Function.update ph p x q) + f p (ph p) = ∑ q, f q (ph q) + f p x := by
  have h1 := Finset.add_sum_erase Finset.univ (fun q => f q (Function.update ph p x q)) (Finset.mem_univ p)
  have h2 := Finset.add_sum_erase Finset.univ (fun q => f q (ph q)) (Finset.mem_univ p)
  have h3 : ∑ q ∈ Finset.univ.erase p, f q (Function.update ph p x q) = ∑ q ∈ Finset.univ.erase p, f q (ph q) :=
    Finset.sum_congr rfl fun q hq => by rw [Function.update_of_ne (Finset.ne_of_mem_erase hq)]
  simp only [Function.update_self] at h1
  omega

/-- What holds in every state. -/
structure Inv (outcome : Fin n → Outcome V) (s : State n V) : Prop where
  used : s.used = ∑ p, written (outcome p) (s.phase p)
  items : s.items = ∑ p, taken (s.phase p)
  sends : ∀ p, (s.phase p = .waiting ∨ ∃ left, s.phase p = .writing left) → ∃ v size, outcome p = .returns v size
  left : ∀ p left, s.phase p = .writing left → left ≤ (outcome p).bytes
  one : ∀ p q a b, s.phase p = .writing a → s.phase q = .writing b → p = q
  nodup : (s.pipe.map Prod.fst).Nodup
  mem : ∀ p v, (p, v) ∈ s.pipe ↔ (s.phase p = .flushed ∨ s.phase p = .exited true) ∧ (outcome p).value? = some v
  failed : ∀ p, s.phase p = .exited false → outcome p = .raises
  fine : ∀ p, s.phase p ≠ .running → s.phase p ≠ .exited false → outcome p ≠ .raises

lemma inv_init : Inv outcome (init : State n V) where
  used := by simp [init, written]
  items := by simp [init, taken]
  sends := by simp [init]
  left := by simp [init]
  one := by simp [init]
  nodup := by simp [init]
  mem := by simp [init]
  failed := by simp [init]
  fine := by simp [init]

/-- A step of process `p` from phase to phase, in terms of the phases only. -/
lemma inv_step {s t : State n V} (h : Inv outcome s) (hs : Step outcome maxsize cap s t) : Inv outcome t := by
  cases hs with
  | finish p hp ho =>
    have hu := sum_update (fun q => written (outcome q)) s.phase p .putting
    have hi := sum_update (fun _ => taken) s.phase p .putting
    simp only [hp, written_running, written_putting, written_waiting, written_writing, written_flushed, written_true, written_false, taken_running, taken_putting, taken_waiting, taken_writing, taken_flushed, taken_true, taken_false] at hu hi
    refine ⟨by simp only [h.used]; omega, by simp only [h.items]; omega, fun q hq => ?_, fun q l hq => ?_, fun q r a b hq hr => ?_, h.nodup, fun q v => ?_, fun q hq => ?_, fun q h1 h2 => ?_⟩ <;>
      simp only [Function.update_apply] at *
    · split_ifs at hq
      · simp at hq
      · exact h.sends q hq
    · split_ifs at hq
      exact h.left q l hq
    · split_ifs at hq hr
      exact h.one q r a b hq hr
    · rw [h.mem]
      by_cases e : q = p
      · subst e; simp [hp]
      · simp [e]
    · split_ifs at hq
      exact h.failed q hq
    · split_ifs at h1 h2 with e
      · subst e; exact ho
      · exact h.fine q h1 h2
  | fail p hp ho =>
    have hu := sum_update (fun q => written (outcome q)) s.phase p (.exited false)
    have hi := sum_update (fun _ => taken) s.phase p (.exited false)
    simp only [hp, written_running, written_putting, written_waiting, written_writing, written_flushed, written_true, written_false, taken_running, taken_putting, taken_waiting, taken_writing, taken_flushed, taken_true, taken_false] at hu hi
    refine ⟨by simp only [h.used]; omega, by simp only [h.items]; omega, fun q hq => ?_, fun q l hq => ?_, fun q r a b hq hr => ?_, h.nodup, fun q v => ?_, fun q hq => ?_, fun q h1 h2 => ?_⟩ <;>
      simp only [Function.update_apply] at *
    · split_ifs at hq
      · simp at hq
      · exact h.sends q hq
    · split_ifs at hq
      exact h.left q l hq
    · split_ifs at hq hr
      exact h.one q r a b hq hr
    · rw [h.mem]
      by_cases e : q = p
      · subst e; simp [hp]
      · simp [e]
    · split_ifs at hq with e
      · subst e; exact ho
      · exact h.failed q hq
    · split_ifs at h1 h2 with e
      · simp at h2
      · exact h.fine q h1 h2
  | put p hp hm v size ho =>
    have hu := sum_update (fun q => written (outcome q)) s.phase p .waiting
    have hi := sum_update (fun _ => taken) s.phase p .waiting
    simp only [hp, written_running, written_putting, written_waiting, written_writing, written_flushed, written_true, written_false, taken_running, taken_putting, taken_waiting, taken_writing, taken_flushed, taken_true, taken_false] at hu hi
    refine ⟨by simp only [h.used]; omega, by simp only [h.items]; omega, fun q hq => ?_, fun q l hq => ?_, fun q r a b hq hr => ?_, h.nodup, fun q v => ?_, fun q hq => ?_, fun q h1 h2 => ?_⟩ <;>
      simp only [Function.update_apply] at *
    · split_ifs at hq with e
      · subst e; exact ⟨v, size, ho⟩
      · exact h.sends q hq
    · split_ifs at hq
      exact h.left q l hq
    · split_ifs at hq hr
      exact h.one q r a b hq hr
    · rw [h.mem]
      by_cases e : q = p
      · subst e; simp [hp]
      · simp [e]
    · split_ifs at hq
      exact h.failed q hq
    · split_ifs at h1 h2 with e
      · subst e; rw [ho]; simp
      · exact h.fine q h1 h2
  | drop p hp hm ho =>
    have hu := sum_update (fun q => written (outcome q)) s.phase p .flushed
    have hi := sum_update (fun _ => taken) s.phase p .flushed
    simp only [hp, written_running, written_putting, written_waiting, written_writing, written_flushed, written_true, written_false, taken_running, taken_putting, taken_waiting, taken_writing, taken_flushed, taken_true, taken_false] at hu hi
    rw [ho] at hu
    simp only [Outcome.bytes] at hu
    refine ⟨by simp only [h.used]; omega, by simp only [h.items]; omega, fun q hq => ?_, fun q l hq => ?_, fun q r a b hq hr => ?_, h.nodup, fun q v => ?_, fun q hq => ?_, fun q h1 h2 => ?_⟩ <;>
      simp only [Function.update_apply] at *
    · split_ifs at hq with e
      · simp at hq
      · exact h.sends q hq
    · split_ifs at hq
      exact h.left q l hq
    · split_ifs at hq hr
      exact h.one q r a b hq hr
    · rw [h.mem]
      by_cases e : q = p
      · subst e; simp [hp, ho, Outcome.value?]
      · simp [e]
    · split_ifs at hq
      exact h.failed q hq
    · split_ifs at h1 h2 with e
      · subst e; rw [ho]; simp
      · exact h.fine q h1 h2
  | lock p hp hl v size ho =>
    have hu := sum_update (fun q => written (outcome q)) s.phase p (.writing size)
    have hi := sum_update (fun _ => taken) s.phase p (.writing size)
    simp only [hp, written_running, written_putting, written_waiting, written_writing, written_flushed, written_true, written_false, taken_running, taken_putting, taken_waiting, taken_writing, taken_flushed, taken_true, taken_false] at hu hi
    rw [ho] at hu
    simp only [Outcome.bytes] at hu
    refine ⟨by simp only [h.used]; omega, by simp only [h.items]; omega, fun q hq => ?_, fun q l hq => ?_, fun q r a b hq hr => ?_, h.nodup, fun q v => ?_, fun q hq => ?_, fun q h1 h2 => ?_⟩ <;>
      simp only [Function.update_apply] at *
    · split_ifs at hq with e
      · subst e; exact ⟨v, size, ho⟩
      · exact h.sends q hq
    · split_ifs at hq with e
      · subst e
        simp only [Phase.writing.injEq] at hq
        rw [ho, ← hq]
        exact le_refl _
      · exact h.left q l hq
    · split_ifs at hq hr with e1 e2 e2
      · rw [e1, e2]
      · exact absurd hr (hl r b)
      · exact absurd hq (hl q a)
      · exact h.one q r a b hq hr
    · rw [h.mem]
      by_cases e : q = p
      · subst e; simp [hp]
      · simp [e]
    · split_ifs at hq
      exact h.failed q hq
    · split_ifs at h1 h2 with e
      · subst e; rw [ho]; simp
      · exact h.fine q h1 h2
  | write p l k hp hk hkl hc =>
    have hu := sum_update (fun q => written (outcome q)) s.phase p (.writing (l - k))
    have hi := sum_update (fun _ => taken) s.phase p (.writing (l - k))
    have hle := h.left p l hp
    simp only [hp, written_running, written_putting, written_waiting, written_writing, written_flushed, written_true, written_false, taken_running, taken_putting, taken_waiting, taken_writing, taken_flushed, taken_true, taken_false] at hu hi
    refine ⟨by simp only [h.used]; omega, by simp only [h.items]; omega, fun q hq => ?_, fun q l' hq => ?_, fun q r a b hq hr => ?_, h.nodup, fun q v => ?_, fun q hq => ?_, fun q h1 h2 => ?_⟩ <;>
      simp only [Function.update_apply] at *
    · split_ifs at hq with e
      · subst e; exact h.sends q (.inr ⟨l, hp⟩)
      · exact h.sends q hq
    · split_ifs at hq with e
      · subst e
        simp only [Phase.writing.injEq] at hq
        omega
      · exact h.left q l' hq
    · split_ifs at hq hr with e1 e2 e2
      · rw [e1, e2]
      · rw [e1]; exact h.one p r l b hp hr
      · rw [e2]; exact h.one q p a l hq hp
      · exact h.one q r a b hq hr
    · rw [h.mem]
      by_cases e : q = p
      · subst e; simp [hp]
      · simp [e]
    · split_ifs at hq
      exact h.failed q hq
    · split_ifs at h1 h2 with e
      · subst e; exact h.fine q (by simp [hp]) (by simp [hp])
      · exact h.fine q h1 h2
  | unlock p hp v size ho =>
    have hu := sum_update (fun q => written (outcome q)) s.phase p .flushed
    have hi := sum_update (fun _ => taken) s.phase p .flushed
    simp only [hp, written_running, written_putting, written_waiting, written_writing, written_flushed, written_true, written_false, taken_running, taken_putting, taken_waiting, taken_writing, taken_flushed, taken_true, taken_false] at hu hi
    refine ⟨by simp only [h.used]; omega, by simp only [h.items]; omega, fun q hq => ?_, fun q l hq => ?_, fun q r a b hq hr => ?_, ?_, fun q w => ?_, fun q hq => ?_, fun q h1 h2 => ?_⟩ <;>
      simp only [Function.update_apply] at *
    · split_ifs at hq with e
      · simp at hq
      · exact h.sends q hq
    · split_ifs at hq
      exact h.left q l hq
    · split_ifs at hq hr
      exact h.one q r a b hq hr
    · rw [List.map_append, List.nodup_append]
      refine ⟨h.nodup, by simp, ?_⟩
      rintro a ha b hb rfl
      obtain ⟨⟨a, w⟩, hx, rfl⟩ := List.mem_map.1 ha
      simp only [List.map_cons, List.map_nil, List.mem_singleton] at hb
      subst hb
      have := ((h.mem a w).1 hx).1
      simp [hp] at this
    · rw [List.mem_append, h.mem]
      by_cases e : q = p
      · subst e
        simp only [hp, ho, Outcome.value?, List.mem_singleton, Prod.mk.injEq, true_and, if_true, Option.some.injEq]
        simp [eq_comm]
      · simp [e]
    · split_ifs at hq
      exact h.failed q hq
    · split_ifs at h1 h2 with e
      · subst e; rw [ho]; simp
      · exact h.fine q h1 h2
  | exit p hp =>
    have hu := sum_update (fun q => written (outcome q)) s.phase p (.exited true)
    have hi := sum_update (fun _ => taken) s.phase p (.exited true)
    simp only [hp, written_running, written_putting, written_waiting, written_writing, written_flushed, written_true, written_false, taken_running, taken_putting, taken_waiting, taken_writing, taken_flushed, taken_true, taken_false] at hu hi
    refine ⟨by simp only [h.used]; omega, by simp only [h.items]; omega, fun q hq => ?_, fun q l hq => ?_, fun q r a b hq hr => ?_, h.nodup, fun q v => ?_, fun q hq => ?_, fun q h1 h2 => ?_⟩ <;>
      simp only [Function.update_apply] at *
    · split_ifs at hq
      · simp at hq
      · exact h.sends q hq
    · split_ifs at hq
      exact h.left q l hq
    · split_ifs at hq hr
      exact h.one q r a b hq hr
    · rw [h.mem]
      by_cases e : q = p
      · subst e; simp [hp]
      · simp [e]
    · split_ifs at hq with e
      · simp at hq
      · exact h.failed q hq
    · split_ifs at h1 h2 with e
      · subst e; exact h.fine q (by simp [hp]) (by simp [hp])
      · exact h.fine q h1 h2

lemma inv_after {k : ℕ} {s : State n V} (h : After outcome maxsize cap k s) : Inv outcome s := by
  induction h with
  | start => exact inv_init
  | step _ hs ih => exact inv_step ih hs

/-- Every step leaves fewer steps to do. -/
lemma todo_step {s t : State n V} (h : Inv outcome s) (hs : Step outcome maxsize cap s t) :
    ∑ p, todo (outcome p) (t.phase p) + 1 ≤ ∑ p, todo (outcome p) (s.phase p) := by
  cases hs with
  | finish p hp ho =>
    have := sum_update (fun q => todo (outcome q)) s.phase p .putting
    simp only [hp, todo_running, todo_putting, todo_waiting, todo_writing, todo_flushed, todo_exited] at this ⊢; omega
  | fail p hp ho =>
    have := sum_update (fun q => todo (outcome q)) s.phase p (.exited false)
    simp only [hp, todo_running, todo_putting, todo_waiting, todo_writing, todo_flushed, todo_exited] at this ⊢; omega
  | put p hp hm v size ho =>
    have := sum_update (fun q => todo (outcome q)) s.phase p .waiting
    simp only [hp, todo_running, todo_putting, todo_waiting, todo_writing, todo_flushed, todo_exited] at this ⊢; omega
  | drop p hp hm ho =>
    have := sum_update (fun q => todo (outcome q)) s.phase p .flushed
    simp only [hp, todo_running, todo_putting, todo_waiting, todo_writing, todo_flushed, todo_exited] at this ⊢; omega
  | lock p hp hl v size ho =>
    have := sum_update (fun q => todo (outcome q)) s.phase p (.writing size)
    simp only [hp, todo_running, todo_putting, todo_waiting, todo_writing, todo_flushed, todo_exited] at this ⊢
    rw [ho] at this
    simp only [Outcome.bytes] at this
    omega
  | write p l k hp hk hkl hc =>
    have := sum_update (fun q => todo (outcome q)) s.phase p (.writing (l - k))
    simp only [hp, todo_running, todo_putting, todo_waiting, todo_writing, todo_flushed, todo_exited] at this ⊢; omega
  | unlock p hp v size ho =>
    have := sum_update (fun q => todo (outcome q)) s.phase p .flushed
    simp only [hp, todo_running, todo_putting, todo_waiting, todo_writing, todo_flushed, todo_exited] at this ⊢; omega
  | exit p hp =>
    have := sum_update (fun q => todo (outcome q)) s.phase p (.exited true)
    simp only [hp, todo_running, todo_putting, todo_waiting, todo_writing, todo_flushed, todo_exited] at this ⊢; omega

lemma after_bound {k : ℕ} {s : State n V} (h : After outcome maxsize cap k s) : k + ∑ p, todo (outcome p) (s.phase p) ≤ ∑ p, (5 + (outcome p).bytes) := by
  induction h with
  | start => simp [init, todo]
  | step ha hs ih =>
    have := todo_step (inv_after ha) hs
    omega

lemma used_le {k : ℕ} {s : State n V} (h : After outcome maxsize cap k s) : s.used ≤ cap := by
  induction h with
  | start => simp [init]
  | step ha hs ih => cases hs <;> simp only [] <;> assumption

lemma items_le {k : ℕ} {s : State n V} (h : After outcome maxsize cap k s) : maxsize = 0 ∨ s.items ≤ maxsize := by
  induction h with
  | start => simp [init]
  | step ha hs ih =>
    cases hs with
    | put _ _ hm => simp only []; omega
    | drop _ _ hm => simp only []; omega
    | _ => exact ih

/-- When all processes have ended, all messages are in the pipe. -/
lemma joined_phase {k : ℕ} {s : State n V} (h : After outcome maxsize cap k s) (hj : Joined s) (p : Fin n) : s.phase p = .exited (!(outcome p).fails) := by
  have hi := inv_after h
  obtain ⟨ok, hok⟩ := hj p
  cases ok with
  | false => rw [hok, hi.failed p hok]; rfl
  | true =>
    have := hi.fine p (by simp [hok]) (by simp [hok])
    rw [hok]
    cases ho : outcome p <;> simp_all [Outcome.fails]

/-- **C71.** Whatever the order in which the processes run, put their values and write them, and however the writes are cut into pieces: when the launch returns, it returns `None` if a process raised, and else
the values that the processes returned, in the order of their ranks. -/
theorem C71_result {k : ℕ} {s : State n V} (h : After outcome maxsize cap k s) (hj : Joined s) : result s = expected outcome := by
  have hi := inv_after h
  have hph := joined_phase h hj
  unfold result expected
  by_cases hf : ∃ p, (outcome p).fails
  · rw [if_pos hf, if_neg]
    intro hall
    obtain ⟨p, hp⟩ := hf
    have := hph p
    rw [hall p, hp] at this
    simp at this
  · have hall : ∀ p, s.phase p = .exited true := fun p => by
      rw [hph p]
      have : (outcome p).fails ≠ true := fun e => hf ⟨p, e⟩
      simp [this]
    rw [if_neg hf, if_pos hall]
    congr 1
    -- both lists are sorted by rank and have the same members
    set r : Fin n × V → Fin n × V → Prop := fun a b => a.1 ≤ b.1
    have hperm := List.perm_insertionSort r s.pipe
    set l := s.pipe.insertionSort r with hl
    set e : List (Fin n × V) := (List.finRange n).filterMap fun p => (outcome p).value?.map (Prod.mk p) with he
    have hle : l = e := by
      have hsl : (l.map Prod.fst).Pairwise (· ≤ ·) := by
        rw [List.pairwise_map]
        exact List.pairwise_insertionSort r s.pipe
      have hnl : (l.map Prod.fst).Nodup := (hperm.map Prod.fst).nodup_iff.2 hi.nodup
      have hstrict : l.Pairwise fun a b => a.1 < b.1 := by
        rw [List.pairwise_map] at hsl
        have := List.pairwise_map.1 hnl
        exact (hsl.and this).imp fun {a b} h => lt_of_le_of_ne h.1 h.2
      have hstrict' : e.Pairwise fun a b => a.1 < b.1 := by
        rw [he, List.pairwise_filterMap]
        refine (List.pairwise_lt_finRange n).imp fun {a b} hab x hx y hy => ?_
        simp only [Option.map_eq_some_iff] at hx hy
        obtain ⟨_, -, rfl⟩ := hx
        obtain ⟨_, -, rfl⟩ := hy
        exact hab
      refine List.Perm.eq_of_pairwise (le := fun a b => a.1 < b.1) (fun a b _ _ h1 h2 => absurd h1 (not_lt.2 h2.le)) hstrict hstrict' ?_
      refine (List.perm_ext_iff_of_nodup ?_ ?_).2 ?_
      · exact hstrict.imp fun {a b} h e => absurd h (by rw [e]; exact lt_irrefl _)
      · exact hstrict'.imp fun {a b} h e => absurd h (by rw [e]; exact lt_irrefl _)
      · rintro ⟨p, v⟩
        rw [hperm.mem_iff, hi.mem, he, List.mem_filterMap]
        constructor
        · rintro ⟨-, h⟩
          exact ⟨p, List.mem_finRange p, by rw [h]; rfl⟩
        · rintro ⟨q, -, h⟩
          simp only [Option.map_eq_some_iff, Prod.mk.injEq] at h
          obtain ⟨w, hw, rfl, rfl⟩ := h
          exact ⟨.inr (hall q), hw⟩
    rw [hle, he, List.map_filterMap]
    congr 1
    funext p
    cases (outcome p).value? <;> rfl

/-- **C71.** No launch runs for ever: there is a bound for the number of steps. -/
theorem C71_terminates {k : ℕ} {s : State n V} (h : After outcome maxsize cap k s) : k ≤ ∑ p, (5 + (outcome p).bytes) :=
  le_trans (Nat.le_add_right _ _) (after_bound h)

/-- **C71 (partial).** A launch does not get stuck: as long as not all processes have ended, one can go on. Proved for values that fit into the pipe together and for queues with a place for every process;
otherwise it does get stuck (`C71_large_values_wrong`, `C71_maxsize_wrong`). -/
theorem C71_progress_partial (hcap : ∑ p, (outcome p).bytes ≤ cap) (hmax : maxsize = 0 ∨ n ≤ maxsize) {k : ℕ} {s : State n V} (h : After outcome maxsize cap k s) (hj : ¬ Joined s) :
    ∃ t, Step outcome maxsize cap s t := by
  classical
  have hi := inv_after h
  by_cases hw : ∃ p left, s.phase p = .writing left
  · obtain ⟨p, left, hp⟩ := hw
    cases left with
    | zero =>
      obtain ⟨v, size, ho⟩ := hi.sends p (.inr ⟨0, hp⟩)
      exact ⟨_, .unlock s p hp v size ho⟩
    | succ left =>
      refine ⟨_, .write s p (left + 1) 1 hp (le_refl _) (by omega) ?_⟩
      have hlt : ∑ q, written (outcome q) (s.phase q) < ∑ q, (outcome q).bytes := by
        refine Finset.sum_lt_sum (fun q _ => ?_) ⟨p, Finset.mem_univ p, ?_⟩
        · cases s.phase q with
          | exited b => cases b <;> simp
          | _ => simp
        · have := hi.left p _ hp
          rw [hp, written_writing]; omega
      rw [hi.used]
      omega
  · unfold Joined at hj
    push Not at hj hw
    obtain ⟨p, hp⟩ := hj
    have hitems : s.phase p = .putting → maxsize = 0 ∨ s.items < maxsize := by
      intro hpp
      rcases hmax with hm | hm
      · exact .inl hm
      · refine .inr (lt_of_lt_of_le ?_ hm)
        rw [hi.items]
        calc ∑ q, taken (s.phase q) < ∑ _q : Fin n, 1 := by
              refine Finset.sum_lt_sum (fun q _ => ?_) ⟨p, Finset.mem_univ p, by simp [hpp]⟩
              cases s.phase q with
              | exited b => cases b <;> simp
              | _ => simp
          _ = n := by simp
    cases hph : s.phase p with
    | running =>
      by_cases ho : outcome p = .raises
      · exact ⟨_, .fail s p hph ho⟩
      · exact ⟨_, .finish s p hph ho⟩
    | putting =>
      cases ho : outcome p with
      | returns v size => exact ⟨_, .put s p hph (hitems hph) v size ho⟩
      | unpicklable => exact ⟨_, .drop s p hph (hitems hph) ho⟩
      | raises => exact absurd ho (hi.fine p (by simp [hph]) (by simp [hph]))
    | waiting =>
      obtain ⟨v, size, ho⟩ := hi.sends p (.inl hph)
      exact ⟨_, .lock s p hph hw v size ho⟩
    | writing left => exact absurd hph (hw p left)
    | flushed => exact ⟨_, .exit s p hph⟩
    | exited ok => exact absurd hph (hp ok)

/-- **C71.** Therefore every launch, continued for as long as possible, returns. -/
theorem C71_returns_partial (hcap : ∑ p, (outcome p).bytes ≤ cap) (hmax : maxsize = 0 ∨ n ≤ maxsize) {k : ℕ} {s : State n V} (h : After outcome maxsize cap k s)
    (hend : ∀ t, ¬ Step outcome maxsize cap s t) : Joined s ∧ result s = expected outcome := by
  have hj : Joined s := by
    by_contra hj
    obtain ⟨t, ht⟩ := C71_progress_partial hcap hmax h hj
    exact hend t ht
  exact ⟨hj, C71_result h hj⟩

/-- Such runs exist. -/
theorem C71_some_run (hcap : ∑ p, (outcome p).bytes ≤ cap) (hmax : maxsize = 0 ∨ n ≤ maxsize) : ∃ k, ∃ s : State n V, After outcome maxsize cap k s ∧ Joined s := by
  by_contra hne
  push Not at hne
  have hlong : ∀ k, ∃ s : State n V, After outcome maxsize cap k s := by
    intro k
    induction k with
    | zero => exact ⟨_, .start⟩
    | succ k ih =>
      obtain ⟨s, hs⟩ := ih
      obtain ⟨t, ht⟩ := C71_progress_partial hcap hmax hs (hne k s hs)
      exact ⟨t, .step hs ht⟩
  obtain ⟨s, hs⟩ := hlong (∑ p, (5 + (outcome p).bytes) + 1)
  have := C71_terminates hs
  omega

/-- The code violates the property: if the return values together are larger than the pipe (64 KiB on Linux), the launch never returns, because the parent reads only after all processes have ended. -/
theorem C71_large_values_wrong (hcap : cap < ∑ p, (outcome p).bytes) {k : ℕ} {s : State n V} (h : After outcome maxsize cap k s) : ¬ Joined s := by
  intro hj
  have hi := inv_after h
  have := used_le h
  rw [hi.used] at this
  have e : ∑ p, written (outcome p) (s.phase p) = ∑ p, (outcome p).bytes := Finset.sum_congr rfl fun p _ => by
    rw [joined_phase h hj p]
    cases outcome p <;> rfl
  omega

/-- The code violates the property: with a `maxsize` smaller than the number of processes that return, documented as a way to *increase* the size of returnable values, the launch never returns. -/
theorem C71_maxsize_wrong (hpos : 0 < maxsize) (hmax : maxsize < ∑ p, if (outcome p).fails then 0 else 1) {k : ℕ} {s : State n V} (h : After outcome maxsize cap k s) : ¬ Joined s := by
  intro hj
  have hi := inv_after h
  have := items_le h
  rw [hi.items] at this
  have e : ∑ p, taken (s.phase p) = ∑ p, if (outcome p).fails then 0 else 1 := Finset.sum_congr rfl fun p _ => by
    rw [joined_phase h hj p]
    cases outcome p <;> rfl
  omega

/-- Three parties, the second of which is faster than the first, and a server whose value cannot be sent. -/
def sample : Fin 3 → Outcome ℕ
  | 0 => .returns 7 2
  | 1 => .returns 8 1
  | 2 => .unpicklable

example : expected sample = some [7, 8] ∧ ∑ p, (sample p).bytes ≤ 65536 := by
  constructor
  · rw [expected, if_neg (by decide)]
    rfl
  · decide

/-- A party that raises while the others return. -/
example : expected (fun p : Fin 2 => if p = 0 then Outcome.returns 7 1 else .raises) = none := by
  rw [expected, if_pos ⟨1, by simp [Outcome.fails]⟩]

/-- Two parties that return ten thousand 64-bit numbers each. -/
example : 65536 < ∑ p, ((fun _ : Fin 2 => Outcome.returns () 80000) p).bytes := by decide

end CrypTen.Launch

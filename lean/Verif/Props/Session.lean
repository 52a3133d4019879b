import Verif.Spec.Session
import Mathlib.Tactic.Linarith
import Mathlib.Data.List.Induction

/-!
# C75: starting, ending and starting again
-/

namespace CrypTen.Session

variable {T : Type} [DecidableEq T]

/-! ## Sessions of a process -/

/-- The state after `k` sessions, open or not. -/
def after (T : Type) (ttp : Bool) (k : ℕ) (isLive : Bool) : Proc T where
  useThreads := false
  pg := if isLive then some (k - 1) else none
  sessions := k
  inst := if isLive then some (some ⟨k - 1, ttp⟩) else none
  exchanges := k
  gens := if k = 0 then none else some (k - 1)
  client := if ttp && decide (k ≠ 0) then some 0 else none
  tls := fun _ => none
  mailbox := none

theorem opened_append (b : Bool) (h : List Call) (c : Call) :
    opened b (h ++ [c]) = opened b h + if c = .init ∧ ¬ (if h = [] then b else live h) = true then 1 else 0 := by
  induction h generalizing b with
  | nil => cases c <;> cases b <;> rfl
  | cons d h ih =>
    have hl : ∀ d, live (d :: h) = if h = [] then decide (d = .init) else live h := by
      intro d
      cases h with
      | nil => cases d <;> rfl
      | cons e h => simp [live, List.getLast?_cons_cons]
    cases d <;> cases b <;> simp only [List.cons_append, opened, ih, hl, reduceCtorEq, if_false] <;> cases h <;> simp [live] <;> omega

theorem live_pos (h : List Call) (hl : live h = true) : 0 < opened false h := by
  induction h using List.reverseRecOn with
  | nil => simp [live] at hl
  | append_singleton h c ih =>
    have hc : c = .init := by simpa [live] using hl
    subst hc
    rw [opened_append]
    by_cases he : h = []
    · simp [he, opened]
    · by_cases hh : live h = true
      · have := ih hh; omega
      · simp [he, hh]

/-- The state after every history of calls. -/
theorem run_eq (ttp : Bool) (t : T) (h : List Call) : run ttp t h (fresh T) = after T ttp (opened false h) (live h) := by
  induction h using List.reverseRecOn with
  | nil => cases ttp <;> rfl
  | append_singleton h c ih =>
    rw [show run ttp t (h ++ [c]) (fresh T) = (step ttp t (run ttp t h (fresh T)) c).1 by rw [run, List.foldl_append]; rfl, ih, opened_append]
    have hempty : (if h = [] then false else live h) = live h := by
      split
      · rename_i e; rw [e]; rfl
      · rfl
    rw [hempty]
    have hlive : live (h ++ [c]) = decide (c = .init) := by simp [live]
    rw [hlive]
    cases hl : live h with
    | true =>
      have hpos := live_pos h hl
      cases c with
      | init => simp [step, init, isInitialized, distInitialized, after]
      | uninit => simp [step, uninit, after]
    | false =>
      cases c with
      | init =>
        cases ttp <;> by_cases hk : opened false h = 0 <;>
          simp [step, init, isInitialized, distInitialized, distInitialize, setupPrng, clientInit, after, hk]
      | uninit => simp [step, uninit, after]

/-- **C75.** For every history of `init` and `uninit`, with any provider: `is_initialized()` is true iff the last call was `init`, `init` never raises, and `uninit` raises exactly if no session is open. -/
theorem C75_is_initialized (ttp : Bool) (t : T) (h : List Call) :
    isInitialized (run ttp t h (fresh T)) t = live h ∧ (init true ttp t (run ttp t h (fresh T))).2 = .ok () ∧
      ((uninit (run ttp t h (fresh T))).2 = if live h then .ok () else .error .noProcessGroup) := by
  rw [run_eq]
  cases hl : live h
  · refine ⟨rfl, ?_, rfl⟩
    cases ttp <;> by_cases hk : opened false h = 0 <;>
      simp [init, isInitialized, distInitialized, distInitialize, setupPrng, clientInit, after, hk]
  · exact ⟨rfl, by simp [init, isInitialized, distInitialized, after], rfl⟩

/-- **C75.** For every history, an open session has its own process group, a communicator made for that group, and generators seeded by an exchange made in that session. -/
theorem C75_fresh_session (ttp : Bool) (t : T) (h : List Call) (hl : live h = true) :
    let s := run ttp t h (fresh T)
    let k := opened false h - 1
    s.pg = some k ∧ s.inst = some (some ⟨k, ttp⟩) ∧ s.gens = some k := by
  rw [run_eq, hl]
  have := live_pos h hl
  refine ⟨rfl, rfl, ?_⟩
  simp [after]
  omega

/-- **C75, partial.** In the first session, requests to the trusted third party reach it. -/
theorem C75_ttp_partial (t : T) (h : List Call) (hl : live h = true) (h1 : opened false h = 1) : request t (run true t h (fresh T)) = .ok 0 := by
  rw [run_eq, hl, h1]; rfl

/-- **C75 fails** with a trusted third party: in every session after the first one, every request is sent to a group that no longer exists: `uninit` does not remove the client, and `init` does not replace it. -/
theorem C75_ttp_wrong (t : T) (h : List Call) (hl : live h = true) (h2 : 2 ≤ opened false h) : request t (run true t h (fresh T)) = .error .deadGroup := by
  rw [run_eq, hl]
  have hk : opened false h ≠ 0 := by omega
  have hk' : ¬ opened false h - 1 = 0 := by omega
  simp [request, after, hk, hk', isInitialized, distInitialized]

example : live [.init, .init, .uninit, .init] = true ∧ opened false [.init, .init, .uninit, .init] = 2 := by decide

/-- **C75 fails** in a process that uses `torch.distributed` itself: `init` raises, and after any further calls CrypTen claims to be initialised, cannot be ended, and has no generators. -/
theorem C75_foreign_group_wrong (ttp : Bool) (t : T) (h : List Call) :
    (init true ttp t (userGroup (fresh T))).2 = .error .attribute ∧
      let s := run ttp t h (init true ttp t (userGroup (fresh T))).1
      isInitialized s t = true ∧ (uninit s).2 = .error .attribute ∧ s.gens = none := by
  have hi : init true ttp t (userGroup (fresh T)) = (⟨false, some 0, 1, some none, 0, none, none, fun _ => none, none⟩, .error .attribute) := by
    simp [init, isInitialized, distInitialized, distInitialize, userGroup, fresh]
  have hrun : run ttp t h (⟨false, some 0, 1, some none, 0, none, none, fun _ => none, none⟩ : Proc T) = ⟨false, some 0, 1, some none, 0, none, none, fun _ => none, none⟩ := by
    induction h with
    | nil => rfl
    | cons c h ih =>
      rw [run, List.foldl_cons]
      cases c
      · exact ih
      · exact ih
  rw [hi]
  refine ⟨rfl, ?_⟩
  rw [hrun]
  exact ⟨rfl, rfl, rfl⟩

/-! ## Parties in threads -/

theorem startThreads_state (world : ℕ) (ps : List (T × ℕ)) : ∀ s : Proc T, (∀ p ∈ ps, s.tls p.1 = none) → (ps.map Prod.fst).Nodup → (s.mailbox = none ∨ s.mailbox = some world) → ps ≠ [] →
    let s' := startThreads world ps s
    s'.useThreads = true ∧ (∀ p ∈ ps, s'.tls p.1 = some (p.2, world)) ∧ s'.mailbox = some world ∧ s'.pg = s.pg ∧ (∀ t, t ∉ ps.map Prod.fst → s'.tls t = s.tls t) := by
  induction ps with
  | nil => intro s _ _ _ h; exact absurd rfl h
  | cons p ps ih =>
    intro s hs hn hm _
    have hp := hs p List.mem_cons_self
    have h1 : initThread p.2 world p.1 s = { s with
        useThreads := true, tls := Function.update s.tls p.1 (some (p.2, world)), mailbox := some world, exchanges := s.exchanges + 1, gens := some s.exchanges } := by
      unfold initThread setupPrng
      rcases hm with hm | hm <;> simp [hp, hm]
    rw [List.map_cons, List.nodup_cons] at hn
    by_cases he : ps = []
    · subst he
      simp only [startThreads, List.foldl_cons, List.foldl_nil, h1]
      refine ⟨trivial, fun q hq => ?_, trivial, trivial, fun t ht => ?_⟩
      · rw [List.mem_singleton] at hq
        subst hq
        exact Function.update_self ..
      · exact Function.update_of_ne (fun e => ht (by simp [e])) ..
    · have := ih (initThread p.2 world p.1 s) (fun q hq => by
          rw [h1]
          have hne : q.1 ≠ p.1 := fun e => hn.1 (e ▸ List.mem_map_of_mem hq)
          exact (Function.update_of_ne hne ..).trans (hs q (List.mem_cons_of_mem _ hq))) hn.2 (.inr (by rw [h1])) he
      obtain ⟨a, b, c, d, e⟩ := this
      refine ⟨a, fun q hq => ?_, c, by rw [show startThreads world (p :: ps) s = startThreads world ps (initThread p.2 world p.1 s) from rfl, d, h1], fun t ht => ?_⟩
      · rcases List.mem_cons.1 hq with rfl | hq
        · exact (e q.1 hn.1).trans (by rw [h1]; exact Function.update_self ..)
        · exact b q hq
      · rw [List.map_cons, List.mem_cons, not_or] at ht
        exact (e t ht.2).trans (by rw [h1]; exact Function.update_of_ne ht.1 ..)

/-- **C75.** Parties in threads, in a process whose mailboxes are not left over from other threads: each is initialised with its rank and can send to every other, for any number of threads in any order. -/
theorem C75_threads (world : ℕ) (ps : List (T × ℕ)) (s : Proc T) (hs : ∀ p ∈ ps, s.tls p.1 = none) (hn : (ps.map Prod.fst).Nodup) (hm : s.mailbox = none) (p : T × ℕ) (hp : p ∈ ps) (dst : ℕ) (hd : dst < world) :
    isInitialized (startThreads world ps s) p.1 = true ∧ sendThread dst p.1 (startThreads world ps s) = .ok p.2 := by
  obtain ⟨a, b, c, -, -⟩ := startThreads_state world ps s hs hn (.inl hm) (List.ne_nil_of_mem hp)
  simp [isInitialized, sendThread, a, b p hp, c, hd]

example : sendThread 1 "a" (startThreads 3 [("b", 1), ("a", 0), ("c", 2)] (fresh String)) = .ok 0 :=
  (C75_threads 3 [("b", 1), ("a", 0), ("c", 2)] (fresh String) (fun _ _ => rfl) (by decide) rfl ("a", 0) (by simp) 1 (by decide)).2

/-- **C75.** Threads may start again after `uninit`, also with another number of parties. -/
theorem C75_threads_again (w world : ℕ) (ps qs : List (T × ℕ)) (hps : ps ≠ []) (hn : (ps.map Prod.fst).Nodup) (hn' : (qs.map Prod.fst).Nodup) (p : T × ℕ) (hp : p ∈ qs) (dst : ℕ) (hd : dst < world) :
    sendThread dst p.1 (startThreads world qs (uninit (startThreads w ps (fresh T))).1) = .ok p.2 := by
  obtain ⟨a, -, -, -, -⟩ := startThreads_state w ps (fresh T) (fun _ _ => rfl) hn (.inl rfl) hps
  refine (C75_threads world qs _ (fun q _ => ?_) hn' ?_ p hp dst hd).2
  · simp [uninit, a]
  · simp [uninit, a]

/-- **C75 fails** for parties in threads: the first `uninit` ends the session of *all* threads, whatever they are doing, and the `uninit` of every other thread raises. -/
theorem C75_threads_uninit_wrong (world : ℕ) (ps : List (T × ℕ)) (hn : (ps.map Prod.fst).Nodup) (hps : ps ≠ []) (p : T × ℕ) (dst : ℕ) :
    let s := startThreads world ps (fresh T)
    (uninit s).2 = .ok () ∧ sendThread dst p.1 (uninit s).1 = .error .notInitialized ∧ (uninit (uninit s).1).2 = .error .noProcessGroup := by
  obtain ⟨a, -, -, d, -⟩ := startThreads_state world ps (fresh T) (fun _ _ => rfl) hn (.inl rfl) hps
  intro s
  have h1 : uninit s = ({ s with tls := fun _ => none, mailbox := none, useThreads := false }, .ok ()) := by
    unfold uninit; rw [if_pos a]
  have hpg : s.pg = none := d
  rw [h1]
  exact ⟨rfl, rfl, by simp [uninit, hpg]⟩

/-- **C75 fails** for threads that ended without `uninit`: a later, larger set of parties gets the old mailboxes, and sending to the new ranks raises. -/
theorem C75_threads_resize_wrong (w world : ℕ) (ps qs : List (T × ℕ)) (hn : (ps.map Prod.fst).Nodup) (hps : ps ≠ []) (q : T × ℕ) (hq : q ∈ qs) (hnew : ∀ q ∈ qs, q.1 ∉ ps.map Prod.fst)
    (dst : ℕ) (hd : w ≤ dst) : sendThread dst q.1 (startThreads world qs (startThreads w ps (fresh T))) = .error .noMailbox := by
  obtain ⟨a, b, c, d, e⟩ := startThreads_state w ps (fresh T) (fun _ _ => rfl) hn (.inl rfl) hps
  generalize startThreads w ps (fresh T) = s at *
  have key : ∀ (qs : List (T × ℕ)) (s : Proc T), s.mailbox = some w → (startThreads world qs s).mailbox = some w ∧
      (qs ≠ [] → (startThreads world qs s).useThreads = true) ∧ (∀ q ∈ qs, ((startThreads world qs s).tls q.1).isSome) ∧ (∀ t, (s.tls t).isSome → ((startThreads world qs s).tls t).isSome) := by
    intro qs
    induction qs with
    | nil => intro s h; exact ⟨h, fun h => absurd rfl h, by simp, fun _ h => h⟩
    | cons q qs ih =>
      intro s h
      have hm : (initThread q.2 world q.1 s).mailbox = some w := by
        unfold initThread setupPrng
        simp only
        split <;> simp [h]
      have ht : ((initThread q.2 world q.1 s).tls q.1).isSome := by
        unfold initThread setupPrng
        simp only
        split
        · assumption
        · simp
      have hmono : ∀ t, (s.tls t).isSome → ((initThread q.2 world q.1 s).tls t).isSome := by
        intro t hs
        unfold initThread setupPrng
        simp only
        split
        · exact hs
        · by_cases hh : t = q.1
          · subst hh; simp
          · simpa [Function.update_of_ne hh] using hs
      obtain ⟨i1, i2, i3, i4⟩ := ih _ hm
      refine ⟨i1, fun _ => ?_, fun r hr => ?_, fun t h => i4 t (hmono t h)⟩
      · by_cases he : qs = []
        · subst he
          show (initThread q.2 world q.1 s).useThreads = true
          unfold initThread setupPrng
          simp only
          split <;> rfl
        · exact i2 he
      · rcases List.mem_cons.1 hr with rfl | hr
        · exact i4 _ ht
        · exact i3 r hr
  obtain ⟨k1, k2, k3, -⟩ := key qs s c
  have hsome := k3 q hq
  obtain ⟨⟨r, v⟩, hv⟩ := Option.isSome_iff_exists.1 hsome
  simp [sendThread, k1, k2 (List.ne_nil_of_mem hq), hv, hd]

example : sendThread 2 "e" (startThreads 3 [("c", 0), ("d", 1), ("e", 2)] (startThreads 2 [("a", 0), ("b", 1)] (fresh String))) = .error .noMailbox :=
  C75_threads_resize_wrong 2 3 [("a", 0), ("b", 1)] [("c", 0), ("d", 1), ("e", 2)] (by decide) (by simp) ("e", 2) (by simp) (by decide) 2 (le_refl 2)

/-- **C75 fails** when a process has both kinds of parties: starting a thread closes the open session of the main thread, as far as every function of CrypTen can see. -/
theorem C75_mixed_wrong (ttp : Bool) (t u : T) (htu : t ≠ u) (rank world : ℕ) (h : List Call) (hl : live h = true) :
    isInitialized (run ttp t h (fresh T)) t = true ∧ isInitialized (initThread rank world u (run ttp t h (fresh T))) t = false := by
  rw [run_eq, hl]
  refine ⟨rfl, ?_⟩
  simp [initThread, setupPrng, isInitialized, after, htu]

theorem startThreads_dist (world : ℕ) (ps : List (T × ℕ)) : ∀ s : Proc T, (startThreads world ps s).inst = s.inst ∧ (startThreads world ps s).client = s.client := by
  induction ps with
  | nil => intro s; exact ⟨rfl, rfl⟩
  | cons p ps ih =>
    intro s
    obtain ⟨h1, h2⟩ := ih (initThread p.2 world p.1 s)
    refine ⟨h1.trans ?_, h2.trans ?_⟩ <;> unfold initThread setupPrng <;> simp only <;> split <;> rfl

/-- **C75.** A thread that is not a party can call `init` while other threads are parties: the call succeeds and a session is open for the caller, also if no `uninit` has been called for the threads. -/
theorem C75_beside_threads (ttp : Bool) (t : T) (world : ℕ) (ps : List (T × ℕ)) (hn : (ps.map Prod.fst).Nodup) (hps : ps ≠ []) (ht : t ∉ ps.map Prod.fst) :
    let s := startThreads world ps (fresh T)
    isInitialized s t = false ∧ (init true ttp t s).2 = .ok () ∧ isInitialized (init true ttp t s).1 t = true := by
  obtain ⟨a, -, -, d, e⟩ := startThreads_state world ps (fresh T) (fun _ _ => rfl) hn (.inl rfl) hps
  obtain ⟨f, g⟩ := startThreads_dist world ps (fresh T)
  have e := e t ht
  generalize startThreads world ps (fresh T) = s at *
  have f : s.inst = none := f
  have g : s.client = none := g
  have d : s.pg = none := d
  have e : s.tls t = none := e
  have h0 : isInitialized s t = false := by simp [isInitialized, a, e]
  refine ⟨h0, ?_⟩
  unfold init
  rw [h0]
  cases ttp <;> simp [distInitialized, distInitialize, isInitialized, setupPrng, clientInit, d, f, g]

end CrypTen.Session

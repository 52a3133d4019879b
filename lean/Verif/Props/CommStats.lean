import Verif.Spec.CommStats
import Mathlib.Algebra.Group.Fin.Basic
import Mathlib.Tactic.Ring
import Mathlib.Tactic.Linarith
import Mathlib.Tactic.FieldSimp
import Mathlib.Tactic.NormNum
import Mathlib.Algebra.Order.BigOperators.Group.Finset

/-! # C51: communication statistics -/

namespace CrypTen.Stats
open Finset
variable {n : ℕ}

/-! ## One call -/

theorem others_sum_all (r : ℕ) (l : List ℕ) (k : ℕ) (h : r < k) : (others r l k).sum = l.sum := by
  induction l generalizing k with
  | nil => rfl
  | cons x l ih => rw [others, if_pos (by omega), List.sum_cons, List.sum_cons, ih (k + 1) (by omega)]

theorem others_sum (r : ℕ) (l : List ℕ) (k : ℕ) (h : k ≤ r) (h' : r < k + l.length) : (others r l k).sum + l[r - k]'(by omega) = l.sum := by
  induction l generalizing k with
  | nil => simp at h'; omega
  | cons x l ih =>
    by_cases hk : k = r
    · subst hk
      rw [others, if_neg (by simp), others_sum_all _ _ _ (by omega)]
      simp [add_comm]
    · rw [others, if_pos hk, List.sum_cons, List.sum_cons, ← ih (k + 1) (by omega) (by rw [List.length_cons] at h'; omega)]
      have : r - k = (r - (k + 1)) + 1 := by omega
      simp only [this, List.getElem_cons_succ]
      ring

theorem others_ofFn (r : Fin n) (f : Fin n → ℕ) : (others r (List.ofFn f) 0).sum = ∑ j, if j ≠ r then f j else 0 := by
  have h := others_sum r (List.ofFn f) 0 (Nat.zero_le _) (by simp)
  simp only [Nat.sub_zero, List.getElem_ofFn, List.sum_ofFn, Fin.eta] at h
  have h2 : ∑ j, f j = (∑ j, if j ≠ r then f j else 0) + f r := by
    have : ∀ j, f j = (if j ≠ r then f j else 0) + if j = r then f j else 0 := fun j => by by_cases hj : j = r <;> simp [hj]
    rw [sum_congr rfl fun j _ => this j, sum_add_distrib]
    simp
  omega

theorem sum_ne_const (r : Fin n) (c : ℕ) : (∑ j : Fin n, if j ≠ r then c else 0) = (n - 1) * c := by
  rw [← sum_filter, sum_const, smul_eq_mul, filter_ne', card_erase_of_mem (mem_univ r), card_univ, Fintype.card_fin]

theorem logged_eq {ws : ℕ} (h : 2 ≤ ws) (v : Bool) (rank : ℕ) (c : Call) (t : ℚ) (s : Stats) :
    logged v ws rank c t s = if v then (before ws rank c s).bind fun s => after rank c (logTime t s) else some s := by
  rw [logged, if_neg (by omega)]; rfl

/-- **C51 (cost of a call).** A call with logging on adds one round, its duration, and the bytes the party sends and receives in it. -/
theorem C51_cost [NeZero n] (hn : 2 ≤ n) (c : Step n) (hc : c.Proper) (r : Fin n) (call : Call) (h : callOf c r = some call) (t : ℚ) (s : Stats) :
    logged true n r call t s = some ⟨s.rounds + 1, s.bytes + share c r, s.time + t⟩ := by
  have hn1 : ((n - 1 : ℕ) : ℚ) = (n : ℚ) - 1 := by push_cast [show 1 ≤ n by omega]; ring
  rw [logged_eq hn]
  cases c with
  | barrier =>
    obtain rfl : Call.barrier = call := by simpa [callOf] using h
    simp [before, after, log, logTime, share, traffic, bytesPerElement]
  | send src dst m =>
    have hne : src ≠ dst := hc
    simp only [callOf] at h
    split at h
    · rename_i hr
      obtain rfl : Call.pointToPoint m = call := by simpa using h
      have hs : share (.send src dst m) r = 8 * m := by
        simp only [share, traffic, sum_add_distrib]
        rcases hr with rfl | rfl
        · simp [hne, hne.symm]
        · simp [hne, hne.symm]
      simp [before, after, log, logTime, hs, bytesPerElement, mul_comm]
    · simp at h
  | sendObj src dst b =>
    have hne : src ≠ dst := hc
    simp only [callOf] at h
    have hs : r = src ∨ r = dst → share (.sendObj src dst b) r = b := by
      intro hr
      simp only [share, traffic, sum_add_distrib]
      rcases hr with rfl | rfl
      · simp [hne, hne.symm]
      · simp [hne, hne.symm]
    split at h
    · rename_i hr
      obtain rfl : Call.sendObj b = call := by simpa using h
      simp [before, after, log, logTime, hs (Or.inl hr), bytesPerElement]
    · split at h
      · rename_i hr
        obtain rfl : Call.recvObj b = call := by simpa using h
        simp [before, after, log, logTime, hs (Or.inr hr), bytesPerElement]
      · simp at h
  | scatter src sizes =>
    obtain rfl : Call.scatter (.pos src) (List.ofFn sizes) (sizes r) = call := by simpa [callOf] using h
    by_cases hr : r = src
    · subst hr
      have hs : share (.scatter r sizes) r = 8 * ∑ j, if j ≠ r then sizes j else 0 := by
        simp only [share, traffic, sum_add_distrib, mul_sum]
        simp
      simp only [before, after, log, logTime, Root.args1, others_ofFn, hs, bytesPerElement, if_true, Option.bind_eq_bind, Option.bind_some]
      simp [mul_comm]
    · have hs : share (.scatter src sizes) r = 8 * sizes r := by
        simp only [share, traffic, sum_add_distrib]
        simp [hr]
      have hr' : ¬((src : ℕ) = (r : ℕ)) := fun e => hr (Fin.ext e.symm)
      simp [before, after, log, logTime, Root.args1, hs, bytesPerElement, hr', mul_comm]
  | broadcast src ms =>
    obtain rfl : Call.rooted (.pos src) (.batched ms) = call := by simpa [callOf] using h
    by_cases hr : r = src
    · subst hr
      have hs : share (.broadcast r ms) r = (n - 1) * (8 * ms.sum) := by
        simp only [share, traffic, sum_add_distrib]
        simpa using sum_ne_const r (8 * ms.sum)
      simp only [before, after, log, logTime, Root.args1, Payload.nelements, hs, bytesPerElement, if_true, Option.bind_eq_bind, Option.bind_some]
      rw [Nat.cast_mul, hn1]; push_cast
      congr 2; ring
    · have hs : share (.broadcast src ms) r = 8 * ms.sum := by
        simp only [share, traffic, sum_add_distrib]
        simp [hr]
      have hr' : ¬((src : ℕ) = (r : ℕ)) := fun e => hr (Fin.ext e.symm)
      simp [before, after, log, logTime, Root.args1, Payload.nelements, hs, bytesPerElement, hr', mul_comm]
  | collect dst ms =>
    obtain rfl : Call.rooted (.pos dst) (.batched ms) = call := by simpa [callOf] using h
    by_cases hr : r = dst
    · subst hr
      have hs : share (.collect r ms) r = (n - 1) * (8 * ms.sum) := by
        simp only [share, traffic, sum_add_distrib]
        simpa using sum_ne_const r (8 * ms.sum)
      simp only [before, after, log, logTime, Root.args1, Payload.nelements, hs, bytesPerElement, if_true, Option.bind_eq_bind, Option.bind_some]
      rw [Nat.cast_mul, hn1]; push_cast
      congr 2; ring
    · have hs : share (.collect dst ms) r = 8 * ms.sum := by
        simp only [share, traffic, sum_add_distrib]
        simp [hr]
      have hr' : ¬((dst : ℕ) = (r : ℕ)) := fun e => hr (Fin.ext e.symm)
      simp [before, after, log, logTime, Root.args1, Payload.nelements, hs, bytesPerElement, hr', mul_comm]
  | allGather m =>
    obtain rfl : Call.allGather m = call := by simpa [callOf] using h
    have hs : share (.allGather m) r = 2 * ((n - 1) * (8 * m)) := by
      simp only [share, traffic, sum_add_distrib]
      have h1 := sum_ne_const r (8 * m)
      have h2 : (∑ j : Fin n, if r ≠ j then 8 * m else 0) = (n - 1) * (8 * m) := by rw [← h1]; exact sum_congr rfl fun j _ => by simp [eq_comm]
      omega
    simp only [before, after, log, logTime, hs, bytesPerElement, if_true, Option.bind_eq_bind, Option.bind_some]
    rw [Nat.cast_mul, Nat.cast_mul, hn1]; push_cast
    congr 2; ring
  | allReduce ms =>
    obtain rfl : Call.allReduce (.batched ms) = call := by simpa [callOf] using h
    have hs : share (.allReduce ms) r = 2 * (8 * ms.sum) := by
      simp only [share, traffic, sum_add_distrib]
      have h2 : (∑ j : Fin n, if r = j + 1 then 8 * ms.sum else 0) = 8 * ms.sum := by
        rw [sum_congr rfl fun j _ => if_congr (show r = j + 1 ↔ j = r - 1 from ⟨fun e => (sub_eq_of_eq_add e).symm, fun e => by rw [e, sub_add_cancel]⟩) rfl rfl]
        simp
      rw [h2]; simp; ring
    simp only [before, after, log, logTime, Payload.nelements, hs, bytesPerElement, if_true, Option.bind_eq_bind, Option.bind_some]
    push_cast
    congr 2; ring

/-- **C51 (whole system).** As the documentation says, the bytes communicated in the overall system are half the sum over all parties. -/
theorem C51_double_counting [NeZero n] (c : Step n) : ∑ r, share c r = 2 * ∑ i, ∑ j, traffic c i j := by
  simp only [share, sum_add_distrib]
  rw [sum_comm (f := fun r j => traffic c j r)]; ring

/-! ## Histories -/

/-- A history of party `r`: communication steps it takes part in, with their durations; resets; changes of the setting. -/
inductive Act (n : ℕ) where
  | step (c : Step n) (t : ℚ)
  | reset
  | verbose (b : Bool)

/-- What party `r` does. -/
def Act.events (r : Fin n) : Act n → List Event
  | .step c t => match callOf c r with | some call => [.call call t] | none => []
  | .reset => [.reset]
  | .verbose b => [.verbose b]

/-- The steps party `r` takes part in while logging is on, given whether it is on at the start. -/
def recorded (r : Fin n) : Bool → List (Act n) → List (Step n × ℚ)
  | _, [] => []
  | v, .step c t :: l => if v ∧ (callOf c r).isSome then (c, t) :: recorded r v l else recorded r v l
  | v, .reset :: l => recorded r v l
  | _, .verbose b :: l => recorded r b l

theorem run_append (ws rank : ℕ) (a b : List Event) (s : Bool × Stats) : run ws rank (a ++ b) s = (run ws rank a s).bind (run ws rank b) := by
  induction a generalizing s with
  | nil => rfl
  | cons e a ih =>
    obtain ⟨v, s⟩ := s
    cases e with
    | call c t =>
      simp only [List.cons_append, run]
      cases logged v ws rank c t s with
      | none => rfl
      | some s' => simpa using ih (v, s')
    | reset => exact ih _
    | verbose b' => exact ih _

theorem run_recorded [NeZero n] (hn : 2 ≤ n) (r : Fin n) (h : List (Act n)) (hp : ∀ c t, .step c t ∈ h → c.Proper) (hr : .reset ∉ h) (v : Bool) (s : Stats) :
    ∃ v', run n r (h.flatMap (Act.events r)) (v, s) =
      some (v', ⟨s.rounds + (recorded r v h).length, s.bytes + ((recorded r v h).map fun x => (share x.1 r : ℚ)).sum, s.time + ((recorded r v h).map Prod.snd).sum⟩) := by
  induction h generalizing v s with
  | nil => exact ⟨v, by simp [run, recorded]⟩
  | cons a h ih =>
    have ih' := ih (fun c t hc => hp c t (List.mem_cons_of_mem _ hc)) (fun hc => hr (List.mem_cons_of_mem _ hc))
    cases a with
    | reset => exact absurd List.mem_cons_self hr
    | verbose b => exact ih' b s
    | step c t =>
      rw [List.flatMap_cons]
      cases hcall : callOf c r with
      | none =>
        have e1 : Act.events r (.step c t) = [] := by simp [Act.events, hcall]
        have e2 : recorded r v (.step c t :: h) = recorded r v h := by simp [recorded, hcall]
        rw [e1, e2]; exact ih' v s
      | some call =>
        have e1 : Act.events r (.step c t) = [.call call t] := by simp [Act.events, hcall]
        rw [e1]
        cases v with
        | false =>
          have e2 : recorded r false (.step c t :: h) = recorded r false h := by simp [recorded]
          rw [e2, List.singleton_append]
          simp only [run, logged_eq hn, Bool.false_eq_true, if_false, Option.bind_eq_bind, Option.bind_some]
          exact ih' false s
        | true =>
          have e2 : recorded r true (.step c t :: h) = (c, t) :: recorded r true h := by simp [recorded, hcall]
          obtain ⟨v', hv'⟩ := ih' true ⟨s.rounds + 1, s.bytes + share c r, s.time + t⟩
          refine ⟨v', ?_⟩
          rw [e2, List.singleton_append]
          simp only [run, C51_cost hn c (hp c t List.mem_cons_self) r call hcall t s, Option.bind_eq_bind, Option.bind_some]
          rw [hv']
          simp only [List.length_cons, List.map_cons, List.sum_cons]
          congr 3
          · omega
          · ring
          · ring

/-- **C51 (histories).** After any history that ends with a reset followed by `h`, the counters of each party are: the number of communication steps in `h` it took part in while logging was on; the bytes
it sent and received in them; the time it spent in them. -/
theorem C51_history [NeZero n] (hn : 2 ≤ n) (r : Fin n) (past h : List (Act n)) (hp : ∀ c t, .step c t ∈ past ++ h → c.Proper) (hr : .reset ∉ h) (v₀ : Bool) (s₀ : Stats) :
    ∃ v v', (run n r (past.flatMap (Act.events r)) (v₀, s₀)).map Prod.fst = some v ∧
      run n r ((past ++ .reset :: h).flatMap (Act.events r)) (v₀, s₀) =
        some (v', ⟨(recorded r v h).length, ((recorded r v h).map fun x => (share x.1 r : ℚ)).sum, ((recorded r v h).map Prod.snd).sum⟩) := by
  have hpast : ∃ v s, run n r (past.flatMap (Act.events r)) (v₀, s₀) = some (v, s) := by
    have hp' : ∀ c t, .step c t ∈ past → c.Proper := fun c t hc => hp c t (List.mem_append_left _ hc)
    clear hr hp
    induction past generalizing v₀ s₀ with
    | nil => exact ⟨v₀, s₀, rfl⟩
    | cons a past ih =>
      have ih' := fun v s => ih v s (fun c t hc => hp' c t (List.mem_cons_of_mem _ hc))
      cases a with
      | reset => exact ih' v₀ zero
      | verbose b => exact ih' b s₀
      | step c t =>
        rw [List.flatMap_cons]
        cases hcall : callOf c r with
        | none =>
          have e1 : Act.events r (.step c t) = [] := by simp [Act.events, hcall]
          rw [e1]; exact ih' v₀ s₀
        | some call =>
          have e1 : Act.events r (.step c t) = [.call call t] := by simp [Act.events, hcall]
          rw [e1, List.singleton_append]
          cases v₀ with
          | false =>
            simp only [run, logged_eq hn, Bool.false_eq_true, if_false, Option.bind_eq_bind, Option.bind_some]
            exact ih' false s₀
          | true =>
            simp only [run, C51_cost hn c (hp' c t List.mem_cons_self) r call hcall t s₀, Option.bind_eq_bind, Option.bind_some]
            exact ih' true _
  obtain ⟨v, s, hv⟩ := hpast
  obtain ⟨v', hv'⟩ := run_recorded hn r h (fun c t hc => hp c t (List.mem_append_right _ hc)) hr v zero
  refine ⟨v, v', by rw [hv]; rfl, ?_⟩
  rw [List.flatMap_append, run_append, hv]
  show run n r (List.flatMap (Act.events r) (.reset :: h)) (v, s) = _
  rw [List.flatMap_cons]
  show run n r (h.flatMap (Act.events r)) (v, zero) = _
  rw [hv']
  simp [zero]

/-- **C51 (logging off).** As long as logging is off, no call changes any counter, whatever its arguments. -/
theorem C51_off (ws rank : ℕ) (l : List (Call × ℚ)) (s : Stats) : run ws rank (l.map fun x => .call x.1 x.2) (false, s) = some (false, s) := by
  induction l with
  | nil => rfl
  | cons x l ih =>
    have h : logged false ws rank x.1 x.2 s = some s := by unfold logged; split <;> rfl
    simp only [List.map_cons, run, h, Option.bind_eq_bind, Option.bind_some]
    exact ih

/-- In a world of one party only barriers are counted. -/
theorem C51_single (v : Bool) (rank : ℕ) (c : Call) (hc : c ≠ .barrier) (t : ℚ) (s : Stats) : logged v 1 rank c t s = some s := by
  unfold logged
  rw [if_pos]
  cases c <;> simp_all [Call.hasArgs]

/-- **C51 (reset).** -/
theorem C51_reset (ws rank : ℕ) (v : Bool) (s : Stats) : run ws rank [.reset] (v, s) = some (v, ⟨0, 0, 0⟩) := rfl

/-! ## Where it fails -/

/-- **C51 fails for threads**: the counters stay zero whatever is communicated. -/
theorem C51_threads_wrong (l : List Event) (v : Bool) : (runThreads l (v, zero)).2 = zero := by
  induction l generalizing v with
  | nil => rfl
  | cons e l ih => cases e <;> exact ih _

/-- **C51 fails for `broadcast_obj`**: every party counts `n - 1` times the size of the object it *passes*; the receivers pass `None` (16 bytes) and do not count what they receive. For an object of `b` bytes the sum
over the parties is `(n - 1) (b + 16 (n - 1))`, and not twice the `(n - 1) b` bytes that travel, unless `b = 16 (n - 1)`. -/
theorem C51_broadcast_obj_wrong (hn : 2 ≤ n) (src : Fin n) (b : ℕ) (t : ℚ) :
    (∀ r, logged true n r (.broadcastObj (if r = src then b else 16)) t zero = some ⟨1, ((n : ℚ) - 1) * (if r = src then b else 16), t⟩) ∧
    (∑ r : Fin n, ((n : ℚ) - 1) * (if r = src then (b : ℚ) else 16) = 2 * (((n : ℚ) - 1) * b) ↔ b = 16 * (n - 1)) := by
  have hn1 : ((n - 1 : ℕ) : ℚ) = (n : ℚ) - 1 := by push_cast [show 1 ≤ n by omega]; ring
  constructor
  · intro r
    have e : ((if r = src then b else 16 : ℕ) : ℚ) = if r = src then (b : ℚ) else 16 := by split <;> norm_num
    simp only [logged_eq hn, before, after, log, logTime, zero, bytesPerElement, if_true, Option.bind_some, e]
    congr 2
    · ring
    · ring
  · have e : ∑ r : Fin n, (if r = src then (b : ℚ) else 16) = b + 16 * ((n : ℚ) - 1) := by
      have h := sum_ne_const src 16
      have h2 : ∑ r : Fin n, (if r = src then b else 16) = b + (n - 1) * 16 := by
        rw [← h]
        have : ∀ r : Fin n, (if r = src then b else 16) = (if r = src then b else 0) + if r ≠ src then 16 else 0 := fun r => by by_cases hr : r = src <;> simp [hr]
        rw [sum_congr rfl fun r _ => this r, sum_add_distrib]
        simp
      have h3 : ((∑ r : Fin n, (if r = src then b else 16) : ℕ) : ℚ) = ((b + (n - 1) * 16 : ℕ) : ℚ) := by rw [h2]
      push_cast [hn1] at h3
      rw [h3]; ring
    rw [← mul_sum, e]
    have hpos : (0 : ℚ) < (n : ℚ) - 1 := by rw [← hn1]; exact_mod_cast (show 0 < n - 1 by omega)
    rw [show 2 * (((n : ℚ) - 1) * b) = ((n : ℚ) - 1) * (2 * b) by ring, mul_right_inj' hpos.ne']
    constructor
    · intro h
      have : (b : ℚ) = ((16 * (n - 1) : ℕ) : ℚ) := by rw [Nat.cast_mul, hn1]; push_cast; linarith
      exact_mod_cast this
    · intro h
      have : (b : ℚ) = ((16 * (n - 1) : ℕ) : ℚ) := by exact_mod_cast h
      rw [Nat.cast_mul, hn1] at this
      push_cast at this
      linarith

/-- **Logging changes behaviour**: with logging on, `broadcast`, `gather`, `reduce` and `scatter` raise if `src` or `dst` is given by keyword, and collectives raise if `batched=True` is given by position; with logging
off these calls work. -/
theorem C51_keyword_wrong (ws rank root : ℕ) (hw : 2 ≤ ws) (x : Payload) (sizes ms : List ℕ) (got : ℕ) (t : ℚ) (s : Stats) :
    (∀ c ∈ [Call.rooted (.kw root) x, .scatter (.kw root) sizes got, .allReduce (.batchedPositional ms), .rooted (.pos root) (.batchedPositional ms)],
      logged true ws rank c t s = none ∧ logged false ws rank c t s = some s) := by
  intro c hc
  simp only [List.mem_cons, List.not_mem_nil, or_false] at hc
  rw [logged_eq hw, logged_eq hw]
  rcases hc with rfl | rfl | rfl | rfl <;> exact ⟨rfl, rfl⟩

/-! ## Examples -/

/-- Party 1 of three: a broadcast of 5 elements from party 0 while logging is off, then on, a reset, an all-reduce of 10 elements and a scatter. -/
example : run 3 1 ([Act.verbose true, .step (.broadcast 0 [5]) 1, .reset, .step (.allReduce [4, 6]) 2, .verbose false, .step (.allGather 7) 1, .verbose true,
    .step (.scatter (1 : Fin 3) ![1, 2, 3]) 3, .step (.send 0 2 9) 1].flatMap (Act.events 1)) (false, zero) = some (true, ⟨2, 2 * 8 * 10 + 8 * (1 + 3), 5⟩) := by
  decide +kernel

example := C51_cost (n := 3) (by norm_num) (.collect 2 [4, 4]) trivial 2 _ rfl 1 zero

end CrypTen.Stats

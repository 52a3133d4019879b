import Verif.Model.TupleCache
import Mathlib.Tactic.Linarith

/-!
# C35: the tuple cache
-/

namespace CrypTen
namespace Provider
set_option linter.unusedSectionVars false
variable {Req : Type} [DecidableEq Req] (hashable : Req → Bool)

/-- The keys of a dictionary -/
private abbrev keys (c : List (Req × List (Tup Req))) : List Req := c.map Prod.fst

/-- the numbers of the tuples in a dictionary -/
private def ids (c : List (Req × List (Tup Req))) : List ℕ := c.flatMap fun e => e.2.map Tup.id

/-- a dictionary whose keys are different and whose tuples are filed under what they were generated for -/
private structure DictOk (c : List (Req × List (Tup Req))) : Prop where
  nodup : (keys c).Nodup
  req : ∀ e ∈ c, ∀ t ∈ e.2, t.req = e.1

private theorem lookup_some {c : List (Req × List (Tup Req))} (hc : DictOk c) {q : Req} {l : List (Tup Req)} (h : lookup c q = some l) :
    ∃ a b, c = a ++ (q, l) :: b ∧ ∀ v, replace c q v = a ++ (q, v) :: b := by
  unfold lookup at h
  rw [Option.map_eq_some_iff] at h
  obtain ⟨e, he, rfl⟩ := h
  rw [List.find?_eq_some_iff_append] at he
  obtain ⟨h1, a, b, rfl, h3⟩ := he
  have h1' : e.1 = q := by simpa using h1
  subst h1'
  refine ⟨a, b, by simp, fun v => ?_⟩
  have hn := hc.nodup
  simp only [keys, List.map_append, List.map_cons] at hn
  rw [List.nodup_append] at hn
  obtain ⟨-, hb, -⟩ := hn
  rw [List.nodup_cons] at hb
  unfold replace
  rw [List.map_append, List.map_cons, if_pos rfl]
  congr 1
  · conv_rhs => rw [← List.map_id a]
    refine List.map_congr_left fun x hx => ?_
    have := h3 x hx
    rw [if_neg (by simpa using this)]; rfl
  · congr 1
    conv_rhs => rw [← List.map_id b]
    refine List.map_congr_left fun x hx => ?_
    have hne : x.1 ≠ e.1 := fun h => hb.1 (by rw [← h]; exact List.mem_map_of_mem hx)
    rw [if_neg hne]; rfl

private theorem lookup_none {c : List (Req × List (Tup Req))} {q : Req} (h : lookup c q = none) : q ∉ keys c := by
  unfold lookup at h
  rw [Option.map_eq_none_iff, List.find?_eq_none] at h
  intro hq
  rw [keys, List.mem_map] at hq
  obtain ⟨e, he, rfl⟩ := hq
  exact h e he (by simp)

private theorem ids_append (a b : List (Req × List (Tup Req))) : ids (a ++ b) = ids a ++ ids b := by simp [ids]
private theorem ids_cons (e : Req × List (Tup Req)) (b : List (Req × List (Tup Req))) : ids (e :: b) = e.2.map Tup.id ++ ids b := by simp [ids]

private theorem DictOk.replace {c : List (Req × List (Tup Req))} (hc : DictOk c) {q : Req} {l v : List (Tup Req)} (h : lookup c q = some l)
    (hv : ∀ t ∈ v, t.req = q) : DictOk (replace c q v) := by
  obtain ⟨a, b, rfl, hr⟩ := lookup_some hc h
  rw [hr]
  refine ⟨by simpa [keys] using hc.nodup, fun e he => ?_⟩
  rw [List.mem_append, List.mem_cons] at he
  rcases he with he | rfl | he
  · exact hc.req e (by simp [he])
  · exact hv
  · exact hc.req e (by simp [he])

private theorem DictOk.lookup_req {c : List (Req × List (Tup Req))} (hc : DictOk c) {q : Req} {l : List (Tup Req)} (h : lookup c q = some l) :
    ∀ t ∈ l, t.req = q := by
  obtain ⟨a, b, rfl, -⟩ := lookup_some hc h
  exact hc.req (q, l) (by simp)

private theorem DictOk.store {c : List (Req × List (Tup Req))} (hc : DictOk c) (q : Req) (t : Tup Req) (ht : t.req = q) : DictOk (store c q t) := by
  unfold Provider.store
  cases h : lookup c q with
  | some l =>
    refine hc.replace h fun u hu => ?_
    rw [List.mem_append, List.mem_singleton] at hu
    rcases hu with hu | rfl
    · exact hc.lookup_req h u hu
    · exact ht
  | none =>
    have hq := lookup_none h
    refine ⟨?_, fun e he => ?_⟩
    · simp only [keys, List.map_append, List.map_cons, List.map_nil]
      rw [List.nodup_append]
      refine ⟨hc.nodup, by simp, fun x hx y hy => ?_⟩
      rw [List.mem_singleton] at hy
      subst hy
      exact fun h => hq (h ▸ hx)
    · rw [List.mem_append, List.mem_singleton] at he
      rcases he with he | rfl
      · exact hc.req e he
      · simpa using ht

private theorem ids_store {c : List (Req × List (Tup Req))} (hc : DictOk c) (q : Req) (t : Tup Req) : (ids (store c q t)).Perm (t.id :: ids c) := by
  unfold Provider.store
  cases h : lookup c q with
  | some l =>
    obtain ⟨a, b, rfl, hr⟩ := lookup_some hc h
    simp only [hr, ids_append, ids_cons, List.map_append, List.map_cons, List.map_nil, List.append_assoc, List.singleton_append]
    rw [← List.append_assoc, ← List.append_assoc]
    exact List.perm_middle
  | none =>
    simp only [ids_append, ids_cons]
    simp only [ids, List.map_cons, List.map_nil, List.flatMap_nil, List.append_nil]
    exact List.perm_append_singleton _ _

/-- all tuples of a provider, in memory and on file -/
private def stock (s : Provider Req) : List ℕ := ids s.cache ++ ids (s.cacheFile.getD [])

private structure Ok (s : Provider Req) : Prop where
  cache : DictOk s.cache
  file : DictOk (s.cacheFile.getD [])
  fresh : ∀ i ∈ stock s, i < s.generated

private theorem dictOk_nil : DictOk ([] : List (Req × List (Tup Req))) := ⟨List.nodup_nil, by simp⟩

private theorem fillLoop_ok (qs : List Req) : ∀ s : Provider Req, Ok s → (stock s).Nodup →
    Ok (fillLoop hashable s qs).2 ∧ (stock (fillLoop hashable s qs).2).Nodup ∧ s.generated ≤ (fillLoop hashable s qs).2.generated
      ∧ ∀ i ∈ stock (fillLoop hashable s qs).2, i ∈ stock s ∨ s.generated ≤ i := by
  induction qs with
  | nil => exact fun s h hn => ⟨h, hn, le_rfl, fun i hi => .inl hi⟩
  | cons q qs ih =>
    intro s h hn
    unfold fillLoop
    simp only [generate]
    split
    · have hp : (stock { s with generated := s.generated + 1, cache := store s.cache q ⟨s.generated, q⟩ }).Perm (s.generated :: stock s) := by
        unfold stock
        exact (ids_store h.cache q ⟨s.generated, q⟩).append_right _
      have h' : Ok { s with generated := s.generated + 1, cache := store s.cache q ⟨s.generated, q⟩ } := by
        refine ⟨h.cache.store q _ rfl, h.file, fun i hi => ?_⟩
        rw [hp.mem_iff, List.mem_cons] at hi
        rcases hi with rfl | hi
        · exact Nat.lt_succ_self _
        · exact (h.fresh i hi).trans (Nat.lt_succ_self _)
      have hn' := hp.nodup_iff.2 (List.nodup_cons.2 ⟨fun hi => absurd (h.fresh _ hi) (lt_irrefl _), hn⟩)
      obtain ⟨a, b, c, d⟩ := ih _ h' hn'
      refine ⟨a, b, (Nat.le_succ _).trans c, fun i hi => ?_⟩
      rcases d i hi with hi | hi
      · rw [hp.mem_iff, List.mem_cons] at hi
        rcases hi with rfl | hi
        · exact .inr le_rfl
        · exact .inl hi
      · exact .inr ((Nat.le_succ _).trans hi)
    · exact ⟨⟨h.cache, h.file, fun i hi => (h.fresh i hi).trans (Nat.lt_succ_self _)⟩, hn, Nat.le_succ _, fun i hi => .inl hi⟩

/-- what one operation does to the stock -/
private structure StepOk (s : Provider Req) (a : Option (Tup Req)) (s' : Provider Req) : Prop where
  ok : Ok s'
  nodup : (a.toList.map Tup.id ++ stock s').Nodup
  mono : s.generated ≤ s'.generated
  old : ∀ i ∈ a.toList.map Tup.id ++ stock s', i ∈ stock s ∨ s.generated ≤ i
  lt : ∀ t ∈ a, t.id < s'.generated

private theorem generate_step {s : Provider Req} (h : Ok s) (hn : (stock s).Nodup) (q : Req) (r : List Req) :
    StepOk s (some ⟨s.generated, q⟩) { s with generated := s.generated + 1, requests := r } := by
  refine ⟨⟨h.cache, h.file, fun i hi => (h.fresh i hi).trans (Nat.lt_succ_self _)⟩, ?_, Nat.le_succ _, ?_, ?_⟩
  · exact List.nodup_cons.2 ⟨fun hi => absurd (h.fresh _ hi) (lt_irrefl _), hn⟩
  · intro i hi
    simp only [Option.toList_some, List.map_cons, List.map_nil, List.singleton_append, List.mem_cons] at hi
    rcases hi with rfl | hi
    · exact .inr le_rfl
    · exact .inl hi
  · intro t ht
    rw [Option.mem_some_iff] at ht
    subst ht
    exact Nat.lt_succ_self _

private theorem keep_step {s : Provider Req} (h : Ok s) (hn : (stock s).Nodup) : StepOk s none s :=
  ⟨h, by simpa using hn, le_rfl, fun i hi => .inl (by simpa using hi), by simp⟩

private def Answer.tup (a : Except CacheError (Tup Req)) : Option (Tup Req) := match a with
  | .ok t => some t
  | .error _ => none

private theorem request_step {s : Provider Req} (h : Ok s) (hn : (stock s).Nodup) (q : Req) :
    StepOk s (Answer.tup (request hashable s q).1) (request hashable s q).2 ∧ ∀ t, (request hashable s q).1 = .ok t → t.req = q := by
  unfold request
  split
  · refine ⟨generate_step h hn q _, ?_⟩
    rintro t ht; cases ht; rfl
  split
  · refine ⟨generate_step h hn q s.requests, ?_⟩
    rintro t ht; cases ht; rfl
  split
  · exact ⟨keep_step h hn, by rintro t ht; cases ht⟩
  cases hl : lookup s.cache q with
  | none =>
    refine ⟨generate_step h hn q s.requests, ?_⟩
    rintro t ht; cases ht; rfl
  | some l =>
    cases ht : l.getLast? with
    | none =>
      simp only [ht]
      exact ⟨keep_step h hn, by rintro t ht; cases ht⟩
    | some t =>
      simp only [Answer.tup, ht]
      have hlt : l = l.dropLast ++ [t] := by
        have := List.dropLast_append_getLast? t ht
        exact this.symm
      have htq := h.cache.lookup_req hl t (by rw [hlt]; simp)
      obtain ⟨a, b, hab, hr⟩ := lookup_some h.cache hl
      have hp : (stock s).Perm (t.id :: stock { s with cache := replace s.cache q l.dropLast }) := by
        unfold stock
        simp only [hr]
        rw [hab, ← List.cons_append]
        refine List.Perm.append_right _ ?_
        simp only [ids_append, ids_cons]
        conv_lhs => rw [hlt]
        simp only [List.map_append, List.map_cons, List.map_nil, List.append_assoc, List.singleton_append]
        rw [← List.append_assoc, ← List.append_assoc]
        exact List.perm_middle
      refine ⟨⟨⟨h.cache.replace hl fun u hu => h.cache.lookup_req hl u (List.dropLast_subset _ hu), h.file, fun i hi => ?_⟩, ?_, le_rfl, ?_, ?_⟩, ?_⟩
      · exact h.fresh i (hp.mem_iff.2 (List.mem_cons_of_mem _ hi))
      · exact hp.nodup_iff.1 hn
      · intro i hi
        exact .inl (hp.mem_iff.2 hi)
      · intro u hu
        rw [Option.mem_some_iff] at hu
        subst hu
        exact h.fresh _ (hp.mem_iff.2 List.mem_cons_self)
      · rintro u hu
        cases hu
        exact htq

private theorem stepOk_left {s s' s'' : Provider Req} (hs : stock s = stock s') (hg : s.generated = s'.generated) (h : StepOk s' none s'') : StepOk s none s'' :=
  ⟨h.ok, h.nodup, hg ▸ h.mono, fun i hi => by rw [hs, hg]; exact h.old i hi, h.lt⟩

private theorem loadTuples_step {s : Provider Req} (h : Ok s) (hn : (stock s).Nodup) : StepOk s none s.loadTuples := by
  unfold loadTuples
  cases hf : s.cacheFile with
  | none => exact keep_step h hn
  | some c =>
    have hs : stock s = ids s.cache ++ ids c := by simp [stock, hf]
    have hs' : stock { s with cache := c, cacheFile := none } = ids c := by simp [stock, ids]
    have hsub : (ids c).Sublist (stock s) := by rw [hs]; exact List.sublist_append_right _ _
    refine ⟨⟨by simpa [hf] using h.file, dictOk_nil, fun i hi => ?_⟩, ?_, le_rfl, fun i hi => .inl ?_, by simp⟩
    · exact h.fresh i (hsub.subset (hs' ▸ hi))
    · have : (ids c).Nodup := hn.sublist hsub
      simpa [hs'] using this
    · have : i ∈ ids c := by simpa [hs'] using hi
      exact hsub.subset this

private theorem load_step {s : Provider Req} (h : Ok s) (hn : (stock s).Nodup) : StepOk s none s.load := by
  unfold load
  obtain ⟨s', hs'⟩ : ∃ s', s.loadRequests = s' := ⟨_, rfl⟩
  have e : s'.cache = s.cache ∧ s'.cacheFile = s.cacheFile ∧ s'.generated = s.generated := by
    rw [← hs']; unfold loadRequests; split <;> simp
  have e1 : stock s = stock s' := by simp [stock, e.1, e.2.1]
  rw [hs']
  exact stepOk_left e1 e.2.2.symm (loadTuples_step ⟨e.1 ▸ h.cache, e.2.1 ▸ h.file, by rw [← e1, e.2.2]; exact h.fresh⟩ (e1 ▸ hn))

private theorem saveTuples_step {s : Provider Req} (h : Ok s) (hn : (stock s).Nodup) : StepOk s none s.saveTuples := by
  unfold saveTuples
  split
  · exact keep_step h hn
  · have hs' : stock { s with cacheFile := some s.cache, cache := [] } = ids s.cache := by simp [stock, ids]
    have hsub : (ids s.cache).Sublist (stock s) := List.sublist_append_left _ _
    refine ⟨⟨dictOk_nil, by simpa using h.cache, fun i hi => ?_⟩, ?_, le_rfl, fun i hi => .inl ?_, by simp⟩
    · exact h.fresh i (hsub.subset (hs' ▸ hi))
    · have : (ids s.cache).Nodup := hn.sublist hsub
      simpa [hs'] using this
    · have : i ∈ ids s.cache := by simpa [hs'] using hi
      exact hsub.subset this

private theorem save_step {s : Provider Req} (h : Ok s) (hn : (stock s).Nodup) : StepOk s none s.save := by
  unfold save
  obtain ⟨s', hs'⟩ : ∃ s', s.saveRequests = s' := ⟨_, rfl⟩
  have e : s'.cache = s.cache ∧ s'.cacheFile = s.cacheFile ∧ s'.generated = s.generated := by
    rw [← hs']; unfold saveRequests; split <;> simp
  have e1 : stock s = stock s' := by simp [stock, e.1, e.2.1]
  rw [hs']
  exact stepOk_left e1 e.2.2.symm (saveTuples_step ⟨e.1 ▸ h.cache, e.2.1 ▸ h.file, by rw [← e1, e.2.2]; exact h.fresh⟩ (e1 ▸ hn))

private theorem run_ok (os : List (Op Req)) : ∀ s : Provider Req, Ok s → (stock s).Nodup →
    (∀ a ∈ (run hashable s os).1, ∀ t, a.2 = .ok t → t.req = a.1)
      ∧ ((served (run hashable s os).1).map Tup.id).Nodup
      ∧ ∀ i ∈ (served (run hashable s os).1).map Tup.id, i ∈ stock s ∨ s.generated ≤ i := by
  induction os with
  | nil => intro s h hn; simp [run, served]
  | cons o os ih =>
    intro s h hn
    have plain : ∀ s', StepOk s none s' → (∀ a ∈ (run hashable s' os).1, ∀ t, a.2 = .ok t → t.req = a.1)
        ∧ ((served (run hashable s' os).1).map Tup.id).Nodup
        ∧ ∀ i ∈ (served (run hashable s' os).1).map Tup.id, i ∈ stock s ∨ s.generated ≤ i := by
      intro s' h'
      obtain ⟨a, b, c⟩ := ih s' h'.ok (by simpa using h'.nodup)
      refine ⟨a, b, fun i hi => ?_⟩
      rcases c i hi with hi | hi
      · exact h'.old i (by simpa using hi)
      · exact .inr (h'.mono.trans hi)
    cases o with
    | trace b => exact plain (s.trace b) (stepOk_left (s' := s.trace b) rfl rfl (keep_step ⟨h.cache, h.file, h.fresh⟩ hn))
    | traceOnce => exact plain s (keep_step h hn)
    | fill =>
      obtain ⟨a, b, c, d⟩ := fillLoop_ok hashable s.requests s h hn
      exact plain (fillLoop hashable s s.requests).2 ⟨a, by simpa using b, c, by simpa using d, by simp⟩
    | save => exact plain _ (save_step h hn)
    | load => exact plain _ (load_step h hn)
    | request q =>
      obtain ⟨h', hq⟩ := request_step hashable h hn q
      obtain ⟨a, b, c⟩ := ih _ h'.ok (List.nodup_append.1 h'.nodup).2.1
      simp only [run, step]
      refine ⟨?_, ?_, ?_⟩
      · intro x hx t ht
        rw [List.mem_cons] at hx
        rcases hx with rfl | hx
        · exact hq t ht
        · exact a x hx t ht
      · cases hr : (request hashable s q).1 with
        | error e => simpa [served] using b
        | ok t =>
          have hs : served ((q, Except.ok t) :: (run hashable (request hashable s q).2 os).1) = t :: served (run hashable (request hashable s q).2 os).1 := by simp [served]
          rw [hs, List.map_cons, List.nodup_cons]
          refine ⟨fun hi => ?_, b⟩
          rw [hr] at h'
          rcases c _ hi with hi | hi
          · exact (List.nodup_cons.1 h'.nodup).1 hi
          · exact absurd (h'.lt t rfl) (not_lt.2 hi)
      · intro i hi
        have key : i ∈ (served (run hashable (request hashable s q).2 os).1).map Tup.id → i ∈ stock s ∨ s.generated ≤ i := by
          intro hi
          rcases c i hi with hi | hi
          · exact h'.old i (List.mem_append_right _ hi)
          · exact .inr (h'.mono.trans hi)
        cases hr : (request hashable s q).1 with
        | error e => rw [hr] at hi; exact key (by simpa [served] using hi)
        | ok t =>
          rw [hr] at hi h'
          have hs : served ((q, Except.ok t) :: (run hashable (request hashable s q).2 os).1) = t :: served (run hashable (request hashable s q).2 os).1 := by simp [served]
          rw [hs, List.map_cons, List.mem_cons] at hi
          rcases hi with rfl | hi
          · exact h'.old _ (by simp [Answer.tup])
          · exact key hi

/-- how many tuples are ready for a request -/
private def avail (s : Provider Req) (q : Req) : ℕ := ((lookup s.cache q).getD []).length

private theorem lookup_replace (c : List (Req × List (Tup Req))) (q r : Req) (v : List (Tup Req)) :
    lookup (replace c q v) r = if r = q then (lookup c q).map fun _ => v else lookup c r := by
  induction c with
  | nil => by_cases h : r = q <;> simp [lookup, replace, h]
  | cons e c ih =>
    simp only [lookup, replace, List.map_cons, List.find?_cons] at ih ⊢
    by_cases he : e.1 = q
    · by_cases hr : r = q
      · subst hr; simp [he]
      · have hqr : q ≠ r := Ne.symm hr
        have her : e.1 ≠ r := he ▸ hqr
        rw [if_neg hr] at ih ⊢
        simpa [he, hqr] using ih
    · by_cases hr : r = q
      · subst hr
        rw [if_pos rfl] at ih ⊢
        simpa [he] using ih
      · rw [if_neg hr] at ih ⊢
        by_cases her : e.1 = r
        · simp [her, hr]
        · simpa [he, her] using ih

private theorem lookup_append (c : List (Req × List (Tup Req))) (q r : Req) (v : List (Tup Req)) :
    lookup (c ++ [(q, v)]) r = (lookup c r).or (if q = r then some v else none) := by
  unfold lookup
  rw [List.find?_append]
  by_cases h : q = r <;> cases c.find? (fun e => decide (e.1 = r)) <;> simp [h]

private theorem avail_store (s : Provider Req) (q r : Req) (t : Tup Req) (g : ℕ) :
    avail { s with generated := g, cache := store s.cache q t } r = avail s r + if q = r then 1 else 0 := by
  simp only [avail, Provider.store]
  cases h : lookup s.cache q with
  | some l =>
    by_cases hr : r = q
    · subst hr; simp [lookup_replace, h]
    · have := Ne.symm hr
      simp [lookup_replace, hr, this]
  | none =>
    by_cases hr : q = r
    · subst hr; simp [lookup_append, h]
    · cases h' : lookup s.cache r <;> simp [lookup_append, hr, h']

private theorem fillLoop_avail (qs : List Req) : ∀ s : Provider Req, (∀ q ∈ qs, hashable q = true) →
    (fillLoop hashable s qs).2.tracing = s.tracing ∧ ∀ q, avail (fillLoop hashable s qs).2 q = avail s q + qs.count q := by
  induction qs with
  | nil => intro s _; simp [fillLoop]
  | cons q qs ih =>
    intro s h
    unfold fillLoop
    simp only [generate]
    rw [if_pos (h q (by simp))]
    obtain ⟨a, b⟩ := ih { s with generated := s.generated + 1, cache := store s.cache q ⟨s.generated, q⟩ } fun x hx => h x (by simp [hx])
    refine ⟨a, fun r => ?_⟩
    rw [b, avail_store, List.count_cons, beq_eq_decide]
    by_cases hq : q = r <;> simp [hq] <;> omega

private theorem trace_requests (qs : List Req) : ∀ s : Provider Req, s.tracing = true →
    (run hashable s (qs.map .request)).2.requests = s.requests ++ qs ∧ (run hashable s (qs.map .request)).2.cache = s.cache := by
  induction qs with
  | nil => intro s _; simp [run]
  | cons q qs ih =>
    intro s h
    have hr : (request hashable s q).2 = { s with requests := s.requests ++ [q], generated := s.generated + 1 } := by
      unfold request; rw [if_pos h]; rfl
    simp only [List.map_cons, run, step, hr]
    obtain ⟨a, b⟩ := ih { s with requests := s.requests ++ [q], generated := s.generated + 1 } h
    exact ⟨by rw [a]; simp, b⟩

private theorem run_append (os os' : List (Op Req)) : ∀ s : Provider Req,
    run hashable s (os ++ os') = ((run hashable s os).1 ++ (run hashable (run hashable s os).2 os').1, (run hashable (run hashable s os).2 os').2) := by
  induction os with
  | nil => intro s; simp [run]
  | cons o os ih =>
    intro s
    simp only [List.cons_append, run, ih]
    cases o <;> simp [step]

private theorem avail_cache {s : Provider Req} {q : Req} (h : 0 < avail s q) : s.cache ≠ [] := by
  intro h'
  simp [avail, h', lookup] at h

private theorem request_avail {s : Provider Req} (ht : s.tracing = false) {q : Req} (hq : hashable q = true) (h : 0 < avail s q) :
    ∃ t, request hashable s q = (.ok t, { s with cache := (request hashable s q).2.cache })
      ∧ (∀ r, avail s r = avail (request hashable s q).2 r + if q = r then 1 else 0) := by
  unfold request
  rw [if_neg (by simp [ht]), if_neg (avail_cache h), if_neg (by simp [hq])]
  cases hl : lookup s.cache q with
  | none => simp [avail, hl] at h
  | some l =>
    cases hg : l.getLast? with
    | none =>
      rw [List.getLast?_eq_none_iff] at hg
      simp [avail, hl, hg] at h
    | some t =>
      simp only
      have hlen : 0 < l.length := by
        rw [List.length_pos_iff]; rintro rfl; simp at hg
      refine ⟨t, by simp [hg], fun r => ?_⟩
      simp only [hg, avail, lookup_replace]
      by_cases hr : r = q
      · subst hr
        simp [hl]
        omega
      · simp [hr, Ne.symm hr]

private theorem consume (rs : List Req) : ∀ s : Provider Req, s.tracing = false → (∀ q ∈ rs, hashable q = true) → (∀ q, rs.count q ≤ avail s q) →
    (∀ a ∈ (run hashable s (rs.map .request)).1, ∃ t, a.2 = .ok t)
      ∧ (run hashable s (rs.map .request)).2.generated = s.generated
      ∧ (run hashable s (rs.map .request)).2.tracing = false
      ∧ (run hashable s (rs.map .request)).1.map Prod.fst = rs
      ∧ (rs ≠ [] ∨ s.cache ≠ [] → (run hashable s (rs.map .request)).2.cache ≠ [])
      ∧ (∀ q, (lookup s.cache q).isSome → (lookup (run hashable s (rs.map .request)).2.cache q).isSome)
      ∧ ∀ q, avail s q = avail (run hashable s (rs.map .request)).2 q + rs.count q := by
  induction rs with
  | nil => intro s h _ _; simp [run, h]
  | cons q rs ih =>
    intro s h hh hc
    have hpos : 0 < avail s q := by
      have := hc q
      rw [List.count_cons_self] at this
      omega
    obtain ⟨t, h1, h2⟩ := request_avail hashable h (hh q (by simp)) hpos
    obtain ⟨s', hs'⟩ : ∃ s', (request hashable s q).2 = s' := ⟨_, rfl⟩
    rw [hs'] at h1 h2
    have hs2 : s' = { s with cache := s'.cache } := by rw [← hs', h1]
    have ht' : s'.tracing = false := by rw [hs2]; exact h
    have hg' : s'.generated = s.generated := by rw [hs2]
    have hc' : ∀ r, rs.count r ≤ avail s' r := by
      intro r
      have a := hc r
      rw [h2 r, List.count_cons, beq_eq_decide] at a
      by_cases hq : q = r <;> simp [hq] at a <;> omega
    have hls : ∀ r, (lookup s.cache r).isSome → (lookup s'.cache r).isSome := by
      intro r hr
      rw [← hs']
      unfold request
      rw [if_neg (by simp [h]), if_neg (avail_cache hpos), if_neg (by simp [hh q (by simp)])]
      cases hl : lookup s.cache q with
      | none => simpa [generate] using hr
      | some l =>
        cases hg : l.getLast? with
        | none => simpa [hg] using hr
        | some t =>
          simp only [hg, lookup_replace]
          by_cases hrq : r = q
          · simp [hrq, hl]
          · simpa [hrq] using hr
    have hne : s'.cache ≠ [] := by
      intro h0
      have : (lookup s.cache q).isSome := by
        cases hl : lookup s.cache q with
        | none => simp [avail, hl] at hpos
        | some l => rfl
      have := hls q this
      simp [h0, lookup] at this
    obtain ⟨a, b, c, d, e, f, g⟩ := ih s' ht' (fun x hx => hh x (by simp [hx])) hc'
    simp only [List.map_cons, run, step, hs']
    have h1' : (request hashable s q).1 = .ok t := by rw [h1]
    refine ⟨?_, by rw [b, hg'], c, by simp [d], fun _ => e (.inr hne), fun r hr => f r (hls r hr), fun r => ?_⟩
    · intro x hx
      rw [List.mem_cons] at hx
      rcases hx with rfl | hx
      · exact ⟨t, h1'⟩
      · exact a x hx
    · rw [h2 r, g r, List.count_cons, beq_eq_decide]
      by_cases hq : q = r <;> simp [hq] <;> omega

/-- Trace the requests of a computation, stop tracing, and fill the cache. -/
def prepare (qs : List Req) : List (Op Req) := .trace true :: qs.map .request ++ [.trace false, .fill]

private theorem prepare_ok {qs : List Req} (h : ∀ q ∈ qs, hashable q = true) :
    (run hashable {} (prepare qs)).2.tracing = false ∧ ∀ q, avail (run hashable {} (prepare qs)).2 q = qs.count q := by
  unfold prepare
  rw [run_append]
  simp only [run, step]
  obtain ⟨a, b⟩ := trace_requests hashable qs (trace ({} : Provider Req) true) rfl
  obtain ⟨s, hs⟩ : ∃ s, (run hashable (trace ({} : Provider Req) true) (qs.map .request)).2 = s := ⟨_, rfl⟩
  rw [hs] at a b ⊢
  have ha : s.requests = qs := by rw [a]; rfl
  have hb : s.cache = [] := by rw [b]; rfl
  obtain ⟨c, d⟩ := fillLoop_avail hashable qs (s.trace false) h
  have hf : fill hashable (s.trace false) = fillLoop hashable (s.trace false) qs := by
    unfold fill; rw [show (s.trace false).requests = qs from ha]
  rw [hf]
  refine ⟨c, fun q => ?_⟩
  rw [d]
  have : avail (s.trace false) q = 0 := by simp [avail, trace, hb, lookup]
  omega

end Provider

open Provider

/-- **C35.** In any history of tracing, filling, saving, loading and requests, with errors caught or not, each answer is a tuple generated for exactly this request, and no
tuple is handed out twice. Missing from the full property: that every request has an answer, which is false (`C35_exhausted_wrong`); what holds is `C35_filled_partial`. -/
theorem C35_tuples_partial {Req : Type} [DecidableEq Req] (hashable : Req → Bool) (os : List (Op Req)) :
    (∀ a ∈ (run hashable {} os).1, ∀ t, a.2 = .ok t → t.req = a.1) ∧ ((served (run hashable {} os).1).map Tup.id).Nodup := by
  obtain ⟨a, b, -⟩ := run_ok hashable os {} ⟨dictOk_nil, dictOk_nil, by simp [stock, ids]⟩ (by simp [stock, ids])
  exact ⟨a, b⟩

/-- **C35, what is filled can be used.** Trace any requests, fill the cache, and then ask for any part of what was traced, in any order: every request is answered from the
cache, and nothing is generated on the way. -/
theorem C35_filled_partial {Req : Type} [DecidableEq Req] (hashable : Req → Bool) (qs rs : List Req) (h : ∀ q ∈ qs, hashable q = true) (hr : ∀ q, rs.count q ≤ qs.count q) :
    (∀ a ∈ (run hashable (run hashable {} (prepare qs)).2 (rs.map .request)).1, ∃ t, a.2 = .ok t)
      ∧ (run hashable {} (prepare qs ++ rs.map .request)).2.generated = (run hashable {} (prepare qs)).2.generated := by
  obtain ⟨a, b⟩ := prepare_ok hashable h
  have hh : ∀ q ∈ rs, hashable q = true := by
    intro q hq
    refine h q ?_
    rw [← List.count_pos_iff] at hq ⊢
    exact lt_of_lt_of_le hq (hr q)
  obtain ⟨c, d, -⟩ := consume hashable rs _ a hh fun q => (hr q).trans (b q).ge
  exact ⟨c, by rw [run_append]; exact d⟩

/-- **C35 fails: a used-up entry raises.** After tracing and filling, use up the tuples of any traced request: asking once more does not fall back to generating a tuple, it
raises an IndexError. -/
theorem C35_exhausted_wrong {Req : Type} [DecidableEq Req] (hashable : Req → Bool) (qs : List Req) (h : ∀ q ∈ qs, hashable q = true) (q : Req) (hq : q ∈ qs) :
    (request hashable (run hashable {} (prepare qs ++ (List.replicate (qs.count q) q).map .request)).2 q).1 = .error .indexError := by
  obtain ⟨a, b⟩ := prepare_ok hashable h
  rw [run_append]
  obtain ⟨s, hs⟩ : ∃ s, (run hashable {} (prepare qs)).2 = s := ⟨_, rfl⟩
  rw [hs] at a b ⊢
  have hc : ∀ r, (List.replicate (qs.count q) q).count r ≤ avail s r := by
    intro r
    rw [b, List.count_replicate]
    split
    · rename_i e
      rw [beq_iff_eq] at e
      rw [e]
    · exact Nat.zero_le _
  have hpos : 0 < avail s q := by rw [b]; exact List.count_pos_iff.2 hq
  obtain ⟨-, -, d, -, e, f, g⟩ := consume hashable _ s a (fun r hr => by rw [List.eq_of_mem_replicate hr]; exact h q hq) hc
  obtain ⟨s', hs'⟩ : ∃ s', (run hashable s ((List.replicate (qs.count q) q).map .request)).2 = s' := ⟨_, rfl⟩
  simp only [hs'] at d e f g ⊢
  have hz : avail s' q = 0 := by
    have := g q
    rw [b, List.count_replicate_self] at this
    omega
  have hsome : (lookup s'.cache q).isSome := f q (by
    cases hl : lookup s.cache q with
    | none => simp [avail, hl] at hpos
    | some l => rfl)
  unfold request
  rw [if_neg (by simp [d]), if_neg (e (.inr (avail_cache hpos))), if_neg (by simp [h q hq])]
  cases hl : lookup s'.cache q with
  | none => simp [hl] at hsome
  | some l =>
    have : l = [] := by simpa [avail, hl] using hz
    subst this
    rfl

-- Two requests of one kind and one of another, and a third request of the first kind.
example : (request (fun _ : ℕ => true) (run (fun _ => true) {} (prepare [1, 2, 1] ++ [.request 1, .request 1])).2 1).1 = .error .indexError :=
  C35_exhausted_wrong (fun _ => true) [1, 2, 1] (by simp) 1 (by simp)
example : ((served (run (fun _ : ℕ => true) {} (prepare [1, 2, 1] ++ [.request 1, .save, .load, .request 2, .request 3, .request 1])).1).map Tup.id) = [0, 1, 2, 5, 4, 6, 3] := by decide

end CrypTen

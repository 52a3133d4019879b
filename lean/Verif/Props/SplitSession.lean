import Verif.Spec.SplitSession

/-!
# C82: sizes in split training
-/

namespace CrypTen.SplitSession

variable {k : ℕ}

/-- What holds in a session in which all forward passes have the same sizes. -/
structure Inv (lw size lastIn : Size) (t h : Bool) (s : Session k) : Prop where
  agree : Agree s
  mode : s.feature.training = t
  seen : h = true → s.feature.preds = some size ∧ s.feature.lastInput = some lastIn
  preds : s.feature.cache.preds = none ∨ s.feature.cache.preds = some size
  lastIn : s.feature.cache.lastIn = none ∨ s.feature.cache.lastIn = some lastIn
  lastWeight : s.feature.cache.lastWeight = none ∨ s.feature.cache.lastWeight = some lw

theorem communicate_same {e : Option Size} {v : Size} (h : e = none ∨ e = some v) :
    (communicateAndCache e v).1 = v ∧ (communicateAndCache e v).2.1 = some v := by
  rcases h with rfl | rfl <;> exact ⟨rfl, rfl⟩

theorem call_returned {lw : Size} {s : Session k} {c : Call}
    (hb : ∀ i, (callOther lw s.feature (s.others i) c).broadcasts = (callFeature lw s.feature c).broadcasts)
    (hf : (callFeature lw s.feature c).result = .done)
    (ho : ∀ i, (callOther lw s.feature (s.others i) c).result = .done) :
    call lw s c = .returned ⟨(callFeature lw s.feature c).party, fun i => (callOther lw s.feature (s.others i) c).party⟩ := by
  unfold call
  simp only
  rw [if_neg (by rintro ⟨i, hi⟩; exact hi (hb i)), if_pos ⟨hf, ho⟩]

/-- Whether there was a forward pass in training mode, after one more call. -/
def seenAfter (t h : Bool) : Call → Bool
  | .forward _ _ _ => h || t
  | _ => h

theorem inv_call {lw : Size} {b : ℕ} {size lastIn : Size} {t h : Bool} {s : Session k}
    (hi : Inv lw (b :: size) (b :: lastIn) t h s) (c : Call)
    (hc : ∀ d s l, c = .forward d s l → s = b :: size ∧ l = b :: lastIn) (hr : c = .backward → h = true) :
    ∃ s', call lw s c = .returned s' ∧ Inv lw (b :: size) (b :: lastIn) (modeAfter t [c])
      (seenAfter t h c) s' := by
  obtain ⟨ha, hm, hs, hp, hl, hw⟩ := hi
  cases c with
  | train mode =>
    refine ⟨_, call_returned (fun _ => rfl) rfl (fun _ => rfl), ⟨fun i => ⟨(ha i).1, rfl, (ha i).2.2⟩, rfl, hs, hp, hl, hw⟩⟩
  | forward d sz l =>
    obtain ⟨rfl, rfl⟩ := hc d sz l rfl
    cases t with
    | false =>
      have hm' : ∀ i, (s.others i).training = false := fun i => by rw [(ha i).2.1, hm]
      have e1 : callFeature lw s.feature (.forward d (b :: size) (b :: lastIn)) = ⟨0, .done, s.feature⟩ := by
        simp [callFeature, forwardFeature, hm]
      have e2 : ∀ i, callOther lw s.feature (s.others i) (.forward d (b :: size) (b :: lastIn))
          = ⟨0, .done, s.others i⟩ := fun i => by simp [callOther, forwardOther, hm' i]
      refine ⟨_, call_returned (fun i => by rw [e1, e2]) (by rw [e1]) (fun i => by rw [e2]), ?_⟩
      simp only [e1, e2, seenAfter, Bool.or_false]
      exact ⟨ha, hm, hs, hp, hl, hw⟩
    | true =>
      have hm' : ∀ i, (s.others i).training = true := fun i => by rw [(ha i).2.1, hm]
      have hne : ¬(s.feature.cache.preds ≠ none ∧ s.feature.cache.preds ≠ some (b :: size)) := by
        rintro ⟨h1, h2⟩; exact hp.elim h1 h2
      cases d with
      | false =>
        have e1 : callFeature lw s.feature (.forward false (b :: size) (b :: lastIn))
            = ⟨1, .done, { s.feature with preds := some (b :: size), lastInput := some (b :: lastIn) }⟩ := by
          simp only [callFeature, forwardFeature, hm, not_true_eq_false, ↓reduceIte, if_neg hne, Bool.false_eq_true]
        have e2 : ∀ i, callOther lw s.feature (s.others i) (.forward false (b :: size) (b :: lastIn))
            = ⟨1, .done, { s.others i with preds := some (b :: size) }⟩ := fun i => by
          simp [callOther, forwardOther, hm' i]
        refine ⟨_, call_returned (fun i => by rw [e1, e2]) (by rw [e1]) (fun i => by rw [e2]), ?_⟩
        simp only [e1, e2]
        exact ⟨fun i => ⟨rfl, (ha i).2.1, (ha i).2.2⟩, hm, fun _ => ⟨rfl, rfl⟩, hp, hl, hw⟩
      | true =>
        obtain ⟨c1, c2⟩ := communicate_same hp
        have e1 : callFeature lw s.feature (.forward true (b :: size) (b :: lastIn))
            = ⟨(communicateAndCache s.feature.cache.preds (b :: size)).2.2, .done,
              { s.feature with preds := some (b :: size), lastInput := some (b :: lastIn), cache := { s.feature.cache with preds := some (b :: size) } }⟩ := by
          simp only [callFeature, forwardFeature, hm, not_true_eq_false, ↓reduceIte, if_neg hne, c2]
        have e2 : ∀ i, callOther lw s.feature (s.others i) (.forward true (b :: size) (b :: lastIn))
            = ⟨(communicateAndCache s.feature.cache.preds (b :: size)).2.2, .done,
              { s.others i with preds := some (b :: size), cache := { s.feature.cache with preds := some (b :: size) } }⟩ := fun i => by
          simp only [callOther, forwardOther, hm' i, (ha i).2.2, not_true_eq_false, ↓reduceIte, c1, c2]
        refine ⟨_, call_returned (fun i => by rw [e1, e2]) (by rw [e1]) (fun i => by rw [e2]), ?_⟩
        simp only [e1, e2]
        exact ⟨fun i => ⟨rfl, (ha i).2.1, rfl⟩, hm, fun _ => ⟨rfl, rfl⟩, Or.inr rfl, hl, hw⟩
  | backward =>
    have hh := hr rfl
    obtain ⟨s1, s2⟩ := hs hh
    obtain ⟨c1, c2⟩ := communicate_same hl
    obtain ⟨c3, c4⟩ := communicate_same hw
    have hp' : ∀ i, (s.others i).preds = some (b :: size) := fun i => by rw [(ha i).1, s1]
    have e1 : callFeature lw s.feature .backward
        = ⟨(communicateAndCache s.feature.cache.lastIn (b :: lastIn)).2.2 + (communicateAndCache s.feature.cache.lastWeight lw).2.2,
          .done, { s.feature with cache := { s.feature.cache with lastIn := some (b :: lastIn), lastWeight := some lw } }⟩ := by
      simp only [callFeature, backwardFeature, s2, c2, c4, s1, matmulEnds, ↓reduceIte]
    have e2 : ∀ i, callOther lw s.feature (s.others i) .backward
        = ⟨(communicateAndCache s.feature.cache.lastIn (b :: lastIn)).2.2 + (communicateAndCache s.feature.cache.lastWeight lw).2.2,
          .done, { s.others i with lastInput := some (b :: lastIn), cache := { s.feature.cache with lastIn := some (b :: lastIn), lastWeight := some lw } }⟩ := fun i => by
      simp only [callOther, backwardOther, hp' i, s2, Option.getD_some, (ha i).2.2, reduceCtorEq, ↓reduceIte, c1, c2, c4, matmulEnds]
    refine ⟨_, call_returned (fun i => by rw [e1, e2]) (by rw [e1]) (fun i => by rw [e2]), ?_⟩
    simp only [e1, e2]
    exact ⟨fun i => ⟨(ha i).1, (ha i).2.1, rfl⟩, hm, fun _ => ⟨s1, s2⟩, hp, Or.inr rfl, Or.inr rfl⟩

theorem inv_calls {lw : Size} {b : ℕ} {size lastIn : Size} {t h : Bool} {s : Session k}
    (hi : Inv lw (b :: size) (b :: lastIn) t h s) (cs : List Call) (hc : SameSizes (b :: size) (b :: lastIn) cs)
    (hr : Ready t h cs) : ∃ s' h', calls lw s cs = .returned s' ∧ Inv lw (b :: size) (b :: lastIn) (modeAfter t cs) h' s' := by
  induction cs generalizing s t h with
  | nil => exact ⟨s, h, rfl, hi⟩
  | cons c cs ih =>
    obtain ⟨s', h1, h2⟩ := inv_call hi c (hc c (by simp)) (by rintro rfl; exact hr.1)
    have hc' : SameSizes (b :: size) (b :: lastIn) cs := fun c h => hc c (List.mem_cons_of_mem _ h)
    have hr' : Ready (modeAfter t [c]) (seenAfter t h c) cs := by
      cases c with
      | forward => exact hr
      | backward => exact hr.2
      | train => exact hr
    obtain ⟨s'', h'', h3, h4⟩ := ih h2 hc' hr'
    refine ⟨s'', h'', by simp only [calls, h1, h3], ?_⟩
    cases c <;> exact h4

/-- **C82.** If all forward passes have the same sizes, then for every sequence of calls in which no backward pass comes
before the first forward pass, with caching on or off in each of them, every call returns at every party, and all parties
assume the same sizes. -/
theorem C82_same_sizes_partial (lw : Size) (b : ℕ) (size lastIn : Size) (cs : List Call)
    (hc : SameSizes (b :: size) (b :: lastIn) cs) (hr : Ready true false cs) :
    ∃ s : Session k, calls lw (.new k) cs = .returned s ∧ Agree s ∧
      (s.feature.preds = none ∨ s.feature.preds = some (b :: size)) := by
  have h0 : Inv lw (b :: size) (b :: lastIn) true false (Session.new k) :=
    ⟨fun _ => ⟨rfl, rfl, rfl⟩, rfl, fun h => by simp at h, Or.inl rfl, Or.inl rfl, Or.inl rfl⟩
  obtain ⟨s', h', h1, h2⟩ := inv_calls h0 cs hc hr
  refine ⟨s', h1, h2.agree, ?_⟩
  clear h2 h0
  -- the size of the predictions is never anything else
  have key : ∀ (cs : List Call) (s : Session k) s', SameSizes (b :: size) (b :: lastIn) cs →
      (s.feature.preds = none ∨ s.feature.preds = some (b :: size)) → calls lw s cs = .returned s' →
      (s'.feature.preds = none ∨ s'.feature.preds = some (b :: size)) := by
    intro cs
    induction cs with
    | nil => intro s s' _ h e; simp only [calls, Outcome.returned.injEq] at e; exact e ▸ h
    | cons c cs ih =>
      intro s s' hc h e
      simp only [calls] at e
      split at e
      · next t ht =>
        refine ih t s' (fun c h => hc c (List.mem_cons_of_mem _ h)) ?_ e
        unfold call at ht
        simp only at ht
        split at ht
        · exact nomatch ht
        · split at ht
          · simp only [Outcome.returned.injEq] at ht
            subst ht
            cases c with
            | train m => exact h
            | backward => simp only [callFeature, backwardFeature]; split <;> exact h
            | forward d sz l =>
              obtain ⟨rfl, rfl⟩ := hc _ (by simp) d sz l rfl
              simp only [callFeature, forwardFeature]
              split
              · exact h
              · split
                · exact Or.inr rfl
                · split <;> exact Or.inr rfl
          · split at ht <;> exact nomatch ht
      · next hne => exact absurd e (hne s')
  exact key cs _ s' hc (Or.inl rfl) h1

/-- The session in which nothing was cached. -/
structure Fresh (t : Bool) (s : Session k) : Prop where
  mode : s.feature.training = t ∧ ∀ i, (s.others i).training = t
  cache : s.feature.cache.preds = none ∧ ∀ i, (s.others i).cache.preds = none

theorem fresh_calls {lw : Size} {t : Bool} {s : Session k} (hs : Fresh t s) (cs : List Call) (hc : OnlyForward cs) :
    ∃ s', calls lw s cs = .returned s' ∧ Fresh (modeAfter t cs) s' := by
  induction cs generalizing s t with
  | nil => exact ⟨s, rfl, hs⟩
  | cons c cs ih =>
    have hc' : OnlyForward cs := fun c h => hc c (List.mem_cons_of_mem _ h)
    obtain ⟨⟨m1, m2⟩, ⟨c1, c2⟩⟩ := hs
    rcases hc c (by simp) with ⟨sz, l, rfl⟩ | ⟨m, rfl⟩
    · cases t with
      | false =>
        have e1 : callFeature lw s.feature (.forward false sz l) = ⟨0, .done, s.feature⟩ := by
          simp [callFeature, forwardFeature, m1]
        have e2 : ∀ i, callOther lw s.feature (s.others i) (.forward false sz l) = ⟨0, .done, s.others i⟩ :=
          fun i => by simp [callOther, forwardOther, m2 i]
        have hcall := call_returned (s := s) (lw := lw) (fun i => by rw [e1, e2]) (by rw [e1]) (fun i => by rw [e2])
        simp only [e1, e2] at hcall
        obtain ⟨s', h1, h2⟩ := ih (t := false) (s := ⟨s.feature, fun i => s.others i⟩) ⟨⟨m1, m2⟩, ⟨c1, c2⟩⟩ hc'
        exact ⟨s', by simp only [calls, hcall, h1], h2⟩
      | true =>
        have e1 : callFeature lw s.feature (.forward false sz l)
            = ⟨1, .done, { s.feature with preds := some sz, lastInput := some l }⟩ := by
          simp [callFeature, forwardFeature, m1, c1]
        have e2 : ∀ i, callOther lw s.feature (s.others i) (.forward false sz l)
            = ⟨1, .done, { s.others i with preds := some sz }⟩ :=
          fun i => by simp [callOther, forwardOther, m2 i]
        have hcall := call_returned (s := s) (lw := lw) (fun i => by rw [e1, e2]) (by rw [e1]) (fun i => by rw [e2])
        simp only [e1, e2] at hcall
        obtain ⟨s', h1, h2⟩ := ih (t := true) (s := ⟨{ s.feature with preds := some sz, lastInput := some l },
          fun i => { s.others i with preds := some sz }⟩) ⟨⟨m1, m2⟩, ⟨c1, c2⟩⟩ hc'
        exact ⟨s', by simp only [calls, hcall, h1], h2⟩
    · have hcall := call_returned (s := s) (lw := lw) (c := .train m) (fun _ => rfl) rfl (fun _ => rfl)
      obtain ⟨s', h1, h2⟩ := ih (t := m) (s := ⟨{ s.feature with training := m }, fun i => { s.others i with training := m }⟩)
        ⟨⟨rfl, fun _ => rfl⟩, ⟨c1, c2⟩⟩ hc'
      refine ⟨s', ?_, h2⟩
      simp only [calls, hcall]
      exact h1

theorem calls_append (lw : Size) (s : Session k) (cs ds : List Call) :
    calls lw s (cs ++ ds) = (match calls lw s cs with | .returned s' => calls lw s' ds | r => r) := by
  induction cs generalizing s with
  | nil => rfl
  | cons c cs ih =>
    simp only [List.cons_append, calls]
    cases call lw s c with
    | returned s' => exact ih s'
    | split => rfl
    | stuck => rfl
    | raised => rfl

/-- **C82.** Without caching, forward passes of changing sizes all return, and after each of them in training mode all
parties know the size of the predictions. -/
theorem C82_forward_without_cache (lw : Size) (cs : List Call) (hc : OnlyForward cs) (ht : modeAfter true cs = true)
    (size lastIn : Size) :
    ∃ s : Session k, calls lw (.new k) (cs ++ [.forward false size lastIn]) = .returned s ∧
      s.feature.preds = some size ∧ ∀ i, (s.others i).preds = some size := by
  obtain ⟨s, h1, ⟨⟨m1, m2⟩, ⟨c1, c2⟩⟩⟩ := fresh_calls (k := k) (lw := lw) (t := true) (s := Session.new k)
    ⟨⟨rfl, fun _ => rfl⟩, ⟨rfl, fun _ => rfl⟩⟩ cs hc
  rw [ht] at m1 m2
  have e1 : callFeature lw s.feature (.forward false size lastIn)
      = ⟨1, .done, { s.feature with preds := some size, lastInput := some lastIn }⟩ := by
    simp [callFeature, forwardFeature, m1, c1]
  have e2 : ∀ i, callOther lw s.feature (s.others i) (.forward false size lastIn)
      = ⟨1, .done, { s.others i with preds := some size }⟩ :=
    fun i => by simp [callOther, forwardOther, m2 i]
  have hcall := call_returned (s := s) (lw := lw) (fun i => by rw [e1, e2]) (by rw [e1]) (fun i => by rw [e2])
  simp only [e1, e2] at hcall
  refine ⟨⟨{ s.feature with preds := some size, lastInput := some lastIn }, fun i => { s.others i with preds := some size }⟩,
    ?_, rfl, fun _ => rfl⟩
  rw [calls_append, h1]
  simp only [calls, hcall]

/-- **C82, false for batches of different sizes.** Also without caching, the second of two iterations with batches of
different sizes fails: the size of the last layer's input is cached in any case, so all parties except the feature source
multiply tensors of different sizes and raise, while the feature source continues alone. -/
theorem C82_other_batch_wrong (lw : Size) (k : ℕ) (b b' : ℕ) (hb : b ≠ b') (s s' l l' : Size) :
    ∃ t, calls lw (.new (k + 1)) [.forward false (b :: s) (b :: l), .backward, .forward false (b' :: s') (b' :: l'), .backward]
      = .split .done (fun _ => .raised) t := by
  have hb' : b' ≠ b := fun h => hb h.symm
  simp [calls, call, callFeature, callOther, forwardFeature, forwardOther, backwardFeature, backwardOther, Session.new,
    Party.new, Cache.empty, communicateAndCache, matmulEnds, hb']

/-- **C82, false for batches of different sizes.** With caching, a forward pass of another size raises at the feature source
only; the other parties return and assume the old size. -/
theorem C82_cached_batch_wrong (lw : Size) (k : ℕ) (p p' l l' : Size) (hp : p ≠ p') :
    ∃ t, calls lw (.new (k + 1)) [.forward true p l, .forward true p' l'] = .split .raised (fun _ => .done) t ∧
      ∀ i, (t.others i).preds = some p := by
  simp [calls, call, callFeature, callOther, forwardFeature, forwardOther, Session.new, Party.new, Cache.empty,
    communicateAndCache, hp]

/-- **C82, false after caching.** Switching the cache off does not help: the cached size is still compared, the feature
source raises, and the others wait for its broadcast for ever. -/
theorem C82_cache_off_wrong (lw : Size) (k : ℕ) (p p' l l' : Size) (hp : p ≠ p') :
    calls lw (.new (k + 1)) [.forward true p l, .forward false p' l'] = .stuck := by
  simp [calls, call, callFeature, callOther, forwardFeature, forwardOther, Session.new, Party.new, Cache.empty,
    communicateAndCache, hp]

/-- **C82, false for `loss.backward()`.** It always raises: the function is stored in the object and gets no `self`, so the
argument `self_` is missing (as a method of the class it would be accepted). -/
theorem C82_loss_backward_wrong : lossBackward 0 = .raised ∧ methodCall true 1 1 0 = .done := ⟨rfl, rfl⟩

/-- Non-vacuity: two iterations, an evaluation, and a third iteration with the cache switched off. -/
def session : List Call :=
  [.forward true [8, 1] [8, 5], .backward, .forward true [8, 1] [8, 5], .backward, .train false,
   .forward true [8, 1] [8, 5], .train true, .forward false [8, 1] [8, 5], .backward]

example : SameSizes [8, 1] [8, 5] session ∧ Ready true false session := by
  refine ⟨?_, by simp [session, Ready]⟩
  intro c hc b s l e
  subst e
  simp [session] at hc
  rcases hc with h | h <;> simp [h]

example : OnlyForward [.forward false [8, 1] [8, 5], .forward false [3, 1] [3, 5]] ∧
    modeAfter true [.forward false [8, 1] [8, 5], .forward false [3, 1] [3, 5]] = true := by
  refine ⟨?_, rfl⟩
  intro c hc
  simp at hc
  rcases hc with rfl | rfl
  · exact Or.inl ⟨_, _, rfl⟩
  · exact Or.inl ⟨_, _, rfl⟩

end CrypTen.SplitSession

import Verif.Spec.Context

/-!
# C32, C40, C41: temporary settings are undone
-/

namespace CrypTen

/-! ## C41 -/

/-- The execution with a global flag agrees with the lexical reading. -/
theorem C41_lexical (p : GradProg) (m : Bool) : p.Lexical m (p.run m).1 (p.run m).2.1 (p.run m).2.2 := by
  induction p generalizing m with
  | skip => exact .skip m
  | look => exact .look m
  | raise => exact .raise m
  | setEnabled m' => exact .setEnabled m m'
  | seq p q ihp ihq =>
    have h1 := ihp m
    unfold GradProg.run
    obtain ⟨r, hr⟩ : ∃ r, p.run m = r := ⟨_, rfl⟩
    obtain ⟨f1, e1, l1⟩ := r
    rw [hr] at h1 ⊢
    cases e1 with
    | raised => exact .seqRaised h1
    | normal => exact .seq h1 (ihq f1)
  | tryExcept p q ihp ihq =>
    have h1 := ihp m
    unfold GradProg.run
    obtain ⟨r, hr⟩ : ∃ r, p.run m = r := ⟨_, rfl⟩
    obtain ⟨f1, e1, l1⟩ := r
    rw [hr] at h1 ⊢
    cases e1 with
    | raised => exact .tryExcept h1 (ihq f1)
    | normal => exact .tryNormal h1
  | noGrad body ih => exact .noGrad (ih false)
  | enableGrad body ih => exact .enableGrad (ih true)

/-- The lexical reading determines everything, so nothing else can be observed. -/
theorem C41_lexical_unique {p : GradProg} {m m1 m2 : Bool} {e1 e2 : Exit} {l1 l2 : List Bool} (h1 : p.Lexical m m1 e1 l1) (h2 : p.Lexical m m2 e2 l2) :
    m1 = m2 ∧ e1 = e2 ∧ l1 = l2 := by
  induction h1 generalizing m2 e2 l2 with
  | skip => cases h2; simp
  | look => cases h2; simp
  | raise => cases h2; simp
  | setEnabled => cases h2; simp
  | seq a b iha ihb =>
    cases h2 with
    | seq c d => obtain ⟨rfl, -, rfl⟩ := iha c; obtain ⟨rfl, rfl, rfl⟩ := ihb d; simp
    | seqRaised c => exact absurd (iha c).2.1 (by decide)
  | seqRaised a iha =>
    cases h2 with
    | seq c d => exact absurd (iha c).2.1 (by decide)
    | seqRaised c => obtain ⟨rfl, -, rfl⟩ := iha c; simp
  | tryNormal a iha =>
    cases h2 with
    | tryNormal c => obtain ⟨rfl, -, rfl⟩ := iha c; simp
    | tryExcept c d => exact absurd (iha c).2.1 (by decide)
  | tryExcept a b iha ihb =>
    cases h2 with
    | tryNormal c => exact absurd (iha c).2.1 (by decide)
    | tryExcept c d => obtain ⟨rfl, -, rfl⟩ := iha c; obtain ⟨rfl, rfl, rfl⟩ := ihb d; simp
  | noGrad a iha => cases h2 with | noGrad c => obtain ⟨-, rfl, rfl⟩ := iha c; simp
  | enableGrad a iha => cases h2 with | enableGrad c => obtain ⟨-, rfl, rfl⟩ := iha c; simp

/-- **C41, one thread.** After any block, however it is left and whatever it contains, the flag is what it was before. -/
theorem C41_restored_partial (body : GradProg) (flag : Bool) :
    ((GradProg.noGrad body).run flag).1 = flag ∧ ((GradProg.enableGrad body).run flag).1 = flag := ⟨rfl, rfl⟩

/-- **C41, one thread.** At the start of a block, and again after any nested block that was left normally or whose exception was caught, the mode is the one the block asked for. -/
theorem C41_inside_partial (inner handler : GradProg) (flag : Bool) (h : (inner.run true).2.1 = .normal) :
    ((GradProg.noGrad (.seq .look (.seq (.enableGrad inner) .look))).run flag).2.2 = false :: ((inner.run true).2.2 ++ [false])
      ∧ ((GradProg.enableGrad (.seq (.tryExcept (.noGrad (.seq handler .raise)) .skip) .look)).run flag).2.2 = (handler.run false).2.2 ++ [true] := by
  constructor
  · obtain ⟨r, hr⟩ : ∃ r, inner.run true = r := ⟨_, rfl⟩
    obtain ⟨f1, e1, l1⟩ := r
    rw [hr] at h
    subst h
    simp [GradProg.run, hr]
  · obtain ⟨r, hr⟩ : ∃ r, handler.run false = r := ⟨_, rfl⟩
    obtain ⟨f1, e1, l1⟩ := r
    cases e1 <;> simp [GradProg.run, hr]

example : (GradProg.noGrad (.seq (.setEnabled true) .raise)).run true = (true, .raised, []) := rfl

/-- **C41 fails with threads.** Two threads each execute `with no_grad()`. In this schedule the second block saves the flag while the first one is running: its body then sees gradients
enabled, and after both blocks gradients stay disabled for good. -/
theorem C41_threads_wrong :
    let s := GradThreads.run { flag := true, prior := fun _ => true } [(0, .save), (0, .clear), (1, .save), (1, .clear), (0, .look), (0, .restore), (1, .look), (1, .restore)]
    s.flag = false ∧ s.seen = [(0, false), (1, true)] := by
  simp [GradThreads.run, GradThreads.step]

/-- Without overlap the flag is restored: any sequence of complete blocks, of any threads. -/
theorem C41_threads_serial (ts : List ℕ) (s : GradThreads) :
    (GradThreads.run s (ts.flatMap fun t => [(t, .save), (t, .clear), (t, .look), (t, .restore)])).flag = s.flag := by
  induction ts generalizing s with
  | nil => rfl
  | cons t ts ih =>
    rw [List.flatMap_cons, GradThreads.run, List.foldl_append]
    refine (ih _).trans ?_
    simp [GradThreads.step]

/-! ## C40 -/

namespace CfgProg

/-- what a block of code leaves alone -/
private structure Keeps (s s' : CfgState) : Prop where
  heap : ∀ r, r < s.free → r ≠ s.cur → s'.heap r = s.heap r
  free : s.free ≤ s'.free
  cur : s'.cur = s.cur ∨ s.free ≤ s'.cur
  lt : s'.cur < s'.free

private theorem Keeps.refl {s : CfgState} (h : s.cur < s.free) : Keeps s s := ⟨fun _ _ _ => rfl, Nat.le_refl _, .inl rfl, h⟩

private theorem Keeps.trans {s s' s'' : CfgState} (h : Keeps s s') (h' : Keeps s' s'') : Keeps s s'' := by
  refine ⟨fun r hr hne => ?_, Nat.le_trans h.free h'.free, ?_, h'.lt⟩
  · rw [h'.heap r (Nat.lt_of_lt_of_le hr h.free), h.heap r hr hne]
    rcases h.cur with e | e
    · rw [e]; exact hne
    · omega
  · rcases h'.cur with e | e
    · rw [e]; exact h.cur
    · exact .inr (Nat.le_trans h.free e)

private theorem keeps_install {s : CfgState} (c : CfgMap) (h : s.cur < s.free) : Keeps s (install s c) := by
  refine ⟨fun r hr _ => ?_, by simp [install], .inr (by simp [install]), by simp [install]⟩
  simp only [install]
  rw [Function.update_of_ne (by omega)]

private theorem run_keeps (p : CfgProg) : ∀ s : CfgState, s.cur < s.free → p.NoHeld → Keeps s (p.run s).1 := by
  induction p with
  | skip => exact fun s h _ => .refl h
  | raise => exact fun s h _ => .refl h
  | assign key v =>
    intro s h _
    refine ⟨fun r hr hne => ?_, Nat.le_refl _, .inl rfl, h⟩
    simp only [run]
    rw [Function.update_of_ne hne]
  | setItem key v => exact fun s h _ => keeps_install _ h
  | load c => exact fun s h _ => keeps_install _ h
  | hold x => exact fun s h _ => ⟨fun _ _ _ => rfl, Nat.le_refl _, .inl rfl, h⟩
  | assignHeld => intro s h hn; exact hn.elim
  | setConfig => intro s h hn; exact hn.elim
  | seq p q ihp ihq =>
    intro s h hn
    have h1 := ihp s h hn.1
    unfold run
    obtain ⟨r, hr⟩ : ∃ r, p.run s = r := ⟨_, rfl⟩
    obtain ⟨s1, e1⟩ := r
    rw [hr] at h1 ⊢
    cases e1 with
    | raised => exact h1
    | normal => exact h1.trans (ihq s1 h1.lt hn.2)
  | tryExcept p q ihp ihq =>
    intro s h hn
    have h1 := ihp s h hn.1
    unfold run
    obtain ⟨r, hr⟩ : ∃ r, p.run s = r := ⟨_, rfl⟩
    obtain ⟨s1, e1⟩ := r
    rw [hr] at h1 ⊢
    cases e1 with
    | normal => exact h1
    | raised => exact h1.trans (ihq s1 h1.lt hn.2)
  | override d body ih =>
    intro s h hn
    have h1 := (keeps_install ((s.heap s.cur).merge d) h).trans (ih (install s ((s.heap s.cur).merge d)) (keeps_install _ h).lt hn)
    unfold run
    exact ⟨h1.heap, h1.free, .inl rfl, Nat.lt_of_lt_of_le h h1.free⟩

end CfgProg

open CfgProg

/-- **C40, one thread.** After `with cfg.temp_override(d): body`, for every body that assigns through `cfg` (in either form, with further overrides, reloading the configuration, raising
and catching exceptions), every configuration value is what it was before, also if the body raised. -/
theorem C40_restored_partial (d : List (String × CfgVal)) (body : CfgProg) (hb : body.NoHeld) (s : CfgState) (h : s.cur < s.free) (key : String) :
    ((override d body).run s).1.lookup key = s.lookup key := by
  have h0 : Keeps s (install s ((s.heap s.cur).merge d)) := keeps_install _ h
  have h1 := run_keeps body (install s ((s.heap s.cur).merge d)) h0.lt hb
  have h2 := h1.heap s.cur (Nat.lt_of_lt_of_le h h0.free) (by simp only [install]; omega)
  unfold run CfgState.lookup
  change ((run body (install s ((s.heap s.cur).merge d))).1.heap s.cur) key = _
  rw [h2]
  simp only [install]
  rw [Function.update_of_ne (by omega)]

private theorem merge_get (d : List (String × CfgVal)) : ∀ (c : CfgMap) (key : String),
    (c.merge d) key = match d.reverse.find? (fun x => x.1 == key) with
      | some x => some x.2.dotlist
      | none => c key := by
  induction d with
  | nil => intro c key; rfl
  | cons x d ih =>
    intro c key
    have := ih (Function.update c x.1 (some x.2.dotlist)) key
    rw [CfgMap.merge, List.foldl_cons]
    refine this.trans ?_
    rw [List.reverse_cons, List.find?_append]
    cases hf : d.reverse.find? (fun x => x.1 == key) with
    | some y => rfl
    | none =>
      by_cases hk : x.1 = key
      · subst hk; simp
      · have : (x.1 == key) = false := by simpa using hk
        simp [List.find?_cons, this, Function.update_of_ne (Ne.symm hk)]

/-- **C40.** When the body starts, exactly the overridden keys have changed: a key not named keeps its value, and a named one has the value given for it (the last one, if it is named
more than once), unless that value is `None`. -/
theorem C40_inside_partial (d : List (String × CfgVal)) (s : CfgState) (key : String) :
    ((∀ v, (key, v) ∉ d) → (install s ((s.heap s.cur).merge d)).lookup key = s.lookup key)
      ∧ ∀ v, v ≠ .null → (key, v) ∈ d → (∀ w, (key, w) ∈ d → w = v) → (install s ((s.heap s.cur).merge d)).lookup key = some v := by
  have e : (install s ((s.heap s.cur).merge d)).lookup key = (s.heap s.cur).merge d key := by
    simp [install, CfgState.lookup]
  rw [e, merge_get]
  constructor
  · intro hk
    have : d.reverse.find? (fun x => x.1 == key) = none := by
      rw [List.find?_eq_none]
      rintro ⟨k, v⟩ hx
      rw [List.mem_reverse] at hx
      intro h
      rw [beq_iff_eq] at h
      exact hk v (h ▸ hx)
    rw [this]; rfl
  · intro v hv hm hu
    cases hf : d.reverse.find? (fun x => x.1 == key) with
    | none =>
      rw [List.find?_eq_none] at hf
      exact absurd (hf (key, v) (List.mem_reverse.2 hm)) (by simp)
    | some x =>
      obtain ⟨k, w⟩ := x
      have h1 := List.find?_some hf
      have h2 := List.mem_of_find?_eq_some hf
      rw [beq_iff_eq] at h1
      rw [List.mem_reverse] at h2
      have hk : k = key := h1
      subst hk
      have := hu w h2
      subst this
      cases w <;> simp_all [CfgVal.dotlist]

/-- the initial state of the examples -/
def cfgSample : CfgState := { heap := fun _ => fun k => if k = "functions.exp_iterations" then some (.int 8) else none, free := 1, cur := 0, var := fun _ => 0 }

/-- An override that changes two keys, inside it another override and an assignment, then an exception: undone. -/
example : ((override [("functions.exp_iterations", .int 2), ("a", .bool true)] (.seq (.override [("a", .null)] (.assign "a" (.int 1))) (.seq (.setItem "b" (.int 3)) .raise))).run cfgSample).1.lookup
    "functions.exp_iterations" = some (.int 8) := by
  rw [C40_restored_partial _ _ (by simp [CfgProg.NoHeld]) _ (by decide)]; rfl

/-- **C40 fails for `None`.** Overriding a key with `None` sets it to the string `"None"`, which is true as a condition. -/
theorem C40_none_wrong (key : String) (s : CfgState) : (install s ((s.heap s.cur).merge [(key, .null)])).lookup key = some (.str "None") := by
  simp [install, CfgState.lookup, CfgMap.merge, CfgVal.dotlist]

/-- **C40 fails for references taken before the block.** A program that holds a part of the configuration (`f = cfg.functions`) and assigns to it inside the block changes the
configuration permanently, and the block itself does not see the assignment. -/
theorem C40_held_reference_wrong :
    let p := CfgProg.seq (.hold "f") (.override [("debug", .bool true)] (.assignHeld "f" "functions.exp_iterations" (.int 3)))
    (p.run cfgSample).1.lookup "functions.exp_iterations" = some (.int 3) ∧ cfgSample.lookup "functions.exp_iterations" = some (.int 8) := by
  refine ⟨?_, rfl⟩
  simp [CfgProg.run, CfgProg.install, CfgState.lookup, cfgSample]

/-- Two threads share the configuration. `enter t d` and `leave t` are the two halves of `with cfg.temp_override(d)` in thread `t`; `old` is what each saved (config.py:88-97). -/
def overrideThreads (l : List (ℕ × Option (List (String × CfgVal)))) (c : CfgMap) (old : ℕ → CfgMap) : CfgMap :=
  match l with
  | [] => c
  | (t, some d) :: l => overrideThreads l (c.merge d) (Function.update old t c)
  | (t, none) :: l => overrideThreads l (old t) old

/-- **C40 fails with threads.** Two threads override one key each; the first leaves its block before the second. Afterwards the first thread's override is in force for good. -/
theorem C40_threads_wrong (c : CfgMap) (old : ℕ → CfgMap) :
    overrideThreads [(0, some [("functions.max_method", .str "pairwise")]), (1, some [("functions.exp_iterations", .int 3)]), (0, none), (1, none)] c old "functions.max_method"
      = some (.str "pairwise") := by
  simp [overrideThreads, CfgMap.merge, CfgVal.dotlist]

/-! ## C32 -/

private theorem enter_scale (ts : List ℕ) : ∀ h : EncHeap, (ts.foldl (fun h t => h.setScale t 1) h).encoder = h.encoder
    ∧ ∀ e, (ts.foldl (fun h t => h.setScale t 1) h).scale e = if ∃ t ∈ ts, h.encoder t = e then 1 else h.scale e := by
  induction ts with
  | nil => intro h; simp
  | cons t ts ih =>
    intro h
    obtain ⟨h1, h2⟩ := ih (h.setScale t 1)
    refine ⟨h1, fun e => ?_⟩
    rw [List.foldl_cons, h2]
    simp only [EncHeap.setScale, List.mem_cons, exists_eq_or_imp]
    by_cases h3 : ∃ t ∈ ts, h.encoder t = e
    · simp [h3]
    · by_cases h4 : h.encoder t = e
      · subst h4; simp
      · simp [h3, h4, Function.update_of_ne (Ne.symm h4)]

private theorem exit_scale (f : ℕ → ℤ) (ts : List ℕ) : ∀ h : EncHeap, (∀ t ∈ ts, ∀ t' ∈ ts, h.encoder t = h.encoder t' → f t = f t') →
    ((ts.zip (ts.map f)).foldl (fun h x => h.setScale x.1 x.2) h).encoder = h.encoder
    ∧ (∀ t ∈ ts, ((ts.zip (ts.map f)).foldl (fun h x => h.setScale x.1 x.2) h).scale (h.encoder t) = f t)
    ∧ ∀ e, (∀ t ∈ ts, h.encoder t ≠ e) → ((ts.zip (ts.map f)).foldl (fun h x => h.setScale x.1 x.2) h).scale e = h.scale e := by
  induction ts with
  | nil => intro h _; simp
  | cons t ts ih =>
    intro h hf
    obtain ⟨h1, h2, h3⟩ := ih (h.setScale t (f t)) (fun a ha b hb => hf a (List.mem_cons_of_mem _ ha) b (List.mem_cons_of_mem _ hb))
    rw [List.map_cons, List.zip_cons_cons, List.foldl_cons]
    refine ⟨h1, fun x hx => ?_, fun e he => ?_⟩
    · by_cases hm : x ∈ ts
      · exact h2 x hm
      · have hxt : x = t := by
          rcases List.mem_cons.1 hx with e | e
          · exact e
          · exact absurd e hm
        subst hxt
        by_cases hex : ∃ y ∈ ts, h.encoder y = h.encoder x
        · obtain ⟨y, hy, hye⟩ := hex
          have := h2 y hy
          have hc : (h.setScale x (f x)).encoder y = h.encoder x := hye
          rw [hc] at this
          rw [this]
          exact hf y (List.mem_cons_of_mem _ hy) x hx hye
        · have := h3 (h.encoder x) (fun y hy hye => hex ⟨y, hy, hye⟩)
          simp only [EncHeap.setScale] at this ⊢
          rw [this, Function.update_self]
    · have := h3 e fun y hy => he y (List.mem_cons_of_mem _ hy)
      simp only [EncHeap.setScale] at this ⊢
      rw [this, Function.update_of_ne (Ne.symm (he t (by simp)))]

/-- **C32.** Inside the block every operand has scale 1. After the block, left normally or by an exception, every operand has the scale it had before, even if operands are the same
tensor or share an encoder and even if the body changes the scales of these encoders; all other encoders are as the body left them. The body must not replace the encoder object
of an operand. -/
theorem C32_scales_restored (ts : List ℕ) (body : EncHeap → EncHeap × Exit) (h : EncHeap) (hb : ∀ h', ∀ t ∈ ts, (body h').1.encoder t = h'.encoder t) :
    (∀ t ∈ ts, (ts.foldl (fun h t => h.setScale t 1) h).scaleOf t = 1)
      ∧ (∀ t ∈ ts, (ignoreEncodings ts body h).1.scaleOf t = h.scaleOf t)
      ∧ (∀ e, (∀ t ∈ ts, h.encoder t ≠ e) → (ignoreEncodings ts body h).1.scale e = (body (ts.foldl (fun h t => h.setScale t 1) h)).1.scale e)
      ∧ (ignoreEncodings ts body h).2 = (body (ts.foldl (fun h t => h.setScale t 1) h)).2 := by
  obtain ⟨e1, e2⟩ := enter_scale ts h
  obtain ⟨h1, hh1⟩ : ∃ h1, ts.foldl (fun h t => h.setScale t 1) h = h1 := ⟨_, rfl⟩
  rw [hh1] at e1 e2 ⊢
  have henc : ∀ t ∈ ts, (body h1).1.encoder t = h.encoder t := fun t ht => by rw [hb h1 t ht, e1]
  obtain ⟨x1, x2, x3⟩ := exit_scale h.scaleOf ts (body h1).1 (fun t ht t' ht' he => by
    rw [henc t ht, henc t' ht'] at he
    unfold EncHeap.scaleOf; rw [he])
  have hdef : ignoreEncodings ts body h = ((ts.zip (ts.map h.scaleOf)).foldl (fun h x => h.setScale x.1 x.2) (body h1).1, (body h1).2) := by
    unfold ignoreEncodings; rw [← hh1]
  rw [hdef]
  refine ⟨fun t ht => ?_, fun t ht => ?_, fun e he => ?_, rfl⟩
  · unfold EncHeap.scaleOf
    rw [e2, e1, if_pos ⟨t, ht, rfl⟩]
  · change EncHeap.scale _ (EncHeap.encoder _ t) = _
    rw [x1, x2 t ht]
  · exact x3 e fun t ht => by rw [henc t ht]; exact he t ht

/-- Two operands sharing one encoder of scale 65536, the first one listed twice, and a body that changes a scale and raises. -/
example : ((ignoreEncodings [0, 1, 0] (fun h => (h.setScale 1 7, .raised)) { encoder := fun t => t / 2, scale := fun _ => 65536 }).1.scaleOf 1, (ignoreEncodings [0, 1, 0]
    (fun h => (h.setScale 1 7, .raised)) { encoder := fun t => t / 2, scale := fun _ => 65536 }).2) = (65536, .raised) := by
  refine Prod.ext ?_ rfl
  exact (C32_scales_restored [0, 1, 0] (fun h => (h.setScale 1 7, .raised)) { encoder := fun t => t / 2, scale := fun _ => 65536 } (fun _ _ _ => rfl)).2.1 1 (by simp)

end CrypTen

import Verif.Lemmas.Export

/-!
# C81: what `to_pytorch` returns
-/

namespace CrypTen.Export

variable {α : Type}

theorem encrypted_step (round : α → α) (s : State α) (e : Event α) :
    (step round s e).encrypted = isEncrypted s.encrypted [e] := by
  have hw : ∀ t n (f : α → α), (s.changeTorch t n f).encrypted = s.encrypted := by
    intro t n f; unfold State.changeTorch; split <;> rfl
  cases e with
  | encrypt => simp only [step, State.encrypt, isEncrypted]; cases h : s.encrypted <;> simp [h]
  | decrypt => simp only [step, State.encrypt, isEncrypted]; cases h : s.encrypted <;> simp [h]
  | train m => rfl
  | update n f => simp only [step, State.update, isEncrypted]; split <;> rfl
  | changeOriginal n f => exact hw _ _ _
  | changeExported n f => exact hw _ _ _
  | «export» => simp only [step, State.toPytorch, isEncrypted]; split <;> rfl

theorem encrypted_run (round : α → α) (s : State α) (es : List (Event α)) :
    (run round s es).encrypted = isEncrypted s.encrypted es := by
  induction es generalizing s with
  | nil => rfl
  | cons e es ih =>
    refine (ih (step round s e)).trans ?_
    rw [encrypted_step]
    cases e <;> rfl

/-- After an export of an unencrypted model, the result has the current values of the CrypTen model. -/
theorem export_value {n0 : ℕ} {m : Torch} {names : List String} {s : State α} (h : Inv n0 m names s)
    (he : s.encrypted = false) (hn : ∀ p ∈ m.params, p.1 ∈ names) :
    s.toPytorch.1 = .ok .kept ∧ ∀ p ∈ m.params, s.toPytorch.2.param .kept p.1 = s.value p.1 := by
  have hok : ∀ p ∈ s.kept.params, ∃ r, s.data.lookup p.1 = some (.plain r) := by
    intro p hp
    have hk : p.1 ∈ s.data.map Prod.fst := by
      rw [h.keys]
      have : p.1 ∈ s.kept.params.map Prod.fst := List.mem_map_of_mem hp
      rw [h.params] at this
      obtain ⟨q, hq, e⟩ := List.mem_map.mp this
      exact e ▸ hn q hq
    obtain ⟨d, hd⟩ := Option.isSome_iff_exists.mp (lookup_isSome.mpr hk)
    obtain ⟨r, hr, -⟩ := h.plain he _ (mem_of_lookup hd)
    exact ⟨r, by rw [hd]; exact congrArg some hr⟩
  obtain ⟨h1, h2⟩ := setParams_ok s.data s.kept.params hok
  simp only [State.toPytorch, he, Bool.false_eq_true, ↓reduceIte]
  refine ⟨by rw [h1]; rfl, fun p hp => ?_⟩
  have hk : p.1 ∈ (setParams s.data s.kept.params).2.map Prod.fst := by
    rw [setParams_keys, h.params]
    exact List.mem_map_of_mem hp
  obtain ⟨r, hr⟩ := Option.isSome_iff_exists.mp (lookup_isSome.mpr hk)
  rw [value_eq, h2 _ _ hr]
  simp only [State.param, State.torch, hr, Option.map_some, val]

theorem names_of_exported {store : ℕ → α} {m : Torch} {inits : List (String × α)} (hx : Exported store m inits) :
    ∀ p ∈ m.params, p.1 ∈ inits.map Prod.fst :=
  fun p hp => lookup_isSome.mp (by rw [hx.all p hp]; rfl)

/-- **C81.** After any history of encryptions, decryptions, updates and exports, `to_pytorch` of a model that is not
encrypted returns a PyTorch model whose parameters have exactly the values that the updates of the CrypTen model give
(starting from the converted model, rounded at each encryption), whatever the caller did to the original model. -/
theorem C81_export_partial (round : α → α) (store : ℕ → α) (n : ℕ) (m : Torch) (inits : List (String × α))
    (hm : Allocated n m) (hx : Exported store m inits) (es : List (Event α)) (hl : LeftAlone es)
    (he : isEncrypted false es = false) :
    let r := (run round (fromPytorch store n m inits) es).toPytorch
    r.1 = .ok .kept ∧ ∀ p ∈ m.params, r.2.param .kept p.1 = some (expected round p.1 (false, store p.2) es).2 := by
  have h := inv_run (round := round) (inv_from store n m inits hm) es
  have hf : (run round (fromPytorch store n m inits) es).encrypted = false := by rw [encrypted_run]; exact he
  obtain ⟨h1, h2⟩ := export_value h hf (names_of_exported hx)
  refine ⟨h1, fun p hp => ?_⟩
  rw [h2 p hp]
  exact (value_run (inv_from store n m inits hm) p.1 es hl (store p.2) (by rw [value_from, hx.all p hp])).1

/-- **C81.** The same for every history, also when the caller changes the exported model: the result has the current
values of the CrypTen model. -/
theorem C81_export_current (round : α → α) (store : ℕ → α) (n : ℕ) (m : Torch) (inits : List (String × α))
    (hm : Allocated n m) (hx : Exported store m inits) (es : List (Event α)) (he : isEncrypted false es = false) :
    let s := run round (fromPytorch store n m inits) es
    s.toPytorch.1 = .ok .kept ∧ ∀ p ∈ m.params, s.toPytorch.2.param .kept p.1 = s.value p.1 :=
  export_value (inv_run (inv_from store n m inits hm) es) (by rw [encrypted_run]; exact he) (names_of_exported hx)

/-- **C81.** An encrypted model is never exported: `to_pytorch` raises and changes nothing. -/
theorem C81_encrypted_raises (round : α → α) (store : ℕ → α) (n : ℕ) (m : Torch) (inits : List (String × α))
    (es : List (Event α)) (he : isEncrypted false es = true) :
    (run round (fromPytorch store n m inits) es).toPytorch
      = (.error .valueError, run round (fromPytorch store n m inits) es) := by
  have hf : (run round (fromPytorch store n m inits) es).encrypted = true := by rw [encrypted_run]; exact he
  simp only [State.toPytorch, hf, ↓reduceIte]

theorem write_low {s : State α} {r : ℕ} {f : α → α} {i : ℕ} (h : i ≠ r) : (s.write r f).store i = s.store i := by
  simp [State.write, h]

/-- Memory that existed before the conversion is only changed by the caller. -/
theorem low_step {round : α → α} {n0 : ℕ} {m : Torch} {names : List String} {s : State α} (h : Inv n0 m names s)
    (e : Event α) (he : ∀ n f, e ≠ .changeOriginal n f) {i : ℕ} (hi : i < n0) :
    (step round s e).store i = s.store i := by
  cases e with
  | encrypt => simp only [step, State.encrypt]; split <;> rfl
  | decrypt =>
    simp only [step, State.encrypt]
    split
    · next hne =>
      have hs : s.encrypted = true := by cases hh : s.encrypted <;> simp_all
      simp only [Bool.false_eq_true, ↓reduceIte]
      exact (decryptData_spec s.data s.store s.next (h.secret hs)).1 i (by have := h.next; omega)
    · rfl
  | train m => rfl
  | update n f =>
    simp only [step, State.update]
    split
    · rfl
    · next r hr =>
      apply write_low
      cases hs : s.encrypted with
      | true => obtain ⟨v, hv⟩ := h.secret hs _ (mem_of_lookup hr); exact nomatch hv
      | false =>
        obtain ⟨q, hq, a, b⟩ := h.plain hs _ (mem_of_lookup hr)
        simp only [Data.plain.injEq] at hq
        omega
    · rfl
  | changeOriginal n f => exact absurd rfl (he n f)
  | changeExported n f =>
    simp only [step, State.changeTorch]
    split
    · rfl
    · next r hr =>
      apply write_low
      rcases List.mem_append.mp (mem_of_lookup hr) with hr | hr
      · have := h.refs _ hr
        simp only at this
        omega
      · rw [h.buffers] at hr
        obtain ⟨q, hq, e⟩ := List.mem_map.mp hr
        simp only [Prod.mk.injEq] at e
        omega
  | «export» => simp only [step, State.toPytorch]; split <;> rfl

/-- **C81.** The model that was converted is never changed by anything done to the CrypTen model or to the exported
model. -/
theorem C81_original_unchanged (round : α → α) (store : ℕ → α) (n : ℕ) (m : Torch) (inits : List (String × α))
    (hm : Allocated n m) (es : List (Event α)) (hl : OriginalLeftAlone es) :
    let s := run round (fromPytorch store n m inits) es
    s.original = m ∧ (∀ name, s.param .original name = (m.params.lookup name).map store) ∧
    ∀ name, s.buffer .original name = (m.buffers.lookup name).map store := by
  have h0 := inv_from store n m inits hm
  have hst : ∀ (s : State α), Inv n m (inits.map Prod.fst) s → ∀ i < n, (run round s es).store i = s.store i := by
    induction es with
    | nil => intros; rfl
    | cons e es ih =>
      intro s hs i hi
      have := ih (fun n f hh => hl n f (List.mem_cons_of_mem _ hh)) (step round s e) (inv_step hs e) i hi
      exact this.trans (low_step hs e (fun n f h => hl n f (by simp [h])) hi)
  have hlow : ∀ i < n, (run round (fromPytorch store n m inits) es).store i = store i := fun i hi => by
    rw [hst _ h0 i hi, store_from _ _ _ _ (by omega), if_pos hi]
  have ho := (inv_run (round := round) h0 es).original
  refine ⟨ho, fun name => ?_, fun name => ?_⟩
  · simp only [State.param, State.torch, ho]
    cases hd : m.params.lookup name with
    | none => rfl
    | some r => simp [hlow r (hm.1 _ (mem_of_lookup hd))]
  · simp only [State.buffer, State.torch, ho]
    cases hd : m.buffers.lookup name with
    | none => rfl
    | some r => simp [hlow r (hm.2 _ (mem_of_lookup hd))]

/-- The copied memory is only changed through the exported model. -/
theorem mid_step {round : α → α} {n0 : ℕ} {m : Torch} {names : List String} {s : State α} (h : Inv n0 m names s)
    (e : Event α) (he : ∀ n f, e ≠ .changeExported n f) {i : ℕ} (hi : i < n0 + n0) (hi0 : n0 ≤ i) :
    (step round s e).store i = s.store i := by
  cases e with
  | changeOriginal n f =>
    simp only [step, State.changeTorch, h.original]
    split
    · rfl
    · next r hr =>
      apply write_low
      have := original_ref h.alloc hr
      omega
  | changeExported n f => exact absurd rfl (he n f)
  | encrypt => simp only [step, State.encrypt]; split <;> rfl
  | decrypt =>
    simp only [step, State.encrypt]
    split
    · next hne =>
      have hs : s.encrypted = true := by cases hh : s.encrypted <;> simp_all
      simp only [Bool.false_eq_true, ↓reduceIte]
      exact (decryptData_spec s.data s.store s.next (h.secret hs)).1 i (by have := h.next; omega)
    · rfl
  | train m => rfl
  | update n f =>
    simp only [step, State.update]
    split
    · rfl
    · next r hr =>
      apply write_low
      cases hs : s.encrypted with
      | true => obtain ⟨v, hv⟩ := h.secret hs _ (mem_of_lookup hr); exact nomatch hv
      | false =>
        obtain ⟨q, hq, a, b⟩ := h.plain hs _ (mem_of_lookup hr)
        simp only [Data.plain.injEq] at hq
        omega
    · rfl
  | «export» => simp only [step, State.toPytorch]; split <;> rfl

/-- **C81, false for buffers.** The buffers of the exported model (running means and variances, for instance) have the
values of the time of the conversion, whatever happened to the CrypTen model since; and so has its training flag. -/
theorem C81_buffers_wrong (round : α → α) (store : ℕ → α) (n : ℕ) (m : Torch) (inits : List (String × α))
    (hm : Allocated n m) (es : List (Event α)) (hl : LeftAlone es) :
    let s := (run round (fromPytorch store n m inits) es).toPytorch.2
    (∀ name, s.buffer .kept name = (m.buffers.lookup name).map store) ∧ s.kept.training = m.training := by
  have h0 := inv_from store n m inits hm
  have hst : ∀ (s : State α), Inv n m (inits.map Prod.fst) s → ∀ i < n + n, n ≤ i →
      (run round s es).store i = s.store i := by
    induction es with
    | nil => intros; rfl
    | cons e es ih =>
      intro s hs i hi hi0
      have := ih (fun n f hh => hl n f (List.mem_cons_of_mem _ hh)) (step round s e) (inv_step hs e) i hi hi0
      exact this.trans (mid_step hs e (fun n f h => hl n f (by simp [h])) hi hi0)
  have h1 := inv_step (round := round) (inv_run (round := round) h0 es) .export
  have h2 := inv_run (round := round) h0 es
  refine ⟨fun name => ?_, h1.training⟩
  have hb : ((run round (fromPytorch store n m inits) es).toPytorch.2).kept.buffers = (m.moved n).buffers := h1.buffers
  have hs : ((run round (fromPytorch store n m inits) es).toPytorch.2).store
      = (run round (fromPytorch store n m inits) es).store := by
    simp only [State.toPytorch]; split <;> rfl
  simp only [State.buffer, State.torch, hb, hs, Torch.moved]
  rw [lookup_map (fun r => r + n), Option.map_map]
  cases hd : m.buffers.lookup name with
  | none => rfl
  | some r =>
    have := hm.2 _ (mem_of_lookup hd)
    simp only at this
    simp only [Option.map_some, Function.comp]
    rw [hst _ h0 _ (by omega) (by omega), store_from _ _ _ _ (by omega), if_neg (by omega)]
    simp

/-- **C81, false after the export.** The exported model shares its memory with the CrypTen model: an update of a parameter
of the CrypTen model after the export changes the model that was returned. -/
theorem C81_later_updates_wrong (round : α → α) (store : ℕ → α) (n : ℕ) (m : Torch) (inits : List (String × α))
    (hm : Allocated n m) (hx : Exported store m inits) (es : List (Event α)) (hl : LeftAlone es)
    (he : isEncrypted false es = false) (p : String × ℕ) (hp : p ∈ m.params) (f : α → α) :
    let s := (run round (fromPytorch store n m inits) es).toPytorch.2
    s.param .kept p.1 = some (expected round p.1 (false, store p.2) es).2 ∧
    (s.update p.1 f).param .kept p.1 = some (f (expected round p.1 (false, store p.2) es).2) := by
  obtain ⟨-, h2⟩ := C81_export_partial round store n m inits hm hx es hl he
  refine ⟨h2 p hp, ?_⟩
  have h := inv_run (round := round) (inv_from store n m inits hm) es
  have hf : (run round (fromPytorch store n m inits) es).encrypted = false := by rw [encrypted_run]; exact he
  have h2 := h2 p hp
  generalize run round (fromPytorch store n m inits) es = s at h hf h2
  have hk : p.1 ∈ s.data.map Prod.fst := by rw [h.keys]; exact names_of_exported hx p hp
  obtain ⟨d, hd⟩ := Option.isSome_iff_exists.mp (lookup_isSome.mpr hk)
  have hok : ∀ p ∈ s.kept.params, ∃ r, s.data.lookup p.1 = some (.plain r) := by
    intro p hp
    have hk : p.1 ∈ s.data.map Prod.fst := by
      rw [h.keys]
      have : p.1 ∈ s.kept.params.map Prod.fst := List.mem_map_of_mem hp
      rw [h.params] at this
      obtain ⟨q, hq, e⟩ := List.mem_map.mp this
      exact e ▸ names_of_exported hx q hq
    obtain ⟨d, hd⟩ := Option.isSome_iff_exists.mp (lookup_isSome.mpr hk)
    obtain ⟨r, hr, -⟩ := h.plain hf _ (mem_of_lookup hd)
    exact ⟨r, by rw [hd]; exact congrArg some hr⟩
  have hset := (setParams_ok s.data s.kept.params hok).2
  simp only [State.toPytorch, hf, Bool.false_eq_true, ↓reduceIte, State.param, State.torch] at h2 ⊢
  cases hq : (setParams s.data s.kept.params).2.lookup p.1 with
  | none => rw [hq] at h2; exact nomatch h2
  | some q =>
    have hq' := hset _ _ hq
    rw [hq, Option.map_some, Option.some.injEq] at h2
    simp only [State.update, hq', State.write, hq, Option.map_some, ↓reduceIte, h2]

/-- **C81, false for parameters the graph does not use.** If the exporter wrote no initializer for a parameter, every
`to_pytorch` of the unencrypted model raises. -/
theorem C81_unused_parameter_wrong (round : α → α) (store : ℕ → α) (n : ℕ) (m : Torch) (inits : List (String × α))
    (hm : Allocated n m) (p : String × ℕ) (hp : p ∈ m.params) (hx : p.1 ∉ inits.map Prod.fst) (es : List (Event α))
    (he : isEncrypted false es = false) :
    (run round (fromPytorch store n m inits) es).toPytorch.1 = .error .keyError := by
  have h := inv_run (round := round) (inv_from store n m inits hm) es
  have hf : (run round (fromPytorch store n m inits) es).encrypted = false := by rw [encrypted_run]; exact he
  generalize run round (fromPytorch store n m inits) es = s at h hf
  simp only [State.toPytorch, hf, Bool.false_eq_true, ↓reduceIte]
  rw [setParams_error]
  · rfl
  · exact fun p hp => (h.plain hf p hp).imp fun _ h => h.1
  · have : p.1 ∈ s.kept.params.map Prod.fst := by rw [h.params]; exact List.mem_map_of_mem hp
    obtain ⟨q, hq, e⟩ := List.mem_map.mp this
    exact ⟨q, hq, by rw [h.keys, e]; exact hx⟩

/-- A model with a weight and a running mean. -/
def small : Torch := { params := [("weight", 0)], buffers := [("running_mean", 1)], training := true }

/-- The memory of `small`. -/
def smallStore : ℕ → Int := fun i => if i = 0 then 5 else 7

/-- What the exporter writes for it. -/
def smallInits : List (String × Int) := [("weight", 5), ("running_mean", 7)]

/-- Non-vacuity: `small` meets the hypotheses of all theorems of this file. -/
example : Allocated 2 small ∧ Exported smallStore small smallInits := by
  refine ⟨⟨by simp [small], by simp [small]⟩, ⟨by simp [smallInits], ?_⟩⟩
  intro p hp
  simp only [small, List.mem_singleton] at hp
  subst hp
  rfl

/-- Training on encrypted data: encrypt, update weight and running mean, decrypt, export. -/
def training : List (Event Int) :=
  [.encrypt, .update "weight" (· + 1), .update "running_mean" (· + 3), .decrypt]

example : isEncrypted false training = false ∧ LeftAlone training ∧ OriginalLeftAlone training := by
  refine ⟨rfl, ?_, ?_⟩ <;> intro n f h <;> simp [training] at h

/-- **C81.** After the conversion the CrypTen model is in the mode (training or evaluation) of the PyTorch model, and later in that
of the last call of `train` or `eval`; nothing else changes it. -/
theorem C81_training_mode (round : α → α) (store : ℕ → α) (n : ℕ) (m : Torch) (inits : List (String × α)) (es : List (Event α)) :
    (run round (fromPytorch store n m inits) es).training = modeAfter m.training es := by
  have hs : ∀ s : State α, (run round s es).training = modeAfter s.training es := by
    induction es with
    | nil => intro s; rfl
    | cons e es ih =>
      intro s
      show (run round (step round s e) es).training = _
      rw [ih]
      cases e with
      | train mode => simp only [modeAfter, List.filterMap_cons, step, List.getLast?_cons, Option.getD_some]
      | encrypt => simp only [modeAfter, List.filterMap_cons, step, State.encrypt]; split <;> rfl
      | decrypt => simp only [modeAfter, List.filterMap_cons, step, State.encrypt]; split <;> rfl
      | update name f => simp only [modeAfter, List.filterMap_cons, step, State.update]; split <;> rfl
      | changeOriginal name f => simp only [modeAfter, List.filterMap_cons, step, State.changeTorch]; split <;> rfl
      | changeExported name f => simp only [modeAfter, List.filterMap_cons, step, State.changeTorch]; split <;> rfl
      | «export» => simp only [modeAfter, List.filterMap_cons, step, State.toPytorch]; split <;> rfl
  exact hs _

/-- The mode after two calls. -/
example : modeAfter (α := Int) true [.train false, .encrypt, .train true, .export] = true ∧ modeAfter (α := Int) true [.encrypt, .train false] = false := ⟨rfl, rfl⟩

/-- **C81, false for buffers: example.** After training, the exported model has the new weight and the old running mean. -/
theorem C81_stale_buffer_wrong :
    let s := run id (fromPytorch smallStore 2 small smallInits) training
    s.value "running_mean" = some 10 ∧ s.toPytorch.2.buffer .kept "running_mean" = some 7 ∧
    s.toPytorch.2.param .kept "weight" = some 6 := by
  refine ⟨rfl, rfl, rfl⟩

/-- **C81, false for a second export: example.** The second export returns the same object as the first, with new values:
the model kept from the first export has changed. -/
theorem C81_second_export_wrong :
    let s := fromPytorch smallStore 2 small smallInits
    let s' := run id s (.export :: training)
    s.toPytorch.1 = .ok .kept ∧ s.toPytorch.2.param .kept "weight" = some 5 ∧
    s'.param .kept "weight" = some 5 ∧
    s'.toPytorch.1 = .ok .kept ∧ s'.toPytorch.2.param .kept "weight" = some 6 := by
  refine ⟨rfl, rfl, rfl, rfl, rfl⟩

/-- **C81.** `from_pytorch` always returns a graph, also for a model with a single module (so that `to_pytorch` exists),
although `_get_model_or_module` is documented to return the module. -/
theorem C81_always_a_graph {β : Type} (graph : β) (modules : List β) : getModelOrModule graph modules = graph := by
  unfold getModelOrModule
  split <;> rfl

end CrypTen.Export

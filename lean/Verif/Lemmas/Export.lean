import Verif.Spec.Export

/-!
# Lemmas about the conversion from and to PyTorch
-/

namespace CrypTen.Export

variable {α : Type}

/-- The value of a tensor. -/
def val (store : ℕ → α) : Data α → α
  | .plain r => store r
  | .secret v => v

theorem value_eq (s : State α) (name : String) : s.value name = (s.data.lookup name).map (val s.store) := by
  unfold State.value
  rfl

theorem lookup_cons' {β : Type} (x : String) (y : β) (l : List (String × β)) (a : String) :
    ((x, y) :: l).lookup a = if a = x then some y else l.lookup a := by
  rw [List.lookup_cons]
  by_cases h : a = x
  · simp [h]
  · have : (a == x) = false := by simpa using h
    simp [this, h]

theorem mem_of_lookup {β : Type} {l : List (String × β)} {a : String} {b : β} (h : l.lookup a = some b) : (a, b) ∈ l := by
  induction l with
  | nil => simp at h
  | cons p l ih =>
    obtain ⟨x, y⟩ := p
    rw [lookup_cons'] at h
    by_cases hx : a = x
    · subst hx
      simp at h
      simp [h]
    · rw [if_neg hx] at h
      exact List.mem_cons_of_mem _ (ih h)

theorem lookup_isSome {β : Type} {l : List (String × β)} {a : String} : (l.lookup a).isSome ↔ a ∈ l.map Prod.fst := by
  induction l with
  | nil => simp
  | cons p l ih =>
    obtain ⟨x, y⟩ := p
    rw [lookup_cons']
    by_cases hx : a = x
    · subst hx; simp
    · rw [if_neg hx, ih]
      simp [hx]

theorem lookup_map {β γ : Type} (g : β → γ) (l : List (String × β)) (a : String) :
    (l.map fun p => (p.1, g p.2)).lookup a = (l.lookup a).map g := by
  induction l with
  | nil => rfl
  | cons p l ih =>
    obtain ⟨x, y⟩ := p
    simp only [List.map_cons, lookup_cons']
    by_cases hx : a = x
    · subst hx; simp
    · rw [if_neg hx, if_neg hx, ih]

theorem addParameters_eq (l : List (String × α)) (store : ℕ → α) (next : ℕ) :
    addParameters l store next = decryptData (l.map fun p => (p.1, Data.secret p.2)) store next := by
  induction l generalizing store next with
  | nil => rfl
  | cons p l ih => simp only [addParameters, List.map_cons, decryptData, ih]

/-- All tensors are encrypted. -/
def AllSecret (l : List (String × Data α)) : Prop := ∀ p ∈ l, ∃ v, p.2 = .secret v

theorem decryptData_spec (l : List (String × Data α)) (store : ℕ → α) (next : ℕ) (hl : AllSecret l) :
    (∀ i < next, (decryptData l store next).1 i = store i) ∧ next ≤ (decryptData l store next).2.1 ∧
    (decryptData l store next).2.2.map Prod.fst = l.map Prod.fst ∧
    (∀ name, ((decryptData l store next).2.2.lookup name).map (val (decryptData l store next).1)
      = (l.lookup name).map (val store)) ∧
    (∀ p ∈ (decryptData l store next).2.2, ∃ r, p.2 = .plain r ∧ next ≤ r ∧ r < (decryptData l store next).2.1) ∧
    (∀ p ∈ (decryptData l store next).2.2, ∀ q ∈ (decryptData l store next).2.2, ∀ r, p.2 = .plain r → q.2 = .plain r →
      p.1 = q.1) := by
  induction l generalizing store next with
  | nil => simp [decryptData]
  | cons p l ih =>
    obtain ⟨name, d⟩ := p
    obtain ⟨v, hv⟩ := hl (name, d) (by simp)
    simp only at hv
    subst hv
    obtain ⟨h1, h2, h3, h4, h5, h6⟩ := ih (fun i => if i = next then v else store i) (next + 1)
      (fun p hp => hl p (List.mem_cons_of_mem _ hp))
    simp only [decryptData]
    refine ⟨fun i hi => ?_, by omega, by simp [h3], fun nm => ?_, fun p hp => ?_, ?_⟩
    · rw [h1 i (by omega), if_neg (by omega)]
    · rw [lookup_cons', lookup_cons']
      by_cases hx : nm = name
      · subst hx
        simp [val, h1 next (by omega)]
      · rw [if_neg hx, if_neg hx, h4]
        have : ∀ d, l.lookup nm = some d → ∃ v, d = .secret v := fun d hd =>
          hl (nm, d) (List.mem_cons_of_mem _ (mem_of_lookup hd))
        cases hd : l.lookup nm with
        | none => rfl
        | some d =>
          obtain ⟨w, rfl⟩ := this d hd
          rfl
    · rcases List.mem_cons.mp hp with rfl | hp
      · exact ⟨next, rfl, Nat.le_refl _, by omega⟩
      · obtain ⟨r, hr, h, h'⟩ := h5 p hp
        exact ⟨r, hr, by omega, h'⟩
    · intro p hp q hq r hpr hqr
      rcases List.mem_cons.mp hp with rfl | hp <;> rcases List.mem_cons.mp hq with rfl | hq
      · rfl
      · obtain ⟨r', hr', h, -⟩ := h5 q hq
        simp only [Data.plain.injEq] at hpr
        rw [hr', Data.plain.injEq] at hqr
        omega
      · obtain ⟨r', hr', h, -⟩ := h5 p hp
        simp only [Data.plain.injEq] at hqr
        rw [hr', Data.plain.injEq] at hpr
        omega
      · exact h6 p hp q hq r hpr hqr

theorem encryptData_keys (round : α → α) (store : ℕ → α) (l : List (String × Data α)) :
    (encryptData round store l).map Prod.fst = l.map Prod.fst := by
  induction l with
  | nil => rfl
  | cons p l ih =>
    obtain ⟨name, d⟩ := p
    cases d <;> simp [encryptData, ih]

theorem encryptData_secret (round : α → α) (store : ℕ → α) (l : List (String × Data α)) :
    AllSecret (encryptData round store l) := by
  induction l with
  | nil => intro p hp; simp [encryptData] at hp
  | cons p l ih =>
    obtain ⟨name, d⟩ := p
    intro q hq
    cases d <;> simp only [encryptData, List.mem_cons] at hq <;> rcases hq with rfl | hq
    · exact ⟨_, rfl⟩
    · exact ih q hq
    · exact ⟨_, rfl⟩
    · exact ih q hq

theorem encryptData_value (round : α → α) (store st' : ℕ → α) (l : List (String × Data α))
    (hl : ∀ p ∈ l, ∃ r, p.2 = .plain r) (name : String) :
    ((encryptData round store l).lookup name).map (val st') = (l.lookup name).map (fun d => round (val store d)) := by
  induction l with
  | nil => rfl
  | cons p l ih =>
    obtain ⟨x, d⟩ := p
    obtain ⟨r, hr⟩ := hl (x, d) (by simp)
    simp only at hr
    subst hr
    simp only [encryptData, lookup_cons']
    by_cases hx : name = x
    · subst hx; simp [val]
    · rw [if_neg hx, if_neg hx]
      exact ih fun p hp => hl p (List.mem_cons_of_mem _ hp)

theorem setParams_keys (data : List (String × Data α)) (l : List (String × ℕ)) :
    (setParams data l).2.map Prod.fst = l.map Prod.fst := by
  induction l with
  | nil => rfl
  | cons p l ih =>
    obtain ⟨name, r⟩ := p
    simp only [setParams]
    split <;> simp [ih]

theorem setParams_refs (data : List (String × Data α)) (l : List (String × ℕ)) :
    ∀ p ∈ (setParams data l).2, p ∈ l ∨ (p.1, Data.plain p.2) ∈ data := by
  induction l with
  | nil => intro p hp; simp [setParams] at hp
  | cons p l ih =>
    obtain ⟨name, r⟩ := p
    intro q hq
    simp only [setParams] at hq
    split at hq
    · next _ h =>
      rcases List.mem_cons.mp hq with rfl | hq
      · exact Or.inr (mem_of_lookup h)
      · rcases ih q hq with h | h
        · exact Or.inl (List.mem_cons_of_mem _ h)
        · exact Or.inr h
    · exact Or.inl hq
    · exact Or.inl hq

theorem setParams_ok (data : List (String × Data α)) (l : List (String × ℕ))
    (h : ∀ p ∈ l, ∃ r, data.lookup p.1 = some (.plain r)) :
    (setParams data l).1 = .ok () ∧
    ∀ name r, (setParams data l).2.lookup name = some r → data.lookup name = some (.plain r) := by
  induction l with
  | nil => simp [setParams]
  | cons p l ih =>
    obtain ⟨name, r⟩ := p
    obtain ⟨q, hq⟩ := h (name, r) (by simp)
    obtain ⟨h1, h2⟩ := ih fun p hp => h p (List.mem_cons_of_mem _ hp)
    simp only [setParams, hq]
    refine ⟨h1, fun nm r' hr' => ?_⟩
    rw [lookup_cons'] at hr'
    by_cases hx : nm = name
    · subst hx
      simp at hr'
      rw [hq, hr']
    · rw [if_neg hx] at hr'
      exact h2 nm r' hr'

theorem setParams_error (data : List (String × Data α)) (l : List (String × ℕ))
    (hd : ∀ p ∈ data, ∃ r, p.2 = .plain r) (h : ∃ p ∈ l, p.1 ∉ data.map Prod.fst) :
    (setParams data l).1 = .error .keyError := by
  induction l with
  | nil => simp at h
  | cons p l ih =>
    obtain ⟨name, r⟩ := p
    simp only [setParams]
    cases hn : data.lookup name with
    | none => rfl
    | some d =>
      obtain ⟨q, hq⟩ := hd _ (mem_of_lookup hn)
      simp only at hq
      subst hq
      apply ih
      obtain ⟨p, hp, hpd⟩ := h
      rcases List.mem_cons.mp hp with rfl | hp
      · exact absurd (lookup_isSome.mp (by simp [hn])) hpd
      · exact ⟨p, hp, hpd⟩

/-- What holds at every point of a history: `n0` storages existed before the conversion of `m`. -/
structure Inv (n0 : ℕ) (m : Torch) (names : List String) (s : State α) : Prop where
  next : n0 + n0 ≤ s.next
  original : s.original = m
  alloc : Allocated n0 m
  keys : s.data.map Prod.fst = names
  secret : s.encrypted = true → AllSecret s.data
  plain : s.encrypted = false → ∀ p ∈ s.data, ∃ r, p.2 = .plain r ∧ n0 + n0 ≤ r ∧ r < s.next
  apart : ∀ p ∈ s.data, ∀ q ∈ s.data, ∀ r, p.2 = .plain r → q.2 = .plain r → p.1 = q.1
  buffers : s.kept.buffers = (m.moved n0).buffers
  training : s.kept.training = m.training
  params : s.kept.params.map Prod.fst = m.params.map Prod.fst
  refs : ∀ p ∈ s.kept.params, n0 ≤ p.2 ∧ p.2 < s.next

theorem allSecret_map (l : List (String × α)) : AllSecret (l.map fun p => (p.1, Data.secret p.2)) := by
  intro p hp
  obtain ⟨q, -, rfl⟩ := List.mem_map.mp hp
  exact ⟨_, rfl⟩

theorem inv_from (store : ℕ → α) (n0 : ℕ) (m : Torch) (inits : List (String × α)) (hm : Allocated n0 m) :
    Inv n0 m (inits.map Prod.fst) (fromPytorch store n0 m inits) := by
  unfold fromPytorch
  simp only [addParameters_eq]
  obtain ⟨h1, h2, h3, h4, h5, h6⟩ := decryptData_spec _ (fun i => if i < n0 then store i else store (i - n0)) (n0 + n0)
    (allSecret_map inits)
  refine ⟨h2, rfl, hm, by rw [h3, List.map_map]; rfl, fun h => by simp at h, fun _ p hp => ?_, h6, rfl, rfl, ?_, ?_⟩
  · obtain ⟨r, hr, a, b⟩ := h5 p hp
    exact ⟨r, hr, a, b⟩
  · simp [Torch.moved, Function.comp_def]
  · intro p hp
    simp only [Torch.moved, List.mem_map] at hp
    obtain ⟨q, hq, rfl⟩ := hp
    have := hm.1 q hq
    simp only at *
    omega

theorem lookup_append {β : Type} (l l' : List (String × β)) (a : String) :
    (l ++ l').lookup a = ((l.lookup a).or (l'.lookup a)) := by
  induction l with
  | nil => simp
  | cons p l ih =>
    obtain ⟨x, y⟩ := p
    simp only [List.cons_append, lookup_cons', ih]
    split <;> simp

theorem Inv.write {n0 : ℕ} {m : Torch} {names : List String} {s : State α} (h : Inv n0 m names s) (r : ℕ) (f : α → α) :
    Inv n0 m names (s.write r f) := by
  obtain ⟨h1, h2, h3, h4, h5, h6, h7, h8, h9, h10, h11⟩ := h
  exact ⟨h1, h2, h3, h4, h5, h6, h7, h8, h9, h10, h11⟩

theorem inv_step {round : α → α} {n0 : ℕ} {m : Torch} {names : List String} {s : State α} (h : Inv n0 m names s)
    (e : Event α) : Inv n0 m names (step round s e) := by
  have torch : ∀ (t : Torch) name f, Inv n0 m names (s.changeTorch t name f) := by
    intro t name f
    unfold State.changeTorch
    split
    · exact h
    · exact h.write _ _
  cases e with
  | encrypt =>
    simp only [step, State.encrypt]
    split
    · next he =>
      simp only [↓reduceIte]
      exact ⟨h.next, h.original, h.alloc, by rw [encryptData_keys, h.keys], fun _ => encryptData_secret _ _ _,
        fun h => by simp at h, fun p hp q hq r hr => by
          obtain ⟨v, hv⟩ := encryptData_secret _ _ _ p hp
          rw [hv] at hr; exact (nomatch hr), h.buffers, h.training, h.params, h.refs⟩
    · exact h
  | decrypt =>
    simp only [step, State.encrypt]
    split
    · next he =>
      have he : s.encrypted = true := by cases hh : s.encrypted <;> simp_all
      simp only [Bool.false_eq_true, ↓reduceIte]
      obtain ⟨h1, h2, h3, h4, h5, h6⟩ := decryptData_spec s.data s.store s.next (h.secret he)
      have hn := h.next
      refine ⟨by simp only; omega, h.original, h.alloc, by rw [h3, h.keys], fun h => by simp at h, fun _ p hp => ?_, h6,
        h.buffers, h.training, h.params, fun p hp => ?_⟩
      · obtain ⟨r, hr, a, b⟩ := h5 p hp
        exact ⟨r, hr, by omega, b⟩
      · have := h.refs p hp
        simp only
        omega
    · exact h
  | train mode =>
    obtain ⟨h1, h2, h3, h4, h5, h6, h7, h8, h9, h10, h11⟩ := h
    exact ⟨h1, h2, h3, h4, h5, h6, h7, h8, h9, h10, h11⟩
  | update name f =>
    simp only [step, State.update]
    split
    · exact h
    · exact h.write _ _
    · next v hv =>
      have he : s.encrypted = true := by
        by_contra hc
        obtain ⟨r, hr, -⟩ := h.plain (by simpa using hc) _ (mem_of_lookup hv)
        exact nomatch hr
      have hs : AllSecret (s.data.map fun p => (p.1, if p.1 = name then p.2.apply f else p.2)) := by
        intro p hp
        obtain ⟨q, hq, rfl⟩ := List.mem_map.mp hp
        obtain ⟨w, hw⟩ := h.secret he q hq
        simp only [hw]
        split
        · exact ⟨f w, rfl⟩
        · exact ⟨w, rfl⟩
      refine ⟨h.next, h.original, h.alloc, ?_, fun _ => hs, fun hf => ?_, fun p hp q hq r hr => ?_, h.buffers, h.training,
        h.params, h.refs⟩
      · rw [← h.keys, List.map_map]
        rfl
      · simp [he] at hf
      · obtain ⟨v, hv⟩ := hs p hp
        rw [hv] at hr; exact nomatch hr
  | changeOriginal name f => exact torch _ _ _
  | changeExported name f => exact torch _ _ _
  | «export» =>
    simp only [step, State.toPytorch]
    split
    · exact h
    · next he =>
      have he : s.encrypted = false := by simpa using he
      refine ⟨h.next, h.original, h.alloc, h.keys, h.secret, h.plain, h.apart, h.buffers, h.training, ?_, ?_⟩
      · simp only [setParams_keys, h.params]
      · intro p hp
        rcases setParams_refs _ _ p hp with hp | hp
        · exact h.refs p hp
        · obtain ⟨r, hr, a, b⟩ := h.plain he _ hp
          simp only [Data.plain.injEq] at hr
          subst hr
          simp only
          omega

theorem inv_run {round : α → α} {n0 : ℕ} {m : Torch} {names : List String} {s : State α} (h : Inv n0 m names s)
    (es : List (Event α)) : Inv n0 m names (run round s es) := by
  induction es generalizing s with
  | nil => exact h
  | cons e es ih => exact ih (inv_step h e)

/-- Writing into a storage that no parameter of the CrypTen model uses does not change values. -/
theorem value_write_other {s : State α} {r : ℕ} {f : α → α} (h : ∀ p ∈ s.data, p.2 ≠ .plain r) (name : String) :
    (s.write r f).value name = s.value name := by
  rw [value_eq, value_eq]
  show (s.data.lookup name).map _ = _
  cases hd : s.data.lookup name with
  | none => rfl
  | some d =>
    have := h _ (mem_of_lookup hd)
    cases d with
    | secret v => rfl
    | plain q =>
      have : q ≠ r := fun hq => this (by simp [hq])
      simp [val, State.write, this]

theorem original_ref {n0 : ℕ} {m : Torch} (hm : Allocated n0 m) {name : String} {r : ℕ}
    (h : (m.params ++ m.buffers).lookup name = some r) : r < n0 := by
  rcases List.mem_append.mp (mem_of_lookup h) with h | h
  · exact hm.1 _ h
  · exact hm.2 _ h

theorem value_step {round : α → α} {n0 : ℕ} {m : Torch} {names : List String} {s : State α} (h : Inv n0 m names s)
    (name : String) (e : Event α) (he : ∀ n f, e ≠ .changeExported n f) (v : α) (hv : s.value name = some v) :
    (step round s e).value name = some (expected round name (s.encrypted, v) [e]).2 ∧
    (step round s e).encrypted = (expected round name (s.encrypted, v) [e]).1 := by
  cases e with
  | encrypt =>
    simp only [step, State.encrypt, expected]
    cases hs : s.encrypted with
    | false =>
      simp only [Bool.true_eq_false, ne_eq, not_false_eq_true, ↓reduceIte, Bool.false_eq_true, and_true]
      rw [value_eq] at hv ⊢
      simp only
      rw [encryptData_value _ _ _ _ (fun p hp => (h.plain hs p hp).imp fun _ h => h.1)]
      cases hd : s.data.lookup name with
      | none => rw [hd] at hv; exact nomatch hv
      | some d => rw [hd] at hv; simp only [Option.map_some, Option.some.injEq] at hv ⊢; rw [hv]
    | true => simp [hv, hs]
  | decrypt =>
    simp only [step, State.encrypt, expected]
    cases hs : s.encrypted with
    | true =>
      simp only [Bool.false_eq_true, ne_eq, not_false_eq_true, ↓reduceIte, and_true]
      obtain ⟨-, -, -, h4, -, -⟩ := decryptData_spec s.data s.store s.next (h.secret hs)
      rw [value_eq] at hv ⊢
      simp only [h4, hv]
    | false => simp [hv, hs]
  | train mode => exact ⟨hv, rfl⟩
  | update n f =>
    simp only [step, State.update, expected]
    cases hd : s.data.lookup n with
    | none =>
      have hn : n ≠ name := by
        rintro rfl
        rw [value_eq, hd] at hv
        exact nomatch hv
      simp [hn, hv]
    | some d =>
      cases d with
      | plain r =>
        simp only
        refine ⟨?_, rfl⟩
        split
        · next hn =>
          subst hn
          rw [value_eq, hd] at hv
          rw [value_eq]
          show (s.data.lookup n).map _ = _
          rw [hd]
          simp only [Option.map_some, val, Option.some.injEq, State.write] at hv ⊢
          simp [hv]
        · next hn =>
          rw [value_eq] at hv ⊢
          show (s.data.lookup name).map _ = _
          cases hd' : s.data.lookup name with
          | none => rw [hd'] at hv; exact nomatch hv
          | some d' =>
            rw [hd'] at hv
            rw [← hv]
            cases d' with
            | secret w => rfl
            | plain q =>
              have : q ≠ r := by
                rintro rfl
                exact hn (h.apart _ (mem_of_lookup hd) _ (mem_of_lookup hd') q rfl rfl)
              simp [val, State.write, this]
      | secret w =>
        refine ⟨?_, rfl⟩
        rw [value_eq] at hv ⊢
        show ((s.data.map fun p => (p.1, if p.1 = n then p.2.apply f else p.2)).lookup name).map (val s.store) = _
        have key : ∀ l : List (String × Data α), AllSecret l →
            ((l.map fun p => (p.1, if p.1 = n then p.2.apply f else p.2)).lookup name).map (val s.store)
            = ((l.lookup name).map (val s.store)).map fun v => if n = name then f v else v := by
          intro l hl
          induction l with
          | nil => rfl
          | cons p l ih =>
            obtain ⟨x, d⟩ := p
            obtain ⟨u, hu⟩ := hl (x, d) (by simp)
            simp only at hu
            subst hu
            have ih := ih fun p hp => hl p (List.mem_cons_of_mem _ hp)
            simp only [List.map_cons]
            rw [lookup_cons', lookup_cons']
            by_cases hx : name = x
            · subst hx
              by_cases hn : n = name
              · subst hn; simp [val, Data.apply]
              · have : name ≠ n := fun h => hn h.symm
                simp [this, hn, val]
            · rw [if_neg hx, if_neg hx, ih]
        have hs : s.encrypted = true := by
          by_contra hc
          obtain ⟨r, hr, -⟩ := h.plain (by simpa using hc) _ (mem_of_lookup hd)
          exact nomatch hr
        rw [key _ (h.secret hs), hv]
        rfl
  | changeOriginal n f =>
    simp only [step, State.changeTorch, expected]
    rw [h.original]
    split
    · exact ⟨hv, rfl⟩
    · next r hr =>
      refine ⟨?_, rfl⟩
      rw [value_write_other, hv]
      intro p hp hpr
      have hlt := original_ref h.alloc hr
      cases hs : s.encrypted with
      | true => obtain ⟨v, hv⟩ := h.secret hs p hp; rw [hv] at hpr; exact nomatch hpr
      | false =>
        obtain ⟨q, hq, a, b⟩ := h.plain hs p hp
        rw [hq, Data.plain.injEq] at hpr
        omega
  | changeExported n f => exact absurd rfl (he n f)
  | «export» =>
    simp only [step, State.toPytorch, expected]
    split
    · exact ⟨hv, rfl⟩
    · exact ⟨hv, rfl⟩

theorem expected_append {round : α → α} {name : String} (s : Bool × α) (e : Event α) (es : List (Event α)) :
    expected round name s (e :: es) = expected round name (expected round name s [e]) es := by
  obtain ⟨b, v⟩ := s
  cases e <;> simp [expected]

theorem value_run {round : α → α} {n0 : ℕ} {m : Torch} {names : List String} {s : State α} (h : Inv n0 m names s)
    (name : String) (es : List (Event α)) (he : LeftAlone es) (v : α) (hv : s.value name = some v) :
    (run round s es).value name = some (expected round name (s.encrypted, v) es).2 ∧
    (run round s es).encrypted = (expected round name (s.encrypted, v) es).1 := by
  induction es generalizing s v with
  | nil => exact ⟨hv, rfl⟩
  | cons e es ih =>
    have h1 := value_step (round := round) h name e (fun n f h => he n f (by simp [h])) v hv
    have := ih (inv_step (round := round) h e) (fun n f hh => he n f (List.mem_cons_of_mem _ hh)) _ h1.1
    rw [expected_append]
    rw [h1.2] at this
    exact this

theorem value_from (store : ℕ → α) (n0 : ℕ) (m : Torch) (inits : List (String × α)) (name : String) :
    (fromPytorch store n0 m inits).value name = inits.lookup name := by
  rw [value_eq]
  unfold fromPytorch
  simp only [addParameters_eq]
  obtain ⟨-, -, -, h4, -, -⟩ := decryptData_spec _ (fun i => if i < n0 then store i else store (i - n0)) (n0 + n0)
    (allSecret_map inits)
  rw [h4, lookup_map, Option.map_map]
  simp only [Function.comp_def, val, Option.map_id']

theorem store_from (store : ℕ → α) (n0 : ℕ) (m : Torch) (inits : List (String × α)) {i : ℕ} (hi : i < n0 + n0) :
    (fromPytorch store n0 m inits).store i = if i < n0 then store i else store (i - n0) := by
  unfold fromPytorch
  simp only [addParameters_eq]
  obtain ⟨h1, -, -, -, -, -⟩ := decryptData_spec _ (fun i => if i < n0 then store i else store (i - n0)) (n0 + n0)
    (allSecret_map inits)
  exact h1 i hi

end CrypTen.Export

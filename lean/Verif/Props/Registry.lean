import Verif.Spec.Registry
import Mathlib.Data.List.Induction
import Mathlib.Data.List.Forall2
import Mathlib.Order.Basic
import Mathlib.Tactic.ByContra

/-!
# C92: types of encrypted tensors
-/

namespace CrypTen.Registry

theorem run_append (h : List Call) (c : Call) : run (h ++ [c]) = step (run h) c := by simp [run]

theorem find_append (s : State) (n m : String) (c : Cls) (h : s.find n = none) : ({ s with types := s.types ++ [(n, c)] } : State).find m = if m = n then some c else s.find m := by
  unfold State.find at *
  simp only [List.lookup_append]
  by_cases e : m = n
  · subst e
    rw [h, if_pos rfl]
    simp [List.lookup]
  · rw [if_neg e]
    have : ([(n, c)] : List (String × Cls)).lookup m = none := by simp [List.lookup, beq_false_of_ne e]
    rw [this, Option.or_none]

/-- A successful registration adds the name, and only that. -/
theorem find_register {n : String} {c : Cls} {s s' : State} (h : register n c s = some s') :
    s.find n = none ∧ c.isCrypTensor = true ∧ s'.default = s.default ∧ ∀ m, s'.find m = if m = n then some c else s.find m := by
  unfold register at h
  split at h
  · simp at h
  · next h1 =>
    split at h
    · simp at h
    · next h2 =>
      simp only [Option.some.injEq] at h
      have h1' : s.find n = none := by simpa using h1
      subst h
      exact ⟨h1', by simpa using h2, rfl, fun m => find_append s n m c h1'⟩

theorem find_step_register (n : String) (c : Cls) (s : State) (m : String) :
    (step s (.register n c)).find m = if m = n ∧ s.find n = none ∧ "CrypTensor" ∈ c.mro then some c else s.find m := by
  show ((register n c s).getD s).find m = _
  cases hr : register n c s with
  | none =>
    rw [Option.getD_none, if_neg]
    rintro ⟨rfl, h1, h2⟩
    simp [register, h1, Cls.isCrypTensor, h2] at hr
  | some s' =>
    obtain ⟨h1, h2, _, h3⟩ := find_register hr
    rw [Option.getD_some, h3]
    have h2' : "CrypTensor" ∈ c.mro := by simpa [Cls.isCrypTensor] using h2
    by_cases e : m = n <;> simp [e, h1, h2']

theorem find_step_default (n : String) (s : State) (m : String) : (step s (.setDefault n)).find m = s.find m := by
  show ((setDefault n s).getD s).find m = _
  unfold setDefault
  split <;> rfl

theorem getElem?_append_one {α : Type} (h : List α) (a b : α) (i : ℕ) : (h ++ [a])[i]? = some b ↔ h[i]? = some b ∨ (i = h.length ∧ a = b) := by
  rcases Nat.lt_trichotomy i h.length with hi | hi | hi
  · rw [List.getElem?_append_left hi]; constructor
    · exact Or.inl
    · rintro (h | ⟨e, _⟩)
      · exact h
      · omega
  · subst hi
    simp
  · rw [List.getElem?_eq_none (by simp; omega)]
    simp only [reduceCtorEq, false_iff]
    rintro (h | ⟨e, _⟩)
    · rw [List.getElem?_eq_none (by omega)] at h; simp at h
    · omega

theorem registers_append (h : List Call) (a : Call) (i : ℕ) (n : String) (c : Cls) :
    Registers (h ++ [a]) i n c ↔ Registers h i n c ∨ (i = h.length ∧ a = .register n c ∧ "CrypTensor" ∈ c.mro ∧ n ≠ "mpc" ∧ ∀ (j : ℕ) (d : Cls), h[j]? = some (.register n d) → "CrypTensor" ∉ d.mro) := by
  unfold Registers
  constructor
  · rintro ⟨h1, h2, h3, h4⟩
    rcases (getElem?_append_one _ _ _ _).1 h1 with h1 | ⟨rfl, rfl⟩
    · exact .inl ⟨h1, h2, h3, fun j hj d hd => h4 j hj d ((getElem?_append_one _ _ _ _).2 (.inl hd))⟩
    · refine .inr ⟨rfl, rfl, h2, h3, fun j d hd => h4 j ?_ d ((getElem?_append_one _ _ _ _).2 (.inl hd))⟩
      by_contra hj
      rw [List.getElem?_eq_none (by omega)] at hd
      simp at hd
  · rintro (⟨h1, h2, h3, h4⟩ | ⟨rfl, rfl, h2, h3, h4⟩)
    · have hi : i < h.length := by
        by_contra hi
        rw [List.getElem?_eq_none (by omega)] at h1
        simp at h1
      refine ⟨(getElem?_append_one _ _ _ _).2 (.inl h1), h2, h3, fun j hj d hd => ?_⟩
      rcases (getElem?_append_one _ _ _ _).1 hd with hd | ⟨rfl, _⟩
      · exact h4 j hj d hd
      · omega
    · refine ⟨(getElem?_append_one _ _ _ _).2 (.inr ⟨rfl, rfl⟩), h2, h3, fun j hj d hd => ?_⟩
      rcases (getElem?_append_one _ _ _ _).1 hd with hd | ⟨rfl, _⟩
      · exact h4 j d hd
      · omega

/-- No class has the name exactly if no registration of it counted. -/
theorem no_means (h : List Call) (n : String) : (∀ c, ¬Means h n c) ↔ n ≠ "mpc" ∧ ∀ (j : ℕ) (d : Cls), h[j]? = some (.register n d) → "CrypTensor" ∉ d.mro := by
  constructor
  · intro hm
    refine ⟨fun e => hm mpcCls (.inl ⟨e, rfl⟩), ?_⟩
    intro j
    induction j using Nat.strongRecOn with
    | ind j ih =>
      intro d hd hc
      exact hm d (.inr ⟨j, hd, hc, fun e => hm mpcCls (.inl ⟨e, rfl⟩), fun i hi d' hd' => ih i hi d' hd'⟩)
  · rintro ⟨h1, h2⟩ c (⟨e, _⟩ | ⟨i, h3, h4, _⟩)
    · exact h1 e
    · exact h2 i c h3 h4

/-- **C92, names**: after every history, a name stands for the class of the first accepted registration, and for nothing else. -/
theorem C92_names (h : List Call) (n : String) (c : Cls) : (run h).find n = some c ↔ Means h n c := by
  induction h using List.reverseRecOn generalizing n c with
  | nil =>
    simp only [Means, Registers, List.getElem?_nil, reduceCtorEq, false_and, exists_false, or_false]
    show (State.init).find n = some c ↔ _
    unfold State.find State.init
    by_cases e : n = "mpc"
    · subst e; simp [List.lookup, eq_comm]
    · simp [List.lookup, e, beq_false_of_ne e]
  | append_singleton h a ih =>
    rw [run_append]
    cases a with
    | setDefault m =>
      rw [find_step_default, ih]
      unfold Means
      simp only [registers_append, reduceCtorEq, false_and, and_false, or_false]
    | register m d =>
      rw [find_step_register]
      have hnone : (run h).find m = none ↔ ∀ c, ¬Means h m c := by
        constructor
        · intro e c hc; rw [← ih, e] at hc; simp at hc
        · intro e
          cases hf : (run h).find m with
          | none => rfl
          | some c => exact absurd ((ih m c).1 hf) (e c)
      have key : Means (h ++ [.register m d]) n c ↔ Means h n c ∨ (m = n ∧ d = c ∧ "CrypTensor" ∈ c.mro ∧ ∀ c, ¬Means h n c) := by
        rw [no_means]
        unfold Means
        simp only [registers_append, Call.register.injEq]
        constructor
        · rintro (h1 | ⟨i, h1 | ⟨rfl, ⟨rfl, rfl⟩, h2, h3, h4⟩⟩)
          · exact .inl (.inl h1)
          · exact .inl (.inr ⟨i, h1⟩)
          · exact .inr ⟨rfl, rfl, h2, h3, h4⟩
        · rintro ((h1 | ⟨i, h1⟩) | ⟨rfl, rfl, h2, h3, h4⟩)
          · exact .inl h1
          · exact .inr ⟨i, .inl h1⟩
          · exact .inr ⟨_, .inr ⟨rfl, ⟨rfl, rfl⟩, h2, h3, h4⟩⟩
      rw [key]
      split
      · next hc =>
        obtain ⟨rfl, h1, h2⟩ := hc
        have h1' := hnone.1 h1
        simp only [Option.some.injEq]
        constructor
        · rintro rfl; exact .inr ⟨trivial, rfl, h2, h1'⟩
        · rintro (h3 | ⟨_, h3, _⟩)
          · exact absurd h3 (h1' c)
          · exact h3
      · next hc =>
        rw [ih]
        constructor
        · exact .inl
        · rintro (h3 | ⟨rfl, rfl, h4, h5⟩)
          · exact h3
          · exact absurd ⟨rfl, hnone.2 h5, h4⟩ hc

/-- Names are unique. -/
theorem C92_unique (h : List Call) (n : String) (c d : Cls) (hc : Means h n c) (hd : Means h n d) : c = d := by
  rw [← C92_names] at hc hd
  rw [hc] at hd
  exact Option.some.inj hd

theorem mem_keys_iff : ∀ (l : List (String × Cls)) (n : String), n ∈ l.map Prod.fst ↔ ∃ c, l.lookup n = some c
  | [], n => by simp
  | (m, c) :: l, n => by
    rw [List.map_cons, List.mem_cons, mem_keys_iff l n, List.lookup]
    by_cases e : n = m
    · subst e; simp
    · simp [e, beq_false_of_ne e]

theorem default_step_register (n : String) (c : Cls) (s : State) : (step s (.register n c)).default = s.default := by
  show ((register n c s).getD s).default = _
  cases hr : register n c s with
  | none => rfl
  | some s' => exact (find_register hr).2.2.1

theorem known_take (h : List Call) (a : Call) (i : ℕ) (hi : i ≤ h.length) (n : String) : KnownAt (h ++ [a]) i n ↔ KnownAt h i n := by
  unfold KnownAt
  rw [List.take_append_of_le_length hi]

/-- **C92, the default**: after every history the default is the last type to which it was successfully set, and a change is refused exactly if the name is unknown at that time. -/
theorem C92_default (h : List Call) (n : String) : (getDefault (run h) = n) ↔ IsDefault h n := by
  induction h using List.reverseRecOn generalizing n with
  | nil => simp [IsDefault, getDefault, run, State.init, eq_comm]
  | append_singleton h a ih =>
    rw [run_append]
    have hlt : ∀ {j : ℕ} {b : Call}, h[j]? = some b → j < h.length := fun {j b} hb => by
      by_contra hj
      rw [List.getElem?_eq_none (by omega)] at hb
      simp at hb
    have hknow : ∀ m, KnownAt (h ++ [a]) h.length m ↔ m ∈ (run h).types.map Prod.fst := fun m => by
      rw [known_take h a _ (Nat.le_refl _), KnownAt, List.take_length, mem_keys_iff]
      exact exists_congr fun c => (C92_names h m c).symm
    -- if the last call does not change the default
    have hkeep : (∀ m, a = .setDefault m → m ∉ (run h).types.map Prod.fst) → (IsDefault (h ++ [a]) n ↔ IsDefault h n) := by
      intro hno
      have e1 : ∀ i m, (h ++ [a])[i]? = some (.setDefault m) → KnownAt (h ++ [a]) i m → h[i]? = some (.setDefault m) ∧ KnownAt h i m := by
        intro i m hi hk
        rcases (getElem?_append_one _ _ _ _).1 hi with hi | ⟨rfl, ha⟩
        · exact ⟨hi, (known_take h a i (Nat.le_of_lt (hlt hi)) m).1 hk⟩
        · exact absurd ((hknow m).1 hk) (hno m ha)
      have e2 : ∀ i m, h[i]? = some (.setDefault m) → KnownAt h i m → (h ++ [a])[i]? = some (.setDefault m) ∧ KnownAt (h ++ [a]) i m := fun i m hi hk =>
        ⟨(getElem?_append_one _ _ _ _).2 (.inl hi), (known_take h a i (Nat.le_of_lt (hlt hi)) m).2 hk⟩
      unfold IsDefault
      constructor
      · rintro (⟨i, h1, h2, h3⟩ | ⟨h1, h2⟩)
        · obtain ⟨h1', h2'⟩ := e1 i n h1 h2
          exact .inl ⟨i, h1', h2', fun j hj m hm hk => h3 j hj m (e2 j m hm hk).1 (e2 j m hm hk).2⟩
        · exact .inr ⟨h1, fun j m hm hk => h2 j m (e2 j m hm hk).1 (e2 j m hm hk).2⟩
      · rintro (⟨i, h1, h2, h3⟩ | ⟨h1, h2⟩)
        · obtain ⟨h1', h2'⟩ := e2 i n h1 h2
          exact .inl ⟨i, h1', h2', fun j hj m hm hk => h3 j hj m (e1 j m hm hk).1 (e1 j m hm hk).2⟩
        · exact .inr ⟨h1, fun j m hm hk => h2 j m (e1 j m hm hk).1 (e1 j m hm hk).2⟩
    cases a with
    | register m c =>
      rw [hkeep (by simp), ← ih]
      show (step (run h) (.register m c)).default = n ↔ _
      rw [default_step_register]
      rfl
    | setDefault m =>
      by_cases hm : m ∈ (run h).types.map Prod.fst
      · have e : getDefault (step (run h) (.setDefault m)) = m := by
          simp only [step, setDefault, if_pos hm, Option.getD_some, getDefault]
        rw [e]
        have hk := (hknow m).2 hm
        constructor
        · rintro rfl
          refine .inl ⟨h.length, (getElem?_append_one _ _ _ _).2 (.inr ⟨rfl, rfl⟩), hk, fun j hj m' hm' => ?_⟩
          rw [List.getElem?_eq_none (by simp; omega)] at hm'
          simp at hm'
        · rintro (⟨i, h1, h2, h3⟩ | ⟨h1, h2⟩)
          · rcases (getElem?_append_one _ _ _ _).1 h1 with hi | ⟨_, ha⟩
            · exact absurd hk (h3 h.length (hlt hi) m ((getElem?_append_one _ _ _ _).2 (.inr ⟨rfl, rfl⟩)))
            · simpa using ha
          · exact absurd hk (h2 h.length m ((getElem?_append_one _ _ _ _).2 (.inr ⟨rfl, rfl⟩)))
      · rw [hkeep (by rintro m' e; cases e; exact hm), ← ih]
        simp only [step, setDefault, if_neg hm, Option.getD_none]

theorem C92_default_unique (h : List Call) : ∃! n, IsDefault h n :=
  ⟨getDefault (run h), (C92_default h _).1 rfl, fun n hn => ((C92_default h n).2 hn).symm⟩

/-- The default type is always one that exists, so a call without a type never fails. -/
theorem C92_default_exists (h : List Call) : ∃ c, create none (run h) = some c := by
  have key : ∀ h : List Call, ∃ c, (run h).find (getDefault (run h)) = some c := by
    intro h
    induction h using List.reverseRecOn with
    | nil => exact ⟨mpcCls, rfl⟩
    | append_singleton h a ih =>
      obtain ⟨c, hc⟩ := ih
      rw [run_append]
      cases a with
      | register m d =>
        show ∃ c, (step _ _).find (step (run h) (.register m d)).default = some c
        rw [default_step_register, find_step_register]
        split
        · exact ⟨_, rfl⟩
        · exact ⟨c, hc⟩
      | setDefault m =>
        by_cases hm : m ∈ (run h).types.map Prod.fst
        · obtain ⟨d, hd⟩ := (mem_keys_iff _ _).1 hm
          simp only [step, setDefault, if_pos hm, Option.getD_some, getDefault]
          exact ⟨d, hd⟩
        · simp only [step, setDefault, if_neg hm, Option.getD_none]
          exact ⟨c, hc⟩
  exact key h

/-- **C92, creation**: `cryptensor(x, cryptensor_type=t)` (and `rand`, `randn`) use the class that the name stands for; without a name that of the default. Unknown names are refused. -/
theorem C92_create (h : List Call) (t : Option String) (c : Cls) : create t (run h) = some c ↔ ∃ n, (t = some n ∨ (t = none ∧ IsDefault h n)) ∧ Means h n c := by
  rw [create, C92_names]
  cases t with
  | some n => simp
  | none =>
    simp only [Option.getD_none, reduceCtorEq, false_or, true_and]
    constructor
    · exact fun hm => ⟨_, (C92_default h _).1 rfl, hm⟩
    · rintro ⟨n, h1, h2⟩
      rwa [(C92_default h n).2 h1]

/-! ### The type of a tensor -/

theorem registers_index {h : List Call} {i j : ℕ} {n : String} {c d : Cls} (hi : Registers h i n c) (hj : Registers h j n d) : i = j := by
  rcases Nat.lt_trichotomy i j with e | e | e
  · exact absurd hi.2.1 (hj.2.2.2 i e c hi.1)
  · exact e
  · exact absurd hj.2.1 (hi.2.2.2 j e d hj.1)

theorem before_asymm {h : List Call} {m n : String} (h1 : Before h m n) : ¬Before h n m := by
  rcases h1 with ⟨rfl, h1⟩ | ⟨i, j, hij, ⟨c, hc⟩, ⟨d, hd⟩⟩
  · rintro (⟨rfl, _⟩ | ⟨i, j, _, _, ⟨d, hd⟩⟩)
    · exact h1 rfl
    · exact hd.2.2.1 rfl
  · rintro (⟨rfl, _⟩ | ⟨i', j', hij', ⟨c', hc'⟩, ⟨d', hd'⟩⟩)
    · exact hd.2.2.1 rfl
    · have := registers_index hc hd'
      have := registers_index hd hc'
      omega

theorem registers_mono {h : List Call} (a : Call) {i : ℕ} {n : String} {c : Cls} (hr : Registers h i n c) : Registers (h ++ [a]) i n c :=
  (registers_append h a i n c).2 (.inl hr)

theorem registers_lt {h : List Call} {i : ℕ} {n : String} {c : Cls} (hr : Registers h i n c) : i < h.length := by
  by_contra hi
  have := hr.1
  rw [List.getElem?_eq_none (by omega)] at this
  simp at this

theorem before_mono {h : List Call} (a : Call) {m n : String} (hb : Before h m n) : Before (h ++ [a]) m n := by
  rcases hb with hb | ⟨i, j, hij, ⟨c, hc⟩, ⟨d, hd⟩⟩
  · exact .inl hb
  · exact .inr ⟨i, j, hij, ⟨c, registers_mono a hc⟩, ⟨d, registers_mono a hd⟩⟩

/-- The table lists the types in the order in which they were registered. -/
theorem types_ordered (h : List Call) : (run h).types.Pairwise (fun a b => Before h a.1 b.1) ∧ ∀ e ∈ (run h).types, Means h e.1 e.2 := by
  induction h using List.reverseRecOn with
  | nil => simp [run, State.init, Means]
  | append_singleton h a ih =>
    obtain ⟨ih1, ih2⟩ := ih
    have m1 : (run h).types.Pairwise (fun x y => Before (h ++ [a]) x.1 y.1) := ih1.imp (before_mono a)
    have m2 : ∀ e ∈ (run h).types, Means (h ++ [a]) e.1 e.2 := fun e he => by
      rcases ih2 e he with he | ⟨i, hi⟩
      · exact .inl he
      · exact .inr ⟨i, registers_mono a hi⟩
    rw [run_append]
    cases a with
    | setDefault m =>
      have : (step (run h) (.setDefault m)).types = (run h).types := by
        show ((setDefault m (run h)).getD (run h)).types = _
        unfold setDefault
        split <;> rfl
      rw [this]
      exact ⟨m1, m2⟩
    | register n c =>
      show ((register n c (run h)).getD (run h)).types.Pairwise _ ∧ ∀ e ∈ ((register n c (run h)).getD (run h)).types, _
      cases hr : register n c (run h) with
      | none => exact ⟨m1, m2⟩
      | some s' =>
        obtain ⟨h1, h2, _, _⟩ := find_register hr
        have h3 : s'.types = (run h).types ++ [(n, c)] := by
          unfold register at hr
          rw [if_neg (by simp [h1]), if_neg (by simp [h2])] at hr
          cases hr
          rfl
        have h4 : ∀ c, ¬Means h n c := fun c hc => by
          rw [← C92_names, h1] at hc
          simp at hc
        obtain ⟨h5, h6⟩ := (no_means h n).1 h4
        have hreg : Registers (h ++ [.register n c]) h.length n c :=
          (registers_append _ _ _ _ _).2 (.inr ⟨rfl, rfl, by simpa [Cls.isCrypTensor] using h2, h5, h6⟩)
        rw [Option.getD_some, h3]
        refine ⟨List.pairwise_append.2 ⟨m1, List.pairwise_singleton _ _, ?_⟩, ?_⟩
        · intro x hx y hy
          rw [List.mem_singleton] at hy
          subst hy
          rcases ih2 x hx with ⟨hx, _⟩ | ⟨i, hi⟩
          · exact .inl ⟨hx, h5⟩
          · exact .inr ⟨i, h.length, registers_lt hi, ⟨_, registers_mono _ hi⟩, ⟨c, hreg⟩⟩
        · intro e he
          rcases List.mem_append.1 he with he | he
          · exact m2 e he
          · rw [List.mem_singleton] at he
            subst he
            exact .inr ⟨_, hreg⟩

theorem mem_types_iff (h : List Call) (n : String) (c : Cls) : (n, c) ∈ (run h).types ↔ Means h n c := by
  refine ⟨fun hm => (types_ordered h).2 _ hm, fun hm => ?_⟩
  rw [← C92_names] at hm
  have key : ∀ l : List (String × Cls), l.lookup n = some c → (n, c) ∈ l := by
    intro l
    induction l with
    | nil => simp
    | cons e l ih =>
      obtain ⟨m, d⟩ := e
      intro hl
      rw [List.lookup] at hl
      by_cases e : n = m
      · subst e
        simp only [BEq.rfl, Option.some.injEq] at hl
        simp [hl]
      · rw [beq_false_of_ne e] at hl
        exact List.mem_cons_of_mem _ (ih hl)
  exact key _ hm

/-- **C92, the type of a tensor**: `get_cryptensor_type(x)` is the oldest registered type of which `x` is an instance; plain tensors and instances of no registered type are refused. -/
theorem C92_type (h : List Call) (c : Cls) (n : String) :
    getType c (run h) = some n ↔ "CrypTensor" ∈ c.mro ∧ ∃ d, Means h n d ∧ d.name ∈ c.mro ∧ ∀ m e, Before h m n → Means h m e → e.name ∉ c.mro := by
  unfold getType
  split
  swap
  · next hc =>
    have : "CrypTensor" ∉ c.mro := by simpa [Cls.isCrypTensor] using hc
    simp [this]
  next hc =>
  have hc' : "CrypTensor" ∈ c.mro := by simpa [Cls.isCrypTensor] using hc
  simp only [hc', true_and, Option.map_eq_some_iff]
  obtain ⟨ord, _⟩ := types_ordered h
  -- what it means to be found
  have found : ∀ n d, (run h).types.find? (fun e => c.sub e.2) = some (n, d) →
      Means h n d ∧ d.name ∈ c.mro ∧ (∀ m e, Before h m n → Means h m e → e.name ∉ c.mro) ∧ ∀ m e, Means h m e → e.name ∈ c.mro → m = n ∨ Before h n m := by
    intro n d hf
    obtain ⟨hs, as, bs, hl, has⟩ := List.find?_eq_some_iff_append.1 hf
    have hs' : d.name ∈ c.mro := by simpa [Cls.sub] using hs
    rw [hl] at ord
    obtain ⟨_, o2, o3⟩ := List.pairwise_append.1 ord
    have o4 := (List.pairwise_cons.1 o2).1
    have cls : ∀ m e, Means h m e → e.name ∈ c.mro → m = n ∨ Before h n m := by
      intro m e hm he
      rw [← mem_types_iff, hl, List.mem_append, List.mem_cons] at hm
      rcases hm with hm | hm | hm
      · have := has _ hm
        simp [Cls.sub, he] at this
      · exact .inl (congrArg Prod.fst hm)
      · exact .inr (o4 _ hm)
    refine ⟨(mem_types_iff h n d).1 (by rw [hl]; simp), hs', fun m e hb hm he => ?_, cls⟩
    rcases cls m e hm he with rfl | hb'
    · exact before_asymm hb hb
    · exact before_asymm hb hb'
  constructor
  · rintro ⟨⟨n', d⟩, hf, rfl⟩
    obtain ⟨h1, h2, h3, _⟩ := found _ _ hf
    exact ⟨d, h1, h2, h3⟩
  · rintro ⟨d, h1, h2, h3⟩
    cases hf : (run h).types.find? (fun e => c.sub e.2) with
    | none =>
      rw [List.find?_eq_none] at hf
      have := hf _ ((mem_types_iff h n d).2 h1)
      simp [Cls.sub, h2] at this
    | some e =>
      obtain ⟨n', d'⟩ := e
      obtain ⟨g1, g2, _, g4⟩ := found _ _ hf
      refine ⟨_, rfl, ?_⟩
      rcases g4 n d h1 h2 with e | hb
      · exact e.symm
      · exact absurd g2 (h3 n' d' hb g1)

/-- **C92, round trip**: the type of a tensor made with `cryptensor_type=n` is `n`, provided its class does not inherit from (and is not) a class registered earlier. -/
theorem C92_round_trip_partial (h : List Call) (n : String) (c : Cls) (hc : create (some n) (run h) = some c) (self : c.name ∈ c.mro)
    (own : ∀ m e, Before h m n → Means h m e → e.name ∉ c.mro) : getType c (run h) = some n := by
  have hm : Means h n c := (C92_names h n c).1 hc
  refine (C92_type h c n).2 ⟨?_, c, hm, self, own⟩
  rcases hm with ⟨_, rfl⟩ | ⟨i, hi⟩
  · simp [mpcCls]
  · exact hi.2.1

/-- A class of the user's that extends `MPCTensor`. -/
def myCls : Cls := ⟨"MyTensor", ["MyTensor", "MPCTensor", "CrypTensor"]⟩

/-- A class of the user's that extends `CrypTensor`. -/
def plainCls : Cls := ⟨"PlainTensor", ["PlainTensor", "CrypTensor"]⟩

/-- Without the condition the round trip fails: tensors of a registered class that extends `MPCTensor` are reported as "mpc". -/
theorem C92_round_trip_wrong : ∃ h n c, create (some n) (run h) = some c ∧ c.name ∈ c.mro ∧ getType c (run h) ≠ some n :=
  ⟨[.register "my" myCls], "my", myCls, by decide +kernel⟩

/-- **C92, joining**: `cat` and `stack` accept a list of encrypted tensors exactly if it is not empty and all have the same type; the class of the first does the work. -/
theorem C92_join (h : List Call) (cs : List Cls) (c : Cls) :
    joinCls cs (run h) = some c ↔ cs.head? = some c ∧ ∃ n, ∀ d ∈ cs, getType d (run h) = some n := by
  cases cs with
  | nil => simp [joinCls]
  | cons a cs =>
    have key : ∀ (l : List Cls) (ts : List String), l.mapM (fun c => getType c (run h)) = some ts ↔ List.Forall₂ (fun c t => getType c (run h) = some t) l ts := by
      intro l
      induction l with
      | nil => intro ts; rw [List.forall₂_nil_left_iff]; simp [eq_comm]
      | cons a l ih =>
        intro ts
        simp only [List.mapM_cons, Option.bind_eq_bind, Option.bind_eq_some_iff, Option.pure_def, Option.some.injEq, List.forall₂_cons_left_iff]
        constructor
        · rintro ⟨t, h1, ts', h2, rfl⟩
          exact ⟨t, ts', h1, (ih ts').1 h2, rfl⟩
        · rintro ⟨t, ts', h1, h2, rfl⟩
          exact ⟨t, h1, ts', (ih ts').2 h2, rfl⟩
    unfold joinCls
    simp only [Option.bind_eq_bind, Option.bind_eq_some_iff, List.head?_cons, Option.some.injEq]
    constructor
    · rintro ⟨ts, h1, t, h2, h3⟩
      rw [key] at h1
      split at h3
      · next hall =>
        refine ⟨by simpa using h3, t, ?_⟩
        clear h2 h3 key
        generalize a :: cs = l at h1
        induction h1 with
        | nil => simp
        | cons hd _ ih =>
          rw [List.all_cons, Bool.and_eq_true, decide_eq_true_eq] at hall
          intro d hd'
          rcases List.mem_cons.1 hd' with rfl | hd'
          · rw [hd, hall.1]
          · exact ih hall.2 d hd'
      · simp at h3
    · rintro ⟨rfl, n, hn⟩
      refine ⟨List.replicate (a :: cs).length n, (key _ _).2 ?_, n, by simp [List.replicate_succ], by simp⟩
      clear key
      generalize a :: cs = l at hn
      induction l with
      | nil => exact .nil
      | cons b l ih => exact .cons (hn b (by simp)) (ih fun d hd => hn d (by simp [hd]))

/-- So tensors of two different registered types can be joined, if one of the classes extends the other, although "cannot concatenate CrypTensors with different underlying types". -/
theorem C92_join_wrong : ∃ h n m c d, create (some n) (run h) = some c ∧ create (some m) (run h) = some d ∧ n ≠ m ∧ c ≠ d ∧ joinCls [c, d] (run h) = some c :=
  ⟨[.register "my" myCls], "mpc", "my", mpcCls, myCls, by decide +kernel⟩

/-! ### Examples -/

/-- A history with a duplicate name, a class that is no `CrypTensor`, an unknown default and two types that count. -/
def exHistory : List Call :=
  [.setDefault "plain", .register "mpc" plainCls, .register "plain" ⟨"Tensor", ["Tensor"]⟩, .register "plain" plainCls, .setDefault "plain", .register "plain" myCls, .register "my" myCls, .setDefault "no"]

example : Means exHistory "plain" plainCls := (C92_names _ _ _).1 (by decide +kernel)
example : Means exHistory "my" myCls := (C92_names _ _ _).1 (by decide +kernel)
example : IsDefault exHistory "plain" := (C92_default _ _).1 (by decide +kernel)
example : create none (run exHistory) = some plainCls := by decide +kernel
example : create (some "no") (run exHistory) = none := by decide +kernel
example : getType plainCls (run exHistory) = some "plain" := by decide +kernel
example : joinCls [plainCls, mpcCls] (run exHistory) = none := by decide +kernel
example : getType ⟨"Other", ["Other", "CrypTensor"]⟩ (run exHistory) = none := by decide +kernel

/-- The condition of `C92_round_trip_partial` is met. -/
example : getType plainCls (run exHistory) = some "plain" :=
  C92_round_trip_partial exHistory "plain" plainCls (by decide +kernel) (by decide +kernel) (by
    intro m e hb hm
    rw [← C92_names] at hm
    rcases hb with ⟨rfl, _⟩ | ⟨i, j, hij, ⟨c', hc'⟩, ⟨d', hd'⟩⟩
    · have : (run exHistory).find "mpc" = some mpcCls := by decide +kernel
      rw [this] at hm
      cases hm
      decide +kernel
    · have hp : Registers exHistory 3 "plain" plainCls := by
        refine ⟨rfl, by decide +kernel, by decide +kernel, ?_⟩
        intro j hj d hd
        have : j = 0 ∨ j = 1 ∨ j = 2 := by omega
        rcases this with rfl | rfl | rfl <;> simp [exHistory] at hd
        subst hd
        decide +kernel
      have := registers_index hd' hp
      have hi : i = 0 ∨ i = 1 ∨ i = 2 := by omega
      have h1 := hc'.1
      have h2 := hc'.2.1
      have h3 := hc'.2.2.1
      rcases hi with rfl | rfl | rfl <;> simp [exHistory] at h1
      · exact absurd h1.1.symm h3
      · obtain ⟨_, rfl⟩ := h1
        simp at h2)

end CrypTen.Registry

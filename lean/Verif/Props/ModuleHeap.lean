import Verif.Spec.ModuleHeap
import Mathlib.Tactic.Linarith
import Mathlib.Tactic.Ring
import Mathlib.Data.List.Nodup

/-!
# C76: parameters as objects
-/

namespace CrypTen.ModuleHeap

/-! ## Children and parameters -/

theorem mem_childrenFrom (l : List (String × ℕ)) : ∀ (memo : List ℕ) (c : ℕ), c ∈ childrenFrom memo l ↔ c ∉ memo ∧ ∃ name, (name, c) ∈ l := by
  induction l with
  | nil => intro memo c; simp [childrenFrom]
  | cons q l ih =>
    obtain ⟨n, d⟩ := q
    intro memo c
    unfold childrenFrom
    split
    · rename_i hd
      rw [ih]
      constructor
      · rintro ⟨h1, name, h2⟩; exact ⟨h1, name, List.mem_cons_of_mem _ h2⟩
      · rintro ⟨h1, name, h2⟩
        rcases List.mem_cons.1 h2 with e | h2
        · rw [(Prod.mk.inj e).2] at h1; exact absurd hd h1
        · exact ⟨h1, name, h2⟩
    · rename_i hd
      rw [List.mem_cons, ih]
      constructor
      · rintro (rfl | ⟨h1, name, h2⟩)
        · exact ⟨hd, n, List.mem_cons_self⟩
        · exact ⟨fun h => h1 (List.mem_cons_of_mem _ h), name, List.mem_cons_of_mem _ h2⟩
      · rintro ⟨h1, name, h2⟩
        by_cases e : c = d
        · exact .inl e
        · right
          rcases List.mem_cons.1 h2 with e' | h2
          · exact absurd (Prod.mk.inj e').2 e
          · exact ⟨fun h => (List.mem_cons.1 h).elim e h1, name, h2⟩

theorem mem_children (h : Heap) (m c : ℕ) : c ∈ children h m ↔ ∃ name, (name, c) ∈ (h.mods m).children := by
  rw [children, mem_childrenFrom]; simp

/-- **C76.** `parameters()` lists exactly the parameters of the module and of its submodules at every depth. -/
theorem C76_parameters {rank : ℕ → ℕ} {h : Heap} (ha : Acyclic h rank) (fuel m : ℕ) (hf : rank m < fuel) (p : ℕ) :
    p ∈ parameters fuel h m ↔ ∃ c, Part h m c ∧ ∃ name, (name, p) ∈ (h.mods c).params := by
  induction fuel generalizing m with
  | zero => omega
  | succ fuel ih =>
    rw [parameters, List.mem_append, List.mem_flatMap]
    constructor
    · rintro (hp | ⟨c, hc, hp⟩)
      · obtain ⟨⟨n, q⟩, h1, rfl⟩ := List.mem_map.1 hp
        exact ⟨m, .self m, n, h1⟩
      · obtain ⟨n, hc⟩ := (mem_children h m c).1 hc
        obtain ⟨d, hd, hp⟩ := (ih c (by have := ha m n c hc; omega)).1 hp
        exact ⟨d, .sub n hc hd, hp⟩
    · rintro ⟨d, hd, name, hp⟩
      cases hd with
      | self => exact .inl (List.mem_map.2 ⟨_, hp, rfl⟩)
      | sub n hc hd => exact .inr ⟨_, (mem_children h m _).2 ⟨n, hc⟩, (ih _ (by have := ha m n _ hc; omega)).2 ⟨d, hd, name, hp⟩⟩

/-! ## Training mode -/

theorem part_congr {h h' : Heap} (e : ∀ m, (h'.mods m).children = (h.mods m).children) {m c : ℕ} : Part h' m c ↔ Part h m c := by
  constructor
  · intro hp
    induction hp with
    | self m => exact .self m
    | sub n hc _ ih => exact .sub n (e _ ▸ hc) ih
  · intro hp
    induction hp with
    | self m => exact .self m
    | sub n hc _ ih => exact .sub n ((e _).symm ▸ hc) ih

/-- What `train` may change. -/
structure SameButMode (h h' : Heap) : Prop where
  params : ∀ m, (h'.mods m).params = (h.mods m).params
  children : ∀ m, (h'.mods m).children = (h.mods m).children
  encrypted : ∀ m, (h'.mods m).encrypted = (h.mods m).encrypted
  value : ∀ p, (h'.tens p).value = (h.tens p).value
  tencrypted : ∀ p, (h'.tens p).encrypted = (h.tens p).encrypted
  grad : ∀ p, (h'.tens p).grad = (h.tens p).grad
  next : h'.next = h.next

theorem SameButMode.refl (h : Heap) : SameButMode h h := ⟨fun _ => rfl, fun _ => rfl, fun _ => rfl, fun _ => rfl, fun _ => rfl, fun _ => rfl, rfl⟩

theorem SameButMode.trans {a b c : Heap} (h : SameButMode a b) (h' : SameButMode b c) : SameButMode a c :=
  ⟨fun m => (h'.params m).trans (h.params m), fun m => (h'.children m).trans (h.children m), fun m => (h'.encrypted m).trans (h.encrypted m), fun m => (h'.value m).trans (h.value m),
    fun m => (h'.tencrypted m).trans (h.tencrypted m), fun m => (h'.grad m).trans (h.grad m), h'.next.trans h.next⟩

theorem setRequiresGrad_fold (mode : Bool) (l : List ℕ) : ∀ h : Heap, SameButMode h (l.foldl (setRequiresGrad mode) h) ∧ (l.foldl (setRequiresGrad mode) h).mods = h.mods ∧
    ∀ p, ((l.foldl (setRequiresGrad mode) h).tens p).requiresGrad = if p ∈ l then mode else (h.tens p).requiresGrad := by
  induction l with
  | nil => intro h; exact ⟨.refl h, rfl, fun p => by simp⟩
  | cons q l ih =>
    intro h
    rw [List.foldl_cons]
    obtain ⟨i1, i2, i3⟩ := ih (setRequiresGrad mode h q)
    refine ⟨SameButMode.trans (b := setRequiresGrad mode h q) ⟨fun _ => rfl, fun _ => rfl, fun _ => rfl, fun p => ?_, fun p => ?_, fun p => ?_, rfl⟩ i1, i2, fun p => ?_⟩
    · by_cases e : p = q
      · subst e; simp [setRequiresGrad]
      · simp [setRequiresGrad, e]
    · by_cases e : p = q
      · subst e; simp [setRequiresGrad]
      · simp [setRequiresGrad, e]
    · by_cases e : p = q
      · subst e; simp [setRequiresGrad]
      · simp [setRequiresGrad, e]
    · rw [i3]
      by_cases e : p = q
      · subst e; simp [setRequiresGrad]
      · simp [setRequiresGrad, e]

theorem children_congr {h h' : Heap} (e : ∀ m, (h'.mods m).children = (h.mods m).children) (m : ℕ) : children h' m = children h m := by rw [children, e, children]

theorem parameters_congr {h h' : Heap} (ep : ∀ m, (h'.mods m).params = (h.mods m).params) (e : ∀ m, (h'.mods m).children = (h.mods m).children) (fuel : ℕ) :
    ∀ m, parameters fuel h' m = parameters fuel h m := by
  induction fuel with
  | zero => intro m; rfl
  | succ fuel ih =>
    intro m
    rw [parameters, parameters, ep, children_congr e]
    congr 1
    exact List.flatMap_congr fun c _ => ih c

open Classical in
/-- What `train` does to all objects. -/
theorem train_spec {rank : ℕ → ℕ} (mode : Bool) (fuel : ℕ) : ∀ (m : ℕ) (h : Heap), Acyclic h rank → rank m < fuel → SameButMode h (train mode fuel h m) ∧
    (∀ c, ((train mode fuel h m).mods c).training = if Part h m c then mode else (h.mods c).training) ∧
    (∀ p, ((train mode fuel h m).tens p).requiresGrad = if p ∈ parameters fuel h m then mode else (h.tens p).requiresGrad) := by
  induction fuel with
  | zero => intro m h _ hf; omega
  | succ fuel ih =>
    intro m h ha hf
    have fold : ∀ (l : List ℕ) (g : Heap), SameButMode h g → (∀ c ∈ l, rank c < fuel) → SameButMode g (l.foldl (train mode fuel) g) ∧
        (∀ c, ((l.foldl (train mode fuel) g).mods c).training = if ∃ d ∈ l, Part h d c then mode else (g.mods c).training) ∧
        (∀ p, ((l.foldl (train mode fuel) g).tens p).requiresGrad = if ∃ d ∈ l, p ∈ parameters fuel h d then mode else (g.tens p).requiresGrad) := by
      intro l
      induction l with
      | nil => intro g _ _; exact ⟨.refl g, fun c => by simp, fun p => by simp⟩
      | cons d l ihl =>
        intro g hg hl
        have hag : Acyclic g rank := fun m n c hc => ha m n c (hg.children m ▸ hc)
        obtain ⟨i1, i2, i3⟩ := ih d g hag (hl d List.mem_cons_self)
        obtain ⟨j1, j2, j3⟩ := ihl (train mode fuel g d) (hg.trans i1) (fun c hc => hl c (List.mem_cons_of_mem _ hc))
        rw [List.foldl_cons]
        refine ⟨i1.trans j1, fun c => ?_, fun p => ?_⟩
        · rw [j2, i2]
          simp only [part_congr hg.children, List.mem_cons, exists_eq_or_imp]
          by_cases h1 : ∃ e ∈ l, Part h e c
          · rw [if_pos h1, if_pos (.inr h1)]
          · by_cases h2 : Part h d c
            · rw [if_neg h1, if_pos h2, if_pos (.inl h2)]
            · rw [if_neg h1, if_neg h2, if_neg (fun h => h.elim h2 h1)]
        · rw [j3, i3]
          simp only [parameters_congr hg.params hg.children, List.mem_cons, exists_eq_or_imp]
          by_cases h1 : ∃ e ∈ l, p ∈ parameters fuel h e
          · rw [if_pos h1, if_pos (.inr h1)]
          · by_cases h2 : p ∈ parameters fuel h d
            · rw [if_neg h1, if_pos h2, if_pos (.inl h2)]
            · rw [if_neg h1, if_neg h2, if_neg (fun h => h.elim h2 h1)]
    obtain ⟨s1, s2, s3⟩ := setRequiresGrad_fold mode (parameters (fuel + 1) h m) h
    rw [train]
    generalize (parameters (fuel + 1) h m).foldl (setRequiresGrad mode) h = g at *
    have hg : SameButMode h { g with mods := Function.update g.mods m { g.mods m with training := mode } } := by
      refine ⟨fun c => ?_, fun c => ?_, fun c => ?_, s1.value, s1.tencrypted, s1.grad, s1.next⟩
      all_goals
        by_cases e : c = m
        · subst e; simp [s2]
        · simp [e, s2]
    obtain ⟨f1, f2, f3⟩ := fold (children { g with mods := Function.update g.mods m { g.mods m with training := mode } } m) _ hg (by
      intro c hc
      rw [children_congr hg.children, mem_children] at hc
      obtain ⟨n, hc⟩ := hc
      have := ha m n c hc
      omega)
    simp only
    refine ⟨hg.trans f1, fun c => ?_, fun p => ?_⟩
    · rw [f2, children_congr hg.children]
      by_cases h1 : ∃ d ∈ children h m, Part h d c
      · rw [if_pos h1, if_pos]
        obtain ⟨d, hd, hp⟩ := h1
        obtain ⟨n, hd⟩ := (mem_children h m d).1 hd
        exact .sub n hd hp
      · rw [if_neg h1]
        by_cases e : c = m
        · subst e; simp [Part.self]
        · show (Function.update g.mods m _ c).training = _
          rw [Function.update_of_ne e, s2, if_neg]
          intro hp
          cases hp with
          | self => exact e rfl
          | sub n hc hd => exact h1 ⟨_, (mem_children h m _).2 ⟨n, hc⟩, hd⟩
    · rw [f3, children_congr hg.children]
      by_cases h1 : ∃ d ∈ children h m, p ∈ parameters fuel h d
      · rw [if_pos h1, if_pos]
        rw [parameters, List.mem_append, List.mem_flatMap]
        exact .inr h1
      · rw [if_neg h1]
        exact s3 p

/-- **C76.** `train(mode)` sets the mode of the module and of all its submodules and of nothing else, and changes no value, no gradient and no structure. -/
theorem C76_train {rank : ℕ → ℕ} (mode : Bool) {h : Heap} (ha : Acyclic h rank) (fuel m : ℕ) (hf : rank m < fuel) :
    SameButMode h (train mode fuel h m) ∧ (∀ c, Part h m c → ((train mode fuel h m).mods c).training = mode) ∧
      ∀ c, ¬ Part h m c → ((train mode fuel h m).mods c).training = (h.mods c).training := by
  obtain ⟨h1, h2, -⟩ := train_spec mode fuel m h ha hf
  exact ⟨h1, fun c hc => by rw [h2, if_pos hc], fun c hc => by rw [h2, if_neg hc]⟩

/-- **C76 fails** for frozen parameters: `train()` makes every parameter of the model require a gradient, whatever the user had set, and `eval()` none. -/
theorem C76_frozen_wrong {rank : ℕ → ℕ} (mode : Bool) {h : Heap} (ha : Acyclic h rank) (fuel m : ℕ) (hf : rank m < fuel) (c : ℕ) (hc : Part h m c) (name : String) (p : ℕ)
    (hp : (name, p) ∈ (h.mods c).params) : ((train mode fuel h m).tens p).requiresGrad = mode := by
  obtain ⟨-, -, h3⟩ := train_spec mode fuel m h ha hf
  rw [h3, if_pos ((C76_parameters ha fuel m hf p).2 ⟨c, hc, name, hp⟩)]

/-! ## Encryption -/

theorem encryptParams_spec (mode : Bool) (l : List (String × ℕ)) : ∀ h : Heap, (∀ q ∈ l, q.2 < h.next) →
    let r := encryptParams mode l h
    r.2.mods = h.mods ∧ r.2.next = h.next + l.length ∧ r.1.map Prod.fst = l.map Prod.fst ∧ r.1.map Prod.snd = List.range' h.next l.length ∧ (∀ p < h.next, r.2.tens p = h.tens p) ∧
      ∀ i (hi : i < l.length), r.2.tens (h.next + i) = ⟨(h.tens l[i].2).value, mode, (h.tens l[i].2).requiresGrad, none⟩ := by
  induction l with
  | nil => intro h _; exact ⟨rfl, rfl, rfl, rfl, fun _ _ => rfl, fun i hi => absurd hi (by simp)⟩
  | cons q l ih =>
    obtain ⟨n, q⟩ := q
    intro h hl
    have hq : q < h.next := hl _ List.mem_cons_self
    obtain ⟨i1, i2, i3, i4, i5, i6⟩ := ih { h with tens := Function.update h.tens h.next ⟨(h.tens q).value, mode, (h.tens q).requiresGrad, none⟩, next := h.next + 1 }
      (fun q hq => by have := hl q (List.mem_cons_of_mem _ hq); show q.2 < h.next + 1; omega)
    rw [encryptParams]
    refine ⟨i1, ?_, ?_, ?_, fun p hp => ?_, fun i hi => ?_⟩
    · simp only [i2, List.length_cons]; omega
    · simp only [List.map_cons, i3]
    · simp only [List.map_cons, i4, List.length_cons, List.range'_succ]
    · refine (i5 p (by show p < h.next + 1; omega)).trans ?_
      exact Function.update_of_ne (by omega) ..
    · cases i with
      | zero =>
        refine (i5 h.next (by show h.next < h.next + 1; omega)).trans ?_
        exact Function.update_self ..
      | succ i =>
        have hi' : i < l.length := by simpa using hi
        have := i6 i hi'
        have e : h.next + (i + 1) = h.next + 1 + i := by omega
        have hlt : l[i].2 < h.next := hl _ (List.mem_cons_of_mem _ (List.getElem_mem hi'))
        simp only [e, List.getElem_cons_succ]
        refine this.trans ?_
        simp only [Function.update_of_ne (Nat.ne_of_lt hlt)]

/-- A run of `encrypt` encrypts modules whose flag is different, one after the other. -/
inductive Steps (mode : Bool) (h : Heap) : Heap → Prop where
  | refl : Steps mode h h
  | own {g : Heap} (m : ℕ) (hs : Steps mode h g) (hm : (g.mods m).encrypted ≠ mode) : Steps mode h (encryptOwn mode g m)

theorem Steps.trans {mode : Bool} {a b c : Heap} (h : Steps mode a b) (h' : Steps mode b c) : Steps mode a c := by
  induction h' with
  | refl => exact h
  | own m _ hm ih => exact .own m ih hm

theorem steps_fold {mode : Bool} {f : Heap → ℕ → Heap} (hf : ∀ h m, Steps mode h (f h m)) (l : List ℕ) : ∀ h, Steps mode h (l.foldl f h) := by
  induction l with
  | nil => intro h; exact .refl
  | cons c l ih => intro h; exact (hf h c).trans (ih _)

theorem steps_encrypt (mode : Bool) (fuel : ℕ) : (∀ h m, Steps mode h (encrypt mode fuel h m)) ∧ ∀ h m, Steps mode h (applyEncrypt mode fuel h m) := by
  induction fuel with
  | zero => exact ⟨fun h m => .refl, fun h m => .refl⟩
  | succ fuel ih =>
    refine ⟨fun h m => ?_, fun h m => ?_⟩
    · rw [encrypt]
      split
      · exact .refl
      · rename_i hm
        exact (Steps.own m .refl hm).trans (ih.2 _ m)
    · rw [applyEncrypt]
      exact (steps_fold ih.2 _ h).trans (ih.1 _ m)

/-- What holds between the state before and a state during or after encryption. -/
structure Inv (mode : Bool) (h g : Heap) : Prop where
  children : ∀ m, (g.mods m).children = (h.mods m).children
  training : ∀ m, (g.mods m).training = (h.mods m).training
  next : h.next ≤ g.next
  old : ∀ p < h.next, g.tens p = h.tens p
  allocated : ∀ m, ∀ q ∈ (g.mods m).params, q.2 < g.next
  names : ∀ m, (g.mods m).params.map Prod.fst = (h.mods m).params.map Prod.fst
  untouched : ∀ m, (h.mods m).encrypted = mode ∨ (g.mods m).encrypted ≠ mode → (g.mods m).params = (h.mods m).params ∧ (g.mods m).encrypted = (h.mods m).encrypted
  fresh : ∀ m, (h.mods m).encrypted ≠ mode → (g.mods m).encrypted = mode → ∀ q ∈ (g.mods m).params, h.next ≤ q.2
  copies : ∀ m, (h.mods m).encrypted ≠ mode → (g.mods m).encrypted = mode → ∀ i (hi : i < (g.mods m).params.length) (hi' : i < (h.mods m).params.length),
    g.tens (g.mods m).params[i].2 = ⟨(h.tens (h.mods m).params[i].2).value, mode, (h.tens (h.mods m).params[i].2).requiresGrad, none⟩
  distinct : ∀ m m', (h.mods m).encrypted ≠ mode → (g.mods m).encrypted = mode → (h.mods m').encrypted ≠ mode → (g.mods m').encrypted = mode →
    ∀ i (hi : i < (g.mods m).params.length) j (hj : j < (g.mods m').params.length), (g.mods m).params[i].2 = (g.mods m').params[j].2 → m = m' ∧ i = j

theorem inv_steps {mode : Bool} {h g : Heap} (hv : Valid h) (hs : Steps mode h g) : Inv mode h g := by
  induction hs with
  | refl =>
    exact ⟨fun _ => rfl, fun _ => rfl, le_refl _, fun _ _ => rfl, hv.allocated, fun _ => rfl, fun _ _ => ⟨rfl, rfl⟩, fun m h1 h2 => absurd h2 h1, fun m h1 h2 => absurd h2 h1,
      fun m _ h1 h2 => absurd h2 h1⟩
  | @own g m hs hm ih =>
    obtain ⟨e1, e2, e3, e4, e5, e6⟩ := encryptParams_spec mode (g.mods m).params g (ih.allocated m)
    have hother : ∀ c, c ≠ m → (encryptOwn mode g m).mods c = g.mods c := fun c hc => Function.update_of_ne hc ..
    have hself : (encryptOwn mode g m).mods m = { g.mods m with params := (encryptParams mode (g.mods m).params g).1, encrypted := mode } := Function.update_self ..
    have hnext : (encryptOwn mode g m).next = g.next + (g.mods m).params.length := e2
    have htens : (encryptOwn mode g m).tens = (encryptParams mode (g.mods m).params g).2.tens := rfl
    have hlen : (encryptParams mode (g.mods m).params g).1.length = (g.mods m).params.length := by simpa using congrArg List.length e3
    have hid : ∀ i (hi : i < (encryptParams mode (g.mods m).params g).1.length), ((encryptParams mode (g.mods m).params g).1[i]).2 = g.next + i := by
      intro i hi
      have : ((encryptParams mode (g.mods m).params g).1.map Prod.snd)[i]'(by simpa using hi) = g.next + i := by
        simp only [e4, List.getElem_range']
        omega
      simpa using this
    obtain ⟨u1, u2⟩ := ih.untouched m (.inr hm)
    have hm0 : (h.mods m).encrypted ≠ mode := u2 ▸ hm
    have hn := ih.next
    refine ⟨fun c => ?_, fun c => ?_, ?_, fun p hp => ?_, fun c q hq => ?_, fun c => ?_, fun c hc => ?_, fun c h1 h2 q hq => ?_, fun c h1 h2 i hi hi' => ?_, fun c c' h1 h2 h3 h4 i hi j hj e => ?_⟩
    · by_cases ec : c = m
      · subst ec; rw [hself]; exact ih.children c
      · rw [hother c ec]; exact ih.children c
    · by_cases ec : c = m
      · subst ec; rw [hself]; exact ih.training c
      · rw [hother c ec]; exact ih.training c
    · rw [hnext]; omega
    · rw [htens, e5 p (by omega)]; exact ih.old p hp
    · rw [hnext]
      by_cases ec : c = m
      · subst ec
        rw [hself] at hq
        obtain ⟨i, hi, rfl⟩ := List.getElem_of_mem hq
        have hi1 : i < (encryptParams mode (g.mods c).params g).1.length := hi
        have := hid i hi1
        show ((encryptParams mode (g.mods c).params g).1[i]).2 < _
        omega
      · rw [hother c ec] at hq
        have := ih.allocated c q hq
        omega
    · by_cases ec : c = m
      · subst ec; rw [hself]; exact e3.trans (ih.names c)
      · rw [hother c ec]; exact ih.names c
    · by_cases ec : c = m
      · subst ec
        rw [hself] at hc
        exact absurd hc (by simp [hm0])
      · rw [hother c ec] at hc ⊢; exact ih.untouched c hc
    · by_cases ec : c = m
      · subst ec
        rw [hself] at hq
        obtain ⟨i, hi, rfl⟩ := List.getElem_of_mem hq
        have hi1 : i < (encryptParams mode (g.mods c).params g).1.length := hi
        have := hid i hi1
        show _ ≤ ((encryptParams mode (g.mods c).params g).1[i]).2
        omega
      · rw [hother c ec] at h2 hq; exact ih.fresh c h1 h2 q hq
    · by_cases ec : c = m
      · subst ec
        simp only [hself] at hi ⊢
        rw [hid i hi, htens, e6 i (by omega)]
        have hlt : ((h.mods c).params[i]).2 < h.next := hv.allocated c _ (List.getElem_mem hi')
        simp only [u1, ih.old _ hlt]
      · simp only [hother c ec] at hi h2 ⊢
        have hlt := ih.allocated c _ (List.getElem_mem hi)
        rw [htens, e5 _ hlt]
        exact ih.copies c h1 h2 i hi hi'
    · by_cases ec : c = m <;> by_cases ec' : c' = m
      · subst ec ec'
        simp only [hself] at hi hj e
        rw [hid i hi, hid j hj] at e
        exact ⟨rfl, by omega⟩
      · subst ec
        simp only [hself, hother c' ec'] at hi hj e
        have := ih.allocated c' _ (List.getElem_mem hj)
        rw [hid i hi] at e
        omega
      · subst ec'
        simp only [hself, hother c ec] at hi hj e
        have := ih.allocated c _ (List.getElem_mem hi)
        rw [hid j hj] at e
        omega
      · simp only [hother c ec, hother c' ec'] at hi hj e h2 h4
        exact ih.distinct c c' h1 h2 h3 h4 i hi j hj e

theorem flag_steps {mode : Bool} {h g : Heap} (hs : Steps mode h g) (c : ℕ) (hc : (h.mods c).encrypted = mode) : (g.mods c).encrypted = mode := by
  induction hs with
  | refl => exact hc
  | @own g m hs hm ih =>
    have : c ≠ m := fun e => hm (e ▸ ih)
    show ((Function.update g.mods m _) c).encrypted = mode
    rw [Function.update_of_ne this]; exact ih

theorem children_steps {mode : Bool} {h g : Heap} (hs : Steps mode h g) (c : ℕ) : (g.mods c).children = (h.mods c).children := by
  induction hs with
  | refl => rfl
  | @own g m hs hm ih =>
    show ((Function.update g.mods m _) c).children = _
    by_cases e : c = m
    · subst e; rw [Function.update_self]; exact ih
    · rw [Function.update_of_ne e]; exact ih

theorem cover_fold {mode : Bool} {f : Heap → ℕ → Heap} (hf : ∀ h m, Steps mode h (f h m)) (h0 : Heap) (l : List ℕ)
    (hc : ∀ c ∈ l, ∀ h, Steps mode h0 h → ∀ d, Part h0 c d → ((f h c).mods d).encrypted = mode) :
    ∀ h, Steps mode h0 h → ∀ c ∈ l, ∀ d, Part h0 c d → ((l.foldl f h).mods d).encrypted = mode := by
  induction l with
  | nil => intro h _ c hc'; exact absurd hc' (by simp)
  | cons a l ih =>
    intro h hs c hcl d hd
    rcases List.mem_cons.1 hcl with rfl | hcl
    · exact flag_steps (steps_fold hf l _) d (hc c List.mem_cons_self h hs d hd)
    · exact ih (fun c hcl => hc c (List.mem_cons_of_mem _ hcl)) _ (hs.trans (hf h a)) c hcl d hd

/-- `_apply` gives every part of the module the flag. -/
theorem cover {rank : ℕ → ℕ} (mode : Bool) {h0 : Heap} (ha : Acyclic h0 rank) (fuel : ℕ) : ∀ (m : ℕ) (h : Heap), Steps mode h0 h → rank m + 2 ≤ fuel →
    ∀ d, Part h0 m d → ((applyEncrypt mode fuel h m).mods d).encrypted = mode := by
  induction fuel with
  | zero => intro m h _ hf; omega
  | succ fuel ih =>
    intro m h hs hf d hd
    rw [applyEncrypt]
    have hsf := steps_fold (steps_encrypt mode fuel).2 (children h m) h
    cases hd with
    | self =>
      obtain ⟨fuel, rfl⟩ : ∃ k, fuel = k + 1 := ⟨fuel - 1, by omega⟩
      rw [encrypt]
      split
      · assumption
      · refine flag_steps ((steps_encrypt mode fuel).2 _ m) m ?_
        simp only [encryptOwn, Function.update_self]
    | @sub _ c _ name hc hd =>
      refine flag_steps ((steps_encrypt mode fuel).1 _ m) d (cover_fold (steps_encrypt mode fuel).2 h0 _ (fun c hc h hs d hd => ?_) h hs c ?_ d hd)
      · refine ih c h hs ?_ d hd
        obtain ⟨n, hc⟩ := (mem_children _ _ _).1 hc
        rw [children_steps ‹Steps mode h0 _›] at hc
        have := ha m n c hc
        omega
      · rw [mem_children]
        exact ⟨name, by rw [children_steps hs]; exact hc⟩

theorem encrypt_cover {rank : ℕ → ℕ} (mode : Bool) {h : Heap} (ha : Acyclic h rank) (fuel m : ℕ) (hm : (h.mods m).encrypted ≠ mode) (hf : rank m + 3 ≤ fuel) (d : ℕ) (hd : Part h m d) :
    ((encrypt mode fuel h m).mods d).encrypted = mode := by
  obtain ⟨fuel, rfl⟩ : ∃ k, fuel = k + 1 := ⟨fuel - 1, by omega⟩
  rw [encrypt, if_neg hm]
  exact cover mode ha fuel m _ (.own m .refl hm) (by omega) d hd

/-- The names are different, so the parameter called `name` is the one at the place of `name`. -/
theorem named_iff {h : Heap} {c : ℕ} (hn : ((h.mods c).params.map Prod.fst).Nodup) {name : String} {p : ℕ} :
    named h c name = some p ↔ ∃ i, ∃ hi : i < (h.mods c).params.length, (h.mods c).params[i] = (name, p) := by
  unfold named
  constructor
  · intro e
    obtain ⟨q, hq, rfl⟩ := Option.map_eq_some_iff.1 e
    have h1 := List.mem_of_find?_eq_some hq
    have h2 := List.find?_some hq
    obtain ⟨i, hi, e⟩ := List.getElem_of_mem h1
    refine ⟨i, hi, e.trans ?_⟩
    obtain ⟨a, b⟩ := q
    simp only [decide_eq_true_eq] at h2
    rw [h2]
  · rintro ⟨i, hi, e⟩
    have hmem : (name, p) ∈ (h.mods c).params := e ▸ List.getElem_mem hi
    cases hf : (h.mods c).params.find? (fun q => decide (q.1 = name)) with
    | none => simpa using (List.find?_eq_none.1 hf) _ hmem
    | some q =>
      have h1 := List.mem_of_find?_eq_some hf
      have h2 := List.find?_some hf
      simp only [decide_eq_true_eq] at h2
      obtain ⟨a, b⟩ := q
      have := List.inj_on_of_nodup_map hn h1 hmem h2
      rw [this]; rfl

/-- **C76.** Encrypting a model (or decrypting it) encrypts every parameter of the module and of its submodules at every depth, under the same name, with the same value and the same `requires_grad`, and drops the gradient. -/
theorem C76_encrypt {rank : ℕ → ℕ} (mode : Bool) {h : Heap} (hv : Valid h) (ha : Acyclic h rank) (fuel m : ℕ) (hf : rank m + 3 ≤ fuel) (hm : ∀ c, Part h m c → (h.mods c).encrypted ≠ mode)
    (c : ℕ) (hc : Part h m c) (name : String) (p : ℕ) (hp : named h c name = some p) :
    ((encrypt mode fuel h m).mods c).encrypted = mode ∧ ∃ p', named (encrypt mode fuel h m) c name = some p' ∧
      (encrypt mode fuel h m).tens p' = { value := (h.tens p).value, encrypted := mode, requiresGrad := (h.tens p).requiresGrad, grad := none } := by
  have hi := inv_steps hv ((steps_encrypt mode fuel).1 h m)
  have hflag := encrypt_cover mode ha fuel m (hm m (.self m)) hf c hc
  refine ⟨hflag, ?_⟩
  obtain ⟨i, hi1, e⟩ := (named_iff (hv.names c)).1 hp
  have hlen : ((encrypt mode fuel h m).mods c).params.length = (h.mods c).params.length := by simpa using congrArg List.length (hi.names c)
  have hi2 : i < ((encrypt mode fuel h m).mods c).params.length := by omega
  refine ⟨(((encrypt mode fuel h m).mods c).params[i]).2, (named_iff ((hi.names c).symm ▸ hv.names c)).2 ⟨i, hi2, ?_⟩, ?_⟩
  · have : (((encrypt mode fuel h m).mods c).params.map Prod.fst)[i]'(by simpa using hi2) = ((h.mods c).params.map Prod.fst)[i]'(by simpa using hi1) := by simp only [hi.names c]
    simp only [List.getElem_map, e] at this
    exact Prod.ext this rfl
  · rw [hi.copies c (hm c hc) hflag i hi2 hi1, e]

/-- **C76.** The tensors that were there before are not changed, whatever module is encrypted. -/
theorem C76_encrypt_copies (mode : Bool) {h : Heap} (hv : Valid h) (fuel m p : ℕ) (hp : p < h.next) : (encrypt mode fuel h m).tens p = h.tens p :=
  (inv_steps hv ((steps_encrypt mode fuel).1 h m)).old p hp

/-- **C76.** A parameter that two modules shared before encryption is not shared any more: they have two different tensors, which are trained separately from then on. -/
theorem C76_tied_wrong {rank : ℕ → ℕ} (mode : Bool) {h : Heap} (hv : Valid h) (ha : Acyclic h rank) (fuel m : ℕ) (hf : rank m + 3 ≤ fuel) (hm : ∀ c, Part h m c → (h.mods c).encrypted ≠ mode)
    (c c' : ℕ) (hc : Part h m c) (hc' : Part h m c') (name name' : String) (hne : (c, name) ≠ (c', name')) (p : ℕ) (hp : named (encrypt mode fuel h m) c name = some p)
    (p' : ℕ) (hp' : named (encrypt mode fuel h m) c' name' = some p') : p ≠ p' := by
  have hi := inv_steps hv ((steps_encrypt mode fuel).1 h m)
  have hflag := fun c hc => encrypt_cover mode ha fuel m (hm m (.self m)) hf c hc
  obtain ⟨i, hi1, e⟩ := (named_iff ((hi.names c).symm ▸ hv.names c)).1 hp
  obtain ⟨j, hj1, e'⟩ := (named_iff ((hi.names c').symm ▸ hv.names c')).1 hp'
  rintro rfl
  obtain ⟨rfl, rfl⟩ := hi.distinct c c' (hm c hc) (hflag c hc) (hm c' hc') (hflag c' hc') i hi1 j hj1 (by rw [e, e'])
  rw [e] at e'
  exact hne (by rw [(Prod.mk.inj e').1])

/-! ## The optimizer -/

theorem stepOne_other (lr : ℚ) (h : Heap) {p q : ℕ} (hq : q ≠ p) : (stepOne lr h p).tens q = h.tens q := by
  unfold stepOne
  split
  · rfl
  · exact Function.update_of_ne hq ..

theorem stepOne_same (lr : ℚ) (h : Heap) (p : ℕ) : (stepOne lr h p).tens p = { h.tens p with value := (h.tens p).value - lr * (h.tens p).grad.getD 0 } := by
  have key : ∀ (t : Tens) (g : Option ℚ), t.grad = g → (match g with | none => h | some g => { h with tens := Function.update h.tens p { t with value := t.value - lr * g } }).tens p =
      (match g with | none => h.tens p | some g => { t with value := t.value - lr * g }) := by
    intro t g _
    cases g with
    | none => rfl
    | some g => exact Function.update_self ..
  rw [stepOne]
  refine (key (h.tens p) _ rfl).trans ?_
  rcases h.tens p with ⟨v, e, r, g⟩
  cases g with
  | none => simp
  | some g => rfl

theorem stepOne_mods (lr : ℚ) (h : Heap) (p : ℕ) : (stepOne lr h p).mods = h.mods := by
  unfold stepOne; split <;> rfl

/-- **C76.** A step of SGD changes the tensors given to its constructor, and only those: the learning rate times the gradient is subtracted as many times as the tensor occurs in the list. -/
theorem C76_step (lr : ℚ) (l : List ℕ) (h : Heap) (p : ℕ) :
    (sgdStep lr l h).mods = h.mods ∧ (sgdStep lr l h).tens p = { h.tens p with value := (h.tens p).value - (l.count p : ℚ) * (lr * (h.tens p).grad.getD 0) } := by
  unfold sgdStep
  induction l generalizing h with
  | nil => simp
  | cons q l ih =>
    obtain ⟨h1, h2⟩ := ih (stepOne lr h q)
    refine ⟨h1.trans (stepOne_mods ..), ?_⟩
    rw [List.foldl_cons, h2]
    by_cases e : q = p
    · subst e
      rw [stepOne_same, List.count_cons_self]
      simp only [Tens.mk.injEq, and_true]
      push_cast; ring
    · rw [stepOne_other lr h (Ne.symm e), List.count_cons_of_ne e]

/-- **C76 (partial).** If no parameter occurs twice, a step on `model.parameters()` changes every parameter of the model by the learning rate times its gradient, once. -/
theorem C76_step_partial {rank : ℕ → ℕ} (lr : ℚ) {h : Heap} (ha : Acyclic h rank) (fuel m : ℕ) (hf : rank m < fuel) (hnd : (parameters fuel h m).Nodup) (c : ℕ) (hc : Part h m c) (name : String) (p : ℕ)
    (hp : (name, p) ∈ (h.mods c).params) : ((sgdStep lr (parameters fuel h m) h).tens p).value = (h.tens p).value - lr * (h.tens p).grad.getD 0 := by
  have hmem := (C76_parameters ha fuel m hf p).2 ⟨c, hc, name, hp⟩
  rw [(C76_step lr _ h p).2, List.count_eq_one_of_mem hnd hmem]
  simp

/-- **C76.** An optimizer made before `model.encrypt()` does not train the encrypted model: its step changes none of the parameters the model has after encryption, whatever their gradients. -/
theorem C76_optimizer_wrong {rank : ℕ → ℕ} (mode : Bool) {h : Heap} (hv : Valid h) (ha : Acyclic h rank) (fuel m : ℕ) (hf : rank m + 3 ≤ fuel) (hm : ∀ c, Part h m c → (h.mods c).encrypted ≠ mode)
    (lr : ℚ) (g : Heap) (hg : g.mods = (encrypt mode fuel h m).mods) (c : ℕ) (hc : Part h m c) (name : String) (p : ℕ) (hp : named g c name = some p) :
    (sgdStep lr (parameters fuel h m) g).tens p = g.tens p := by
  have hi := inv_steps hv ((steps_encrypt mode fuel).1 h m)
  have hflag := encrypt_cover mode ha fuel m (hm m (.self m)) hf c hc
  have hp' : named (encrypt mode fuel h m) c name = some p := by rw [← hp]; unfold named; rw [hg]
  obtain ⟨i, hi1, e⟩ := (named_iff ((hi.names c).symm ▸ hv.names c)).1 hp'
  have hfresh := hi.fresh c (hm c hc) hflag _ (List.getElem_mem hi1)
  rw [e] at hfresh
  have hnot : p ∉ parameters fuel h m := by
    intro hmem
    obtain ⟨d, _, n, hd⟩ := (C76_parameters ha fuel m (by omega) p).1 hmem
    have := hv.allocated d _ hd
    simp only at this hfresh
    omega
  rw [(C76_step lr _ g p).2, List.count_eq_zero_of_not_mem hnot]
  simp

/-! ## A model with a shared layer and a tied weight -/

/-- Module 0 has the submodules 1 and 2, which both have the parameter `w` (tensor 1) and the submodule 3 with the parameter `v` (tensor 0). -/
def sharedHeap : Heap where
  mods := fun m => match m with
    | 0 => ⟨[], [("a", 1), ("b", 2)], false, false⟩
    | 1 => ⟨[("w", 1)], [("s", 3)], false, false⟩
    | 2 => ⟨[("w", 1)], [("s", 3)], false, false⟩
    | 3 => ⟨[("v", 0)], [], false, false⟩
    | _ => ⟨[], [], false, false⟩
  tens := fun _ => ⟨5, false, true, some 2⟩
  next := 2

/-- The depth of the modules of `sharedHeap`. -/
def sharedRank : ℕ → ℕ
  | 0 => 2
  | 1 => 1
  | 2 => 1
  | _ => 0

theorem shared_acyclic : Acyclic sharedHeap sharedRank := by
  intro m name c hc
  match m with
  | 0 =>
    rcases List.mem_cons.1 hc with e | hc
    · rw [(Prod.mk.inj e).2]; decide
    · rcases List.mem_cons.1 hc with e | hc
      · rw [(Prod.mk.inj e).2]; decide
      · exact absurd hc (by simp)
  | 1 => rw [(Prod.mk.inj (List.mem_singleton.1 hc)).2]; decide
  | 2 => rw [(Prod.mk.inj (List.mem_singleton.1 hc)).2]; decide
  | 3 => exact absurd hc (by simp [sharedHeap])
  | _ + 4 => exact absurd hc (by simp [sharedHeap])

theorem shared_valid : Valid sharedHeap := by
  refine ⟨fun m q hq => ?_, fun m => ?_⟩
  · match m with
    | 0 => exact absurd hq (by simp [sharedHeap])
    | 1 => rw [List.mem_singleton.1 hq]; decide
    | 2 => rw [List.mem_singleton.1 hq]; decide
    | 3 => rw [List.mem_singleton.1 hq]; decide
    | _ + 4 => exact absurd hq (by simp [sharedHeap])
  · match m with
    | 0 => decide
    | 1 => decide
    | 2 => decide
    | 3 => decide
    | _ + 4 => exact List.nodup_nil

theorem shared_plain (c : ℕ) : (sharedHeap.mods c).encrypted = false := by
  match c with
  | 0 => rfl
  | 1 => rfl
  | 2 => rfl
  | 3 => rfl
  | _ + 4 => rfl

theorem shared_part (c : ℕ) (hc : c < 4) : Part sharedHeap 0 c := by
  match c with
  | 0 => exact .self 0
  | 1 => exact .sub "a" (by simp [sharedHeap]) (.self 1)
  | 2 => exact .sub "b" (by simp [sharedHeap]) (.self 2)
  | 3 => exact .sub (c := 1) "a" (by simp [sharedHeap]) (.sub "s" (by simp [sharedHeap]) (.self 3))

/-- **C76 fails** for models with a shared layer: `parameters()` lists its parameter once for every parent, and one step with the rate 1/10 on the gradient 2 moves it from 5 to 4.6 instead of 4.8. -/
theorem C76_twice_wrong : parameters 3 sharedHeap 0 = [1, 0, 1, 0] ∧ ((sgdStep (1 / 10) (parameters 3 sharedHeap 0) sharedHeap).tens 0).value = 5 - 2 * (1 / 10 * 2) := by
  have h : parameters 3 sharedHeap 0 = [1, 0, 1, 0] := by decide
  refine ⟨h, ?_⟩
  rw [(C76_step _ _ _ 0).2, h]
  rfl

/-- The shared weight `w`: before encryption one tensor, afterwards two. -/
example : named sharedHeap 1 "w" = named sharedHeap 2 "w" ∧ ∃ p p', named (encrypt true 5 sharedHeap 0) 1 "w" = some p ∧ named (encrypt true 5 sharedHeap 0) 2 "w" = some p' ∧ p ≠ p' := by
  have hm : ∀ c, Part sharedHeap 0 c → (sharedHeap.mods c).encrypted ≠ true := fun c _ => by rw [shared_plain]; simp
  obtain ⟨-, p, h1, -⟩ := C76_encrypt true shared_valid shared_acyclic 5 0 (by decide) hm 1 (shared_part 1 (by omega)) "w" 1 (by decide)
  obtain ⟨-, p', h2, -⟩ := C76_encrypt true shared_valid shared_acyclic 5 0 (by decide) hm 2 (shared_part 2 (by omega)) "w" 1 (by decide)
  exact ⟨by decide, p, p', h1, h2, C76_tied_wrong true shared_valid shared_acyclic 5 0 (by decide) hm 1 2 (shared_part 1 (by omega)) (shared_part 2 (by omega)) "w" "w" (by decide) p h1 p' h2⟩

/-- The shared layer 3 is encrypted once: its parameter is the same from both parents. -/
example : ((encrypt true 5 sharedHeap 0).mods 3).params = [("v", 2)] ∧ ((encrypt true 5 sharedHeap 0).mods 3).encrypted = true ∧ (encrypt true 5 sharedHeap 0).next = 5 := by decide

/-- The parameters that require a gradient after `eval()`: none of the four places. -/
example : ∀ p ∈ parameters 3 sharedHeap 0, ((train false 3 sharedHeap 0).tens p).requiresGrad = false := by decide

end CrypTen.ModuleHeap

import Verif.Spec.Attr
import Verif.Props.SequentialDict

/-!
# Attributes of modules, lists and dictionaries of modules

C78.
-/

namespace CrypTen.Attr
open Spec

theorem lookup_cons_if {α : Type} (k k' : String) (v : α) (d : OD α) : List.lookup k ((k', v) :: d) = if k' = k then some v else List.lookup k d := by
  rw [List.lookup_cons]
  by_cases h : k' = k
  · subst h; simp
  · have : (k == k') = false := by simpa using fun e => h e.symm
    simp [this, h]

theorem lookup_set {α : Type} (k k' : String) (v : α) (d : OD α) : (d.set k v).lookup k' = if k = k' then some v else d.lookup k' := by
  induction d with
  | nil => simp only [OD.set, lookup_cons_if, List.lookup_nil]
  | cons x d ih =>
    obtain ⟨a, b⟩ := x
    rw [OD.set, lookup_cons_if]
    by_cases h : a = k
    · subst h
      simp only [if_true, lookup_cons_if]
      split <;> rfl
    · rw [if_neg h, lookup_cons_if, ih]
      by_cases h2 : a = k'
      · subst h2; simp [Ne.symm h]
      · simp [h2]

theorem lookup_del {α : Type} (k k' : String) (d : OD α) : (d.del k).lookup k' = if k = k' then none else d.lookup k' := by
  induction d with
  | nil => simp [OD.del]
  | cons x d ih =>
    obtain ⟨a, b⟩ := x
    rw [lookup_cons_if]
    by_cases h : a = k
    · subst h
      rw [show OD.del a ((a, b) :: d) = OD.del a d by simp [OD.del], ih]
      split <;> rfl
    · rw [show OD.del k ((a, b) :: d) = (a, b) :: OD.del k d by simp [OD.del, h], lookup_cons_if, ih]
      by_cases h2 : a = k'
      · subst h2; simp [Ne.symm h]
      · simp [h2]

theorem mem_keys {α : Type} (k : String) (d : OD α) : k ∈ d.keys ↔ d.lookup k ≠ none := by
  induction d with
  | nil => simp [OD.keys]
  | cons x d ih =>
    obtain ⟨a, b⟩ := x
    rw [lookup_cons_if]
    by_cases h : a = k
    · subst h; simp [OD.keys]
    · have h' : ¬k = a := fun e => h e.symm
      simp only [OD.keys, List.map_cons, List.mem_cons, h', false_or, h, if_false]
      exact ih

theorem mem_lookup {α : Type} (k : String) (v : α) (d : OD α) (hd : d.keys.Nodup) : (k, v) ∈ d ↔ d.lookup k = some v := by
  induction d with
  | nil => simp
  | cons x d ih =>
    obtain ⟨a, b⟩ := x
    have hd' := List.nodup_cons.1 hd
    rw [lookup_cons_if, List.mem_cons]
    by_cases h : a = k
    · subst h
      simp only [Prod.mk.injEq, true_and, if_true, Option.some.injEq]
      constructor
      · rintro (h | h)
        · exact h.symm
        · exact absurd (List.mem_map_of_mem (f := Prod.fst) h) hd'.1
      · exact fun h => .inl h.symm
    · have h' : ¬k = a := fun e => h e.symm
      simp only [Prod.mk.injEq, h', false_and, false_or, h, if_false]
      exact ih hd'.2

theorem nodup_set {α : Type} (k : String) (v : α) (d : OD α) (hd : d.keys.Nodup) : (d.set k v).keys.Nodup := by
  induction d with
  | nil => simp [OD.set, OD.keys]
  | cons x d ih =>
    obtain ⟨a, b⟩ := x
    have hd' := List.nodup_cons.1 hd
    rw [OD.set]
    by_cases h : a = k
    · subst h; simpa [OD.keys] using hd
    · rw [if_neg h]
      refine List.nodup_cons.2 ⟨fun hm => ?_, ih hd'.2⟩
      have := (mem_keys a _).1 hm
      rw [lookup_set, if_neg (Ne.symm h)] at this
      exact hd'.1 ((mem_keys a _).2 this)

theorem nodup_del {α : Type} (k : String) (d : OD α) (hd : d.keys.Nodup) : (d.del k).keys.Nodup :=
  hd.sublist (List.filter_sublist.map _)

/-- What the names of a module stand for. -/
def names (o : Obj) : Names := fun name =>
  match o.dict.lookup name, o.parameters.lookup name, o.buffers.lookup name, o.modules.lookup name with
  | some v, _, _, _ => some (.attr v)
  | _, some v, _, _ => some (.parameter v)
  | _, _, some v, _ => some (.buffer v)
  | _, _, _, some v => some (.module v)
  | _, _, _, _ => none

/-- No name is in two of the dictionaries. -/
structure Good (o : Obj) : Prop where
  nodup : o.dict.keys.Nodup ∧ o.parameters.keys.Nodup ∧ o.buffers.keys.Nodup ∧ o.modules.keys.Nodup
  one : ∀ name, (o.dict.lookup name = none ∧ o.parameters.lookup name = none ∧ o.buffers.lookup name = none) ∨ (o.dict.lookup name = none ∧ o.parameters.lookup name = none ∧ o.modules.lookup name = none) ∨
    (o.dict.lookup name = none ∧ o.buffers.lookup name = none ∧ o.modules.lookup name = none) ∨ (o.parameters.lookup name = none ∧ o.buffers.lookup name = none ∧ o.modules.lookup name = none)

theorem good_new : Good new := by
  refine ⟨by simp [new, OD.keys], fun name => ?_⟩
  right; right; right
  simp [new]

theorem names_new : names new = start := by
  funext name
  simp only [names, new, start, lookup_cons_if, List.lookup_nil]
  by_cases h : "encrypted" = name
  · subst h; simp
  · by_cases h2 : "training" = name
    · subst h2; simp
    · simp [h, h2, Ne.symm h, Ne.symm h2, eq_comm]

/-- The four cases of a name. -/
theorem Good.cases {o : Obj} (g : Good o) (name : String) :
    (o.dict.lookup name = none ∧ o.parameters.lookup name = none ∧ o.buffers.lookup name = none ∧ o.modules.lookup name = none ∧ names o name = none) ∨
    (∃ v, o.dict.lookup name = some v ∧ o.parameters.lookup name = none ∧ o.buffers.lookup name = none ∧ o.modules.lookup name = none ∧ names o name = some (.attr v)) ∨
    (∃ v, o.dict.lookup name = none ∧ o.parameters.lookup name = some v ∧ o.buffers.lookup name = none ∧ o.modules.lookup name = none ∧ names o name = some (.parameter v)) ∨
    (∃ v, o.dict.lookup name = none ∧ o.parameters.lookup name = none ∧ o.buffers.lookup name = some v ∧ o.modules.lookup name = none ∧ names o name = some (.buffer v)) ∨
    (∃ v, o.dict.lookup name = none ∧ o.parameters.lookup name = none ∧ o.buffers.lookup name = none ∧ o.modules.lookup name = some v ∧ names o name = some (.module v)) := by
  unfold names
  rcases h1 : o.dict.lookup name with _ | a <;> rcases h2 : o.parameters.lookup name with _ | b <;> rcases h3 : o.buffers.lookup name with _ | c <;> rcases h4 : o.modules.lookup name with _ | d <;>
    have := g.one name <;> simp_all [-List.lookup_eq_none_iff]

theorem getattr_names (cls : String → Bool) {o : Obj} (g : Good o) (name : String) (hc : cls name = false) :
    getattr cls name o = match names o name with | some x => .ok (.val x.value) | none => .error .attributeError := by
  unfold getattr
  rcases g.cases name with ⟨h1, h2, h3, h4, h5⟩ | ⟨v, h1, h2, h3, h4, h5⟩ | ⟨v, h1, h2, h3, h4, h5⟩ | ⟨v, h1, h2, h3, h4, h5⟩ | ⟨v, h1, h2, h3, h4, h5⟩ <;> simp [h1, h2, h3, h4, h5, hc, Slot.value]

theorem hasattr_names (cls : String → Bool) {o : Obj} (g : Good o) (name : String) : hasattr cls name o = true ↔ names o name ≠ none ∨ cls name = true := by
  unfold hasattr getattr
  rcases g.cases name with ⟨h1, h2, h3, h4, h5⟩ | ⟨v, h1, h2, h3, h4, h5⟩ | ⟨v, h1, h2, h3, h4, h5⟩ | ⟨v, h1, h2, h3, h4, h5⟩ | ⟨v, h1, h2, h3, h4, h5⟩ <;> rcases hc : cls name <;> simp [h1, h2, h3, h4, h5, hc]

/-- An object that differs from `o` in one name only. -/
theorem good_of {o o' : Obj} (g : Good o) (nd : o'.dict.keys.Nodup ∧ o'.parameters.keys.Nodup ∧ o'.buffers.keys.Nodup ∧ o'.modules.keys.Nodup) (name : String) (x : Option Slot)
    (same : ∀ k, name ≠ k → o'.dict.lookup k = o.dict.lookup k ∧ o'.parameters.lookup k = o.parameters.lookup k ∧ o'.buffers.lookup k = o.buffers.lookup k ∧ o'.modules.lookup k = o.modules.lookup k)
    (h1 : o'.dict.lookup name = match x with | some (.attr v) => some v | _ => none) (h2 : o'.parameters.lookup name = match x with | some (.parameter v) => some v | _ => none)
    (h3 : o'.buffers.lookup name = match x with | some (.buffer v) => some v | _ => none) (h4 : o'.modules.lookup name = match x with | some (.module v) => some v | _ => none) :
    Good o' ∧ names o' = Function.update (names o) name x := by
  constructor
  · refine ⟨nd, fun k => ?_⟩
    by_cases hk : name = k
    · subst hk
      rw [h1, h2, h3, h4]
      rcases x with _ | (_ | _ | _ | _) <;> simp
    · obtain ⟨e1, e2, e3, e4⟩ := same k hk
      rw [e1, e2, e3, e4]
      exact g.one k
  · funext k
    by_cases hk : name = k
    · subst hk
      rw [Function.update_self]
      unfold names
      rw [h1, h2, h3, h4]
      rcases x with _ | (_ | _ | _ | _) <;> rfl
    · obtain ⟨e1, e2, e3, e4⟩ := same k hk
      rw [Function.update_of_ne (Ne.symm hk)]
      unfold names
      rw [e1, e2, e3, e4]

theorem update_names (o : Obj) (name : String) (x : Option Slot) (h : names o name = x) : Function.update (names o) name x = names o := by
  subst h; exact Function.update_eq_self _ _

theorem setattr_plain {o : Obj} {name : String} {v : Val} (hv : ∀ i, v ≠ .module i) : setattr name v o =
    if name ∈ o.modules.keys then (if v = .none then ({ o with modules := o.modules.set name .none }, none) else (o, some .typeError))
    else if name ∈ o.parameters.keys then ({ o with parameters := o.parameters.set name v }, none)
    else if name ∈ o.buffers.keys then ({ o with buffers := o.buffers.set name v }, none)
    else ({ o with dict := o.dict.set name v }, none) := by
  cases v with
  | module i => exact absurd rfl (hv i)
  | none => rfl
  | plain i => rfl

theorem setattr_names (cls : String → Bool) {o : Obj} (g : Good o) (name : String) (v : Val) :
    Good (setattr name v o).1 ∧ names (setattr name v o).1 = (Spec.call cls (names o) (.set name v)).1 ∧ (setattr name v o).2 = (Spec.call cls (names o) (.set name v)).2 := by
  by_cases hm : ∃ i, v = .module i
  · obtain ⟨i, rfl⟩ := hm
    have := good_of g (o' := (setattr name (.module i) o).1) ⟨nodup_del _ _ g.nodup.1, nodup_del _ _ g.nodup.2.1, nodup_del _ _ g.nodup.2.2.1, nodup_set _ _ _ g.nodup.2.2.2⟩ name (some (.module (.module i)))
      (fun k hk => by simp [setattr, lookup_del, lookup_set, hk]) (by simp [setattr, lookup_del]) (by simp [setattr, lookup_del]) (by simp [setattr, lookup_del]) (by simp [setattr, lookup_set])
    refine ⟨this.1, ?_, ?_⟩
    · rw [this.2]; simp [Spec.call]
    · simp [setattr, Spec.call]
  · have hv : ∀ i, v ≠ .module i := fun i e => hm ⟨i, e⟩
    rw [setattr_plain hv]
    rcases g.cases name with ⟨h1, h2, h3, h4, h5⟩ | ⟨w, h1, h2, h3, h4, h5⟩ | ⟨w, h1, h2, h3, h4, h5⟩ | ⟨w, h1, h2, h3, h4, h5⟩ | ⟨w, h1, h2, h3, h4, h5⟩
    · rw [if_neg (by simp [mem_keys, h4]), if_neg (by simp [mem_keys, h2]), if_neg (by simp [mem_keys, h3])]
      have := good_of g (o' := { o with dict := o.dict.set name v }) ⟨nodup_set _ _ _ g.nodup.1, g.nodup.2⟩ name (some (.attr v))
        (fun k hk => by simp [lookup_set, hk]) (by simp [lookup_set]) h2 h3 h4
      refine ⟨this.1, ?_, ?_⟩
      · dsimp only; rw [this.2]; cases v <;> simp_all [Spec.call]
      · cases v <;> simp_all [Spec.call]
    · rw [if_neg (by simp [mem_keys, h4]), if_neg (by simp [mem_keys, h2]), if_neg (by simp [mem_keys, h3])]
      have := good_of g (o' := { o with dict := o.dict.set name v }) ⟨nodup_set _ _ _ g.nodup.1, g.nodup.2⟩ name (some (.attr v))
        (fun k hk => by simp [lookup_set, hk]) (by simp [lookup_set]) h2 h3 h4
      refine ⟨this.1, ?_, ?_⟩
      · dsimp only; rw [this.2]; cases v <;> simp_all [Spec.call]
      · cases v <;> simp_all [Spec.call]
    · rw [if_neg (by simp [mem_keys, h4]), if_pos (by simp [mem_keys, h2])]
      have := good_of g (o' := { o with parameters := o.parameters.set name v }) ⟨g.nodup.1, nodup_set _ _ _ g.nodup.2.1, g.nodup.2.2⟩ name (some (.parameter v))
        (fun k hk => by simp [lookup_set, hk]) h1 (by simp [lookup_set]) h3 h4
      refine ⟨this.1, ?_, ?_⟩
      · dsimp only; rw [this.2]; cases v <;> simp_all [Spec.call]
      · cases v <;> simp_all [Spec.call]
    · rw [if_neg (by simp [mem_keys, h4]), if_neg (by simp [mem_keys, h2]), if_pos (by simp [mem_keys, h3])]
      have := good_of g (o' := { o with buffers := o.buffers.set name v }) ⟨g.nodup.1, g.nodup.2.1, nodup_set _ _ _ g.nodup.2.2.1, g.nodup.2.2.2⟩ name (some (.buffer v))
        (fun k hk => by simp [lookup_set, hk]) h1 h2 (by simp [lookup_set]) h4
      refine ⟨this.1, ?_, ?_⟩
      · dsimp only; rw [this.2]; cases v <;> simp_all [Spec.call]
      · cases v <;> simp_all [Spec.call]
    · rw [if_pos (by simp [mem_keys, h4])]
      by_cases hn : v = .none
      · subst hn
        rw [if_pos rfl]
        have := good_of g (o' := { o with modules := o.modules.set name .none }) ⟨g.nodup.1, g.nodup.2.1, g.nodup.2.2.1, nodup_set _ _ _ g.nodup.2.2.2⟩ name (some (.module .none))
          (fun k hk => by simp [lookup_set, hk]) h1 h2 h3 (by simp [lookup_set])
        refine ⟨this.1, ?_, ?_⟩
        · dsimp only; rw [this.2]; simp [Spec.call, h5]
        · simp [Spec.call, h5]
      · rw [if_neg hn]
        refine ⟨g, ?_, ?_⟩ <;> cases v <;> simp_all [Spec.call]

theorem setParam_good {o : Obj} (g : Good o) (name : String) (v : Val) (h : names o name = none ∨ ∃ w, names o name = some (.parameter w)) :
    Good { o with parameters := o.parameters.set name v } ∧ names { o with parameters := o.parameters.set name v } = Function.update (names o) name (some (.parameter v)) := by
  refine good_of g (o' := { o with parameters := o.parameters.set name v }) ⟨g.nodup.1, nodup_set _ _ _ g.nodup.2.1, g.nodup.2.2⟩ name (some (.parameter v)) (fun k hk => by simp [lookup_set, hk]) ?_ (by simp [lookup_set]) ?_ ?_ <;>
  rcases g.cases name with ⟨h1, h2, h3, h4, h5⟩ | ⟨w, h1, h2, h3, h4, h5⟩ | ⟨w, h1, h2, h3, h4, h5⟩ | ⟨w, h1, h2, h3, h4, h5⟩ | ⟨w, h1, h2, h3, h4, h5⟩ <;> first | (simp [h5] at h; done) | simp_all [-List.lookup_eq_none_iff]

theorem setBuf_good {o : Obj} (g : Good o) (name : String) (v : Val) (h : names o name = none ∨ ∃ w, names o name = some (.buffer w)) :
    Good { o with buffers := o.buffers.set name v } ∧ names { o with buffers := o.buffers.set name v } = Function.update (names o) name (some (.buffer v)) := by
  refine good_of g (o' := { o with buffers := o.buffers.set name v }) ⟨g.nodup.1, g.nodup.2.1, nodup_set _ _ _ g.nodup.2.2.1, g.nodup.2.2.2⟩ name (some (.buffer v)) (fun k hk => by simp [lookup_set, hk]) ?_ ?_ (by simp [lookup_set]) ?_ <;>
  rcases g.cases name with ⟨h1, h2, h3, h4, h5⟩ | ⟨w, h1, h2, h3, h4, h5⟩ | ⟨w, h1, h2, h3, h4, h5⟩ | ⟨w, h1, h2, h3, h4, h5⟩ | ⟨w, h1, h2, h3, h4, h5⟩ <;> first | (simp [h5] at h; done) | simp_all [-List.lookup_eq_none_iff]

theorem setMod_good {o : Obj} (g : Good o) (name : String) (v : Val) (h : ∀ x, names o name = some x → ∃ w, x = .module w) :
    Good { o with modules := o.modules.set name v } ∧ names { o with modules := o.modules.set name v } = Function.update (names o) name (some (.module v)) := by
  refine good_of g (o' := { o with modules := o.modules.set name v }) ⟨g.nodup.1, g.nodup.2.1, g.nodup.2.2.1, nodup_set _ _ _ g.nodup.2.2.2⟩ name (some (.module v)) (fun k hk => by simp [lookup_set, hk]) ?_ ?_ ?_ (by simp [lookup_set]) <;>
  rcases g.cases name with ⟨h1, h2, h3, h4, h5⟩ | ⟨w, h1, h2, h3, h4, h5⟩ | ⟨w, h1, h2, h3, h4, h5⟩ | ⟨w, h1, h2, h3, h4, h5⟩ | ⟨w, h1, h2, h3, h4, h5⟩ <;> first | (simp [h5] at h; done) | simp_all [-List.lookup_eq_none_iff]

theorem mem_parameters {o : Obj} (g : Good o) (name : String) : name ∈ o.parameters.keys ↔ ∃ v, names o name = some (.parameter v) := by
  rw [mem_keys]
  rcases g.cases name with ⟨h1, h2, h3, h4, h5⟩ | ⟨w, h1, h2, h3, h4, h5⟩ | ⟨w, h1, h2, h3, h4, h5⟩ | ⟨w, h1, h2, h3, h4, h5⟩ | ⟨w, h1, h2, h3, h4, h5⟩ <;> simp [h2, h5]

theorem mem_buffers {o : Obj} (g : Good o) (name : String) : name ∈ o.buffers.keys ↔ ∃ v, names o name = some (.buffer v) := by
  rw [mem_keys]
  rcases g.cases name with ⟨h1, h2, h3, h4, h5⟩ | ⟨w, h1, h2, h3, h4, h5⟩ | ⟨w, h1, h2, h3, h4, h5⟩ | ⟨w, h1, h2, h3, h4, h5⟩ | ⟨w, h1, h2, h3, h4, h5⟩ <;> simp [h3, h5]

theorem mem_modules {o : Obj} (g : Good o) (name : String) : name ∈ o.modules.keys ↔ ∃ v, names o name = some (.module v) := by
  rw [mem_keys]
  rcases g.cases name with ⟨h1, h2, h3, h4, h5⟩ | ⟨w, h1, h2, h3, h4, h5⟩ | ⟨w, h1, h2, h3, h4, h5⟩ | ⟨w, h1, h2, h3, h4, h5⟩ | ⟨w, h1, h2, h3, h4, h5⟩ <;> simp [h4, h5]

theorem mem_dict {o : Obj} (g : Good o) (name : String) : name ∈ o.dict.keys ↔ ∃ v, names o name = some (.attr v) := by
  rw [mem_keys]
  rcases g.cases name with ⟨h1, h2, h3, h4, h5⟩ | ⟨w, h1, h2, h3, h4, h5⟩ | ⟨w, h1, h2, h3, h4, h5⟩ | ⟨w, h1, h2, h3, h4, h5⟩ | ⟨w, h1, h2, h3, h4, h5⟩ <;> simp [h1, h5]

theorem set_stored (cls : String → Bool) (s : Names) (name : String) (v : Val) :
    Spec.call cls (Function.update s name (some (.parameter v))) (.set name v) = (Function.update s name (some (store .parameter v)), none) ∧
    Spec.call cls (Function.update s name (some (.buffer v))) (.set name v) = (Function.update s name (some (store .buffer v)), none) := by
  constructor <;> cases v <;> simp [Spec.call, store]

theorem call_names (cls : String → Bool) {o : Obj} (g : Good o) (c : Call) (hf : Free (names o) c) :
    Good (call cls o c).1 ∧ names (call cls o c).1 = (Spec.call cls (names o) c).1 ∧ (call cls o c).2 = (Spec.call cls (names o) c).2 := by
  cases c with
  | set name v => exact setattr_names cls g name v
  | del name =>
    simp only [call, delattr, Spec.call]
    by_cases h : name ∈ o.dict.keys
    · rw [if_pos h]
      obtain ⟨v, hv⟩ := (mem_dict g name).1 h
      have := good_of g (o' := { o with dict := o.dict.del name }) ⟨nodup_del _ _ g.nodup.1, g.nodup.2⟩ name none (fun k hk => by simp [lookup_del, hk]) (by simp [lookup_del])
        (by rcases g.cases name with ⟨h1, h2, h3, h4, h5⟩ | ⟨w, h1, h2, h3, h4, h5⟩ | ⟨w, h1, h2, h3, h4, h5⟩ | ⟨w, h1, h2, h3, h4, h5⟩ | ⟨w, h1, h2, h3, h4, h5⟩ <;> first | (simp [h5] at hv; done) | simp_all [-List.lookup_eq_none_iff])
        (by rcases g.cases name with ⟨h1, h2, h3, h4, h5⟩ | ⟨w, h1, h2, h3, h4, h5⟩ | ⟨w, h1, h2, h3, h4, h5⟩ | ⟨w, h1, h2, h3, h4, h5⟩ | ⟨w, h1, h2, h3, h4, h5⟩ <;> first | (simp [h5] at hv; done) | simp_all [-List.lookup_eq_none_iff])
        (by rcases g.cases name with ⟨h1, h2, h3, h4, h5⟩ | ⟨w, h1, h2, h3, h4, h5⟩ | ⟨w, h1, h2, h3, h4, h5⟩ | ⟨w, h1, h2, h3, h4, h5⟩ | ⟨w, h1, h2, h3, h4, h5⟩ <;> first | (simp [h5] at hv; done) | simp_all [-List.lookup_eq_none_iff])
      exact ⟨this.1, by rw [hv]; exact this.2, by rw [hv]⟩
    · rw [if_neg h]
      have hn : ∀ v, names o name ≠ some (.attr v) := fun v e => h ((mem_dict g name).2 ⟨v, e⟩)
      rcases hs : names o name with _ | (v | v | v | v)
      · exact ⟨g, rfl, rfl⟩
      · exact absurd hs (hn v)
      · exact ⟨g, rfl, rfl⟩
      · exact ⟨g, rfl, rfl⟩
      · exact ⟨g, rfl, rfl⟩
  | registerParameter name v =>
    simp only [call, registerParameter, Spec.call]
    have e : (name ∈ o.parameters.keys ∨ hasattr cls name o = true) ↔ (names o name ≠ none ∨ cls name = true) := by
      rw [mem_parameters g, hasattr_names cls g]
      constructor
      · rintro (⟨w, h⟩ | h)
        · left; rw [h]; simp
        · exact h
      · exact .inr
    by_cases h : names o name ≠ none ∨ cls name = true
    · rw [if_pos (e.2 h), if_pos h]; exact ⟨g, rfl, rfl⟩
    · rw [if_neg (fun hh => h (e.1 hh)), if_neg h]
      by_cases hv : v = .none
      · rw [if_pos hv, if_pos hv]; exact ⟨g, rfl, rfl⟩
      · rw [if_neg hv, if_neg hv]
        push Not at h
        have g1 := setParam_good g name v (.inl h.1)
        have := setattr_names cls g1.1 name v
        rw [g1.2, (set_stored cls _ name v).1] at this
        exact this
  | setParameter name v =>
    simp only [call, setParameter, Spec.call]
    by_cases h : name ∈ o.parameters.keys
    · obtain ⟨w, hw⟩ := (mem_parameters g name).1 h
      rw [if_neg (by
        rw [not_or, not_not, not_not]
        exact ⟨h, (hasattr_names cls g name).2 (.inl (by rw [hw]; simp))⟩), hw]
      have g1 := setParam_good g name v (.inr ⟨w, hw⟩)
      have := setattr_names cls g1.1 name v
      rw [g1.2, (set_stored cls _ name v).1] at this
      exact this
    · rw [if_pos (.inl h)]
      have hn : ∀ v, names o name ≠ some (.parameter v) := fun v e => h ((mem_parameters g name).2 ⟨v, e⟩)
      rcases hs : names o name with _ | (v | v | v | v)
      · exact ⟨g, rfl, rfl⟩
      · exact ⟨g, rfl, rfl⟩
      · exact absurd hs (hn v)
      · exact ⟨g, rfl, rfl⟩
      · exact ⟨g, rfl, rfl⟩
  | registerBuffer name v =>
    simp only [call, registerBuffer, Spec.call]
    have e : (name ∈ o.buffers.keys ∨ hasattr cls name o = true) ↔ (names o name ≠ none ∨ cls name = true) := by
      rw [mem_buffers g, hasattr_names cls g]
      constructor
      · rintro (⟨w, h⟩ | h)
        · left; rw [h]; simp
        · exact h
      · exact .inr
    by_cases h : names o name ≠ none ∨ cls name = true
    · rw [if_pos (e.2 h), if_pos h]; exact ⟨g, rfl, rfl⟩
    · rw [if_neg (fun hh => h (e.1 hh)), if_neg h]
      by_cases hv : v = .none
      · rw [if_pos hv, if_pos hv]; exact ⟨g, rfl, rfl⟩
      · rw [if_neg hv, if_neg hv]
        push Not at h
        have g1 := setBuf_good g name v (.inl h.1)
        have := setattr_names cls g1.1 name v
        rw [g1.2, (set_stored cls _ name v).2] at this
        exact this
  | setBuffer name v =>
    simp only [call, setBuffer, Spec.call]
    by_cases h : name ∈ o.buffers.keys
    · obtain ⟨w, hw⟩ := (mem_buffers g name).1 h
      rw [if_neg (by
        rw [not_or, not_not, not_not]
        exact ⟨h, (hasattr_names cls g name).2 (.inl (by rw [hw]; simp))⟩), hw]
      have g1 := setBuf_good g name v (.inr ⟨w, hw⟩)
      have := setattr_names cls g1.1 name v
      rw [g1.2, (set_stored cls _ name v).2] at this
      exact this
    · rw [if_pos (.inl h)]
      have hn : ∀ v, names o name ≠ some (.buffer v) := fun v e => h ((mem_buffers g name).2 ⟨v, e⟩)
      rcases hs : names o name with _ | (v | v | v | v)
      · exact ⟨g, rfl, rfl⟩
      · exact ⟨g, rfl, rfl⟩
      · exact ⟨g, rfl, rfl⟩
      · exact absurd hs (hn v)
      · exact ⟨g, rfl, rfl⟩
  | registerModule name v =>
    have g1 := setMod_good g name v hf
    exact ⟨g1.1, g1.2, rfl⟩
  | addModule name v =>
    simp only [call, addModule, Spec.call]
    by_cases h : name ∈ o.modules.keys
    · obtain ⟨w, hw⟩ := (mem_modules g name).1 h
      rw [if_pos h, hw]; exact ⟨g, rfl, rfl⟩
    · rw [if_neg h]
      have g1 := setMod_good g name v hf
      rcases hs : names o name with _ | x
      · exact ⟨g1.1, g1.2, rfl⟩
      · obtain ⟨w, rfl⟩ := hf x hs
        exact absurd ((mem_modules g name).2 ⟨w, hs⟩) h

theorem calls_names (cls : String → Bool) (cs : List Call) : ∀ {o : Obj}, Good o → Proper cls (names o) cs →
    Good (calls cls o cs).1 ∧ names (calls cls o cs).1 = (Spec.calls cls (names o) cs).1 ∧ (calls cls o cs).2 = (Spec.calls cls (names o) cs).2 := by
  induction cs with
  | nil => exact fun g _ => ⟨g, rfl, rfl⟩
  | cons c cs ih =>
    intro o g ⟨hf, hp⟩
    obtain ⟨g1, e1, e2⟩ := call_names cls g c hf
    rw [← e1] at hp
    obtain ⟨g2, e3, e4⟩ := ih g1 hp
    refine ⟨g2, ?_, ?_⟩
    · simp only [calls, Spec.calls]; rw [e3, e1]
    · simp only [calls, Spec.calls]; rw [e4, e2, e1]

theorem mem_childrenFrom (v : Val) (d : List (String × Val)) : ∀ memo, v ∈ (namedChildrenFrom memo d).map Prod.snd ↔ v ≠ .none ∧ v ∉ memo ∧ v ∈ d.map Prod.snd := by
  induction d with
  | nil => simp [namedChildrenFrom]
  | cons x d ih =>
    obtain ⟨k, w⟩ := x
    intro memo
    rw [namedChildrenFrom]
    by_cases h : w ≠ .none ∧ w ∉ memo
    · rw [if_pos h]
      simp only [List.map_cons, List.mem_cons, ih]
      by_cases e : v = w
      · subst e; simp [h]
      · simp [e]
    · rw [if_neg h, ih]
      simp only [List.map_cons, List.mem_cons]
      by_cases e : v = w
      · subst e
        simp only [true_or, and_true]
        constructor
        · exact fun hh => absurd ⟨hh.1, hh.2.1⟩ h
        · exact fun hh => absurd hh h
      · simp [e]

theorem keys_childrenFrom (d : List (String × Val)) : ∀ memo, List.Sublist (namedChildrenFrom memo d) d := by
  induction d with
  | nil => exact fun _ => .refl _
  | cons x d ih =>
    intro memo
    rw [namedChildrenFrom]
    split
    · exact (ih _).cons_cons _
    · exact (ih _).cons _

/-- **C78 (attributes).** After every history of assignments, deletions and registrations on a new module (in which `register_module` and `add_module` are not used with names of other things): every call raised exactly when it
should; every name the class does not define reads as what it stands for; `named_parameters()` and `named_buffers()` list exactly the parameters and buffers with their present values, every name once; `children()` are exactly the
submodules. -/
theorem C78_attributes_partial (cls : String → Bool) (cs : List Call) (hp : Proper cls start cs) :
    let o := (calls cls new cs).1
    let s := (Spec.calls cls start cs).1
    (calls cls new cs).2 = (Spec.calls cls start cs).2 ∧
    (∀ name, cls name = false → getattr cls name o = match s name with | some x => .ok (.val x.value) | none => .error .attributeError) ∧
    (∀ name v, (name, v) ∈ namedParameters o ↔ s name = some (.parameter v)) ∧ (namedParameters o).Nodup ∧
    (∀ name v, (name, v) ∈ namedBuffers o ↔ s name = some (.buffer v)) ∧ (namedBuffers o).Nodup ∧
    (∀ v, v ∈ (namedChildren o).map Prod.snd ↔ v ≠ .none ∧ ∃ name, s name = some (.module v)) ∧
    ∀ name v, (name, v) ∈ namedChildren o → s name = some (.module v) := by
  intro o s
  rw [← names_new] at hp
  obtain ⟨g, e1, e2⟩ := calls_names cls cs good_new hp
  rw [names_new] at e1 e2
  change Good o at g
  change names o = s at e1
  rw [← e1]
  refine ⟨e2, fun name hc => getattr_names cls g name hc, fun name v => ?_, g.nodup.2.1.of_map _, fun name v => ?_, g.nodup.2.2.1.of_map _, fun v => ?_, fun name v h => ?_⟩
  · rw [namedParameters, mem_lookup _ _ _ g.nodup.2.1]
    rcases g.cases name with ⟨h1, h2, h3, h4, h5⟩ | ⟨w, h1, h2, h3, h4, h5⟩ | ⟨w, h1, h2, h3, h4, h5⟩ | ⟨w, h1, h2, h3, h4, h5⟩ | ⟨w, h1, h2, h3, h4, h5⟩ <;> simp [h2, h5]
  · rw [namedBuffers, mem_lookup _ _ _ g.nodup.2.2.1]
    rcases g.cases name with ⟨h1, h2, h3, h4, h5⟩ | ⟨w, h1, h2, h3, h4, h5⟩ | ⟨w, h1, h2, h3, h4, h5⟩ | ⟨w, h1, h2, h3, h4, h5⟩ | ⟨w, h1, h2, h3, h4, h5⟩ <;> simp [h3, h5]
  · rw [namedChildren, mem_childrenFrom]
    refine and_congr_right fun _ => ?_
    simp only [List.not_mem_nil, not_false_eq_true, true_and, List.mem_map, Prod.exists, exists_eq_right]
    refine exists_congr fun name => ?_
    rw [mem_lookup _ _ _ g.nodup.2.2.2]
    rcases g.cases name with ⟨h1, h2, h3, h4, h5⟩ | ⟨w, h1, h2, h3, h4, h5⟩ | ⟨w, h1, h2, h3, h4, h5⟩ | ⟨w, h1, h2, h3, h4, h5⟩ | ⟨w, h1, h2, h3, h4, h5⟩ <;> simp [h4, h5]
  · have := (keys_childrenFrom o.modules []).subset h
    rw [mem_lookup _ _ _ g.nodup.2.2.2] at this
    rcases g.cases name with ⟨h1, h2, h3, h4, h5⟩ | ⟨w, h1, h2, h3, h4, h5⟩ | ⟨w, h1, h2, h3, h4, h5⟩ | ⟨w, h1, h2, h3, h4, h5⟩ | ⟨w, h1, h2, h3, h4, h5⟩ <;> simp_all [-List.lookup_eq_none_iff]

/-- **C78 (assignment).** After a successful `m.name = v`, `m.name` is `v`, and every other name reads as before; a failing assignment changes nothing. -/
theorem C78_set_partial (cls : String → Bool) (cs : List Call) (hp : Proper cls start cs) (name : String) (v : Val) :
    let o := (calls cls new cs).1
    ((setattr name v o).2 = none → cls name = false → getattr cls name (setattr name v o).1 = .ok (.val v)) ∧ ((setattr name v o).2 ≠ none → names (setattr name v o).1 = names o) ∧
    ∀ other, other ≠ name → cls other = false → getattr cls other (setattr name v o).1 = getattr cls other o := by
  intro o
  rw [← names_new] at hp
  obtain ⟨g, -, -⟩ := calls_names cls cs good_new hp
  change Good o at g
  obtain ⟨g1, e1, e2⟩ := setattr_names cls g name v
  refine ⟨fun h hc => ?_, fun h => ?_, fun other ho hc => ?_⟩
  · rw [getattr_names cls g1 name hc, e1]
    rw [e2] at h
    cases v with
    | module i => simp [Spec.call, Slot.value]
    | none => rcases hs : names o name with _ | (w | w | w | w) <;> simp [Spec.call, hs, Slot.value]
    | plain i => rcases hs : names o name with _ | (w | w | w | w) <;> simp_all [Spec.call, Slot.value]
  · rw [e1]
    rw [e2] at h
    cases v with
    | module i => simp [Spec.call] at h
    | none => rcases hs : names o name with _ | (w | w | w | w) <;> simp [Spec.call, hs] at h
    | plain i => rcases hs : names o name with _ | (w | w | w | w) <;> simp_all [Spec.call]
  · rw [getattr_names cls g1 other hc, getattr_names cls g other hc, e1]
    have : (Spec.call cls (names o) (.set name v)).1 other = names o other := by
      cases v <;> rcases hs : names o name with _ | (w | w | w | w) <;> simp [Spec.call, hs, Function.update_of_ne ho]
    rw [this]

/-- A history that meets the hypotheses: a parameter is replaced by a module, a failing registration, a deletion. -/
example : Proper (fun _ => false) start [.registerParameter "weight" (.plain 5), .set "weight" (.module 3), .registerBuffer "weight" (.plain 1), .addModule "fc" (.module 4), .del "training"] ∧
    (Spec.calls (fun _ => false) start [.registerParameter "weight" (.plain 5), .set "weight" (.module 3), .registerBuffer "weight" (.plain 1), .addModule "fc" (.module 4), .del "training"]).2 =
      [none, none, some .valueError, none, none] := by
  refine ⟨⟨trivial, trivial, trivial, ?_, trivial, trivial⟩, ?_⟩
  · intro x hx
    simp [Spec.call, start, store, Function.update] at hx
  · simp [Spec.calls, Spec.call, start, store, Function.update]

/-- **C78 fails** for `add_module` with the name of a parameter: it succeeds, the name still reads as the parameter, and it is both a parameter and a submodule. -/
theorem C78_add_parameter_wrong (cls : String → Bool) (o : Obj) (name : String) (v : Val) (i : ℕ) (hd : o.dict.lookup name = none) (hp : o.parameters.lookup name = some v) (hm : o.modules.lookup name = none)
    (hc : cls name = false) : let r := addModule name (.module i) o
    r.2 = none ∧ getattr cls name r.1 = .ok (.val v) ∧ r.1.parameters.lookup name = some v ∧ r.1.modules.lookup name = some (.module i) := by
  simp only [addModule, registerModule]
  rw [if_neg (by simp [mem_keys, hm])]
  refine ⟨rfl, ?_, hp, by simp [lookup_set]⟩
  simp [getattr, hd, hc, hp]

/-- **C78 fails** for `add_module` with the name of another attribute, for example "training": the attribute hides the submodule. -/
theorem C78_add_attribute_wrong (cls : String → Bool) (o : Obj) (name : String) (v : Val) (i : ℕ) (hd : o.dict.lookup name = some v) (hm : o.modules.lookup name = none) : let r := addModule name (.module i) o
    r.2 = none ∧ getattr cls name r.1 = .ok (.val v) ∧ r.1.modules.lookup name = some (.module i) ∧ ∀ j, (setattr name (.plain j) r.1).2 = some .typeError := by
  simp only [addModule, registerModule]
  rw [if_neg (by simp [mem_keys, hm])]
  refine ⟨rfl, ?_, by simp [lookup_set], fun j => ?_⟩
  · simp [getattr, hd]
  · rw [setattr_plain (by simp), if_pos (by simp [mem_keys, lookup_set]), if_neg (by simp)]

/-- The hypotheses are met by a new module and the name "training". -/
example : new.dict.lookup "training" = some (.plain 1) ∧ new.modules.lookup "training" = none := by decide

/-- **C78 fails** for deletion: `del m.name` raises `AttributeError` for every parameter, buffer and submodule. -/
theorem C78_delete_wrong (cls : String → Bool) (cs : List Call) (hp : Proper cls start cs) (name : String) (x : Slot) (hx : (Spec.calls cls start cs).1 name = some x) (ha : ∀ v, x ≠ .attr v) :
    delattr name (calls cls new cs).1 = ((calls cls new cs).1, some .attributeError) := by
  rw [← names_new] at hp
  obtain ⟨g, e1, -⟩ := calls_names cls cs good_new hp
  rw [names_new] at e1
  rw [delattr, if_neg]
  intro h
  obtain ⟨v, hv⟩ := (mem_dict g name).1 h
  rw [e1, hx] at hv
  exact ha v (Option.some.inj hv)

/-- **C78 fails** for names the class defines, for example "train": a module assigned to them becomes a submodule, but the name still reads as before. -/
theorem C78_class_wrong (cls : String → Bool) (o : Obj) (name : String) (hc : cls name = true) (i : ℕ) : (setattr name (.module i) o).2 = none ∧ getattr cls name (setattr name (.module i) o).1 = .ok .ofClass ∧
    (setattr name (.module i) o).1.modules.lookup name = some (.module i) := by
  simp [setattr, getattr, lookup_del, lookup_set, hc]

/-! ### Lists of modules -/

/-- Entries numbered from `k`. -/
def number (k : ℕ) : List Val → OD Val
  | [] => []
  | v :: l => (toString k, v) :: number (k + 1) l

theorem toString_inj' {i j : ℕ} : toString i = toString j ↔ i = j := ⟨SequentialDict.toString_inj, fun h => by rw [h]⟩

@[simp] theorem number_length (k : ℕ) (l : List Val) : (number k l).length = l.length := by
  induction l generalizing k with
  | nil => rfl
  | cons v l ih => simp [number, ih]

@[simp] theorem number_values (k : ℕ) (l : List Val) : (number k l).values = l := by
  induction l generalizing k with
  | nil => rfl
  | cons v l ih => simpa [number, OD.values] using ih (k + 1)

theorem number_lookup (k i : ℕ) (l : List Val) : (number k l).lookup (toString i) = if k ≤ i then l[i - k]? else none := by
  induction l generalizing k with
  | nil => simp [number]
  | cons v l ih =>
    rw [number, lookup_cons_if, ih]
    by_cases h : k = i
    · subst h; simp
    · have hs : ¬toString k = toString i := fun e => h (toString_inj'.1 e)
      by_cases h2 : k ≤ i
      · rw [if_neg hs, if_pos (by omega), if_pos h2, show i - k = (i - (k + 1)) + 1 by omega]; simp
      · rw [if_neg hs, if_neg (by omega), if_neg h2]

theorem number_keys (i : ℕ) (l : List Val) : toString i ∈ (number 0 l).keys ↔ i < l.length := by
  rw [mem_keys, number_lookup]
  simp

theorem number_set (k i : ℕ) (l : List Val) (v : Val) (h : i < l.length) : (number k l).set (toString (k + i)) v = number k (l.set i v) := by
  induction l generalizing k i with
  | nil => simp at h
  | cons w l ih =>
    rw [number, OD.set]
    cases i with
    | zero => simp [number]
    | succ i =>
      rw [if_neg (fun e => by have := toString_inj'.1 e; omega), List.set_cons_succ, number, ← ih (k + 1) i (by simpa using h), show k + (i + 1) = k + 1 + i by omega]

theorem number_append (k : ℕ) (l : List Val) (v : Val) : (number k l).set (toString (k + l.length)) v = number k (l ++ [v]) := by
  induction l generalizing k with
  | nil => simp [number, OD.set]
  | cons w l ih =>
    rw [number, OD.set, List.length_cons, if_neg (fun e => by have := toString_inj'.1 e; omega), List.cons_append, number, ← ih (k + 1), show k + (l.length + 1) = k + 1 + l.length by omega]

theorem renumber_eq (d : OD Val) : renumber d = number 0 d.values := by
  have : ∀ (l : List Val) k, ((List.range' k l.length).map fun i => toString i).zip l = number k l := by
    intro l
    induction l with
    | nil => simp [number]
    | cons v l ih => intro k; simp only [List.length_cons, List.range'_succ, List.map_cons, List.zip_cons_cons, number]; rw [ih (k + 1)]
  rw [renumber, List.range_eq_range', show d.length = d.values.length by simp [OD.values]]
  exact this d.values 0

theorem number_filter (p : ℕ → Bool) (q : String → Bool) (hq : ∀ i, q (toString i) = p i) (l : List Val) (k : ℕ) :
    OD.values ((number k l).filter fun x => q x.1) = ((l.zipIdx k).filter fun x => p x.2).map Prod.fst := by
  induction l generalizing k with
  | nil => rfl
  | cons v l ih =>
    have := ih (k + 1)
    simp only [OD.values] at this ⊢
    rw [number, List.zipIdx_cons, List.filter_cons, List.filter_cons]
    simp only [hq]
    split
    · simp only [List.map_cons, this]
    · exact this

theorem number_del (l : List Val) (i k : ℕ) : ((number k l).del (toString (k + i))).values = l.eraseIdx i := by
  have hd : ∀ (l : List Val) (m n : ℕ), n < m → (number m l).filter (fun x => decide (x.1 ≠ toString n)) = number m l := by
    intro l
    induction l with
    | nil => intros; rfl
    | cons v l ih =>
      intro m n h
      rw [number, List.filter_cons, if_pos (by simp only [decide_eq_true_eq]; rw [Ne, toString_inj']; omega), ih (m + 1) n (by omega)]
  induction l generalizing i k with
  | nil => simp [number, OD.del, OD.values]
  | cons v l ih =>
    cases i with
    | zero =>
      have := hd l (k + 1) k (by omega)
      rw [number, OD.del, List.filter_cons, if_neg (by simp), Nat.add_zero, this, number_values]; rfl
    | succ i =>
      have := ih i (k + 1)
      rw [number, OD.del, List.filter_cons, if_pos (by simp only [decide_eq_true_eq]; rw [Ne, toString_inj']; omega), List.eraseIdx_cons_succ, ← this, show k + (i + 1) = k + 1 + i by omega]
      rfl

theorem number_delSlice (ps : List ℕ) (d : OD Val) : ps.foldl (fun d k => d.del (toString k)) d = d.filter fun x => decide (x.1 ∉ ps.map toString) := by
  induction ps generalizing d with
  | nil => simp
  | cons p ps ih =>
    rw [List.foldl_cons, ih, OD.del, List.filter_filter]
    congr 1
    funext x
    simp only [List.map_cons, List.mem_cons, not_or]
    by_cases h1 : x.1 = toString p <;> by_cases h2 : x.1 ∈ ps.map toString <;> simp [h1, h2]

theorem shift_number (index : ℕ) (a : List Val) (ha : a.length = index) : ∀ (k : ℕ) (b c : List Val), b.length = k → b ++ c ≠ [] →
    ∃ x, listShift index k (number 0 (a ++ b ++ c)) = number 0 (a ++ x :: (b ++ c.tail)) := by
  intro k
  induction k with
  | zero =>
    intro b c hb hne
    rw [List.length_eq_zero_iff] at hb
    subst hb
    cases c with
    | nil => simp at hne
    | cons x c => exact ⟨x, by simp [listShift]⟩
  | succ k ih =>
    intro b c hb _
    have hbne : b ≠ [] := by rintro rfl; simp at hb
    obtain ⟨b', v, rfl⟩ := List.eq_nil_or_concat b |>.resolve_left hbne
    have hb' : b'.length = k := by simpa using hb
    rw [listShift, number_lookup, if_pos (by omega)]
    have hg : (a ++ (b' ++ [v]) ++ c)[index + k - 0]? = some v := by
      rw [List.append_assoc, List.getElem?_append_right (by omega), List.append_assoc, List.getElem?_append_right (by omega)]
      simp [ha, hb']
    have hg' : (a ++ (b'.concat v) ++ c)[index + k - 0]? = some v := by simpa using hg
    rw [hg']
    dsimp only
    have hs : (number 0 (a ++ b'.concat v ++ c)).set (toString (index + k + 1)) v = number 0 (a ++ b' ++ (v :: v :: c.tail)) := by
      cases c with
      | nil =>
        have := number_append 0 (a ++ b'.concat v ++ []) v
        have hl : (a ++ b'.concat v ++ ([] : List Val)).length = index + k + 1 := by simp [ha, hb']; omega
        rw [Nat.zero_add, hl] at this
        rw [this]; simp
      | cons w c =>
        have := number_set 0 (index + k + 1) (a ++ b'.concat v ++ (w :: c)) v (by simp [ha, hb']; omega)
        rw [Nat.zero_add] at this
        rw [this]
        congr 1
        rw [List.set_append_right _ _ (by simp [ha, hb']; omega)]
        simp [ha, hb', show index + k + 1 - (index + (k + 1)) = 0 by omega]
    rw [hs]
    obtain ⟨x, hx⟩ := ih b' (v :: v :: c.tail) hb' (by simp)
    exact ⟨x, by rw [hx]; simp⟩

theorem position_some {len : ℕ} {idx : ℤ} (h : -(len : ℤ) ≤ idx ∧ idx < len) : ∃ i < len, position len idx = some i ∧ (if idx < 0 then toString (idx + len).toNat else toString idx.toNat) = toString i := by
  unfold position
  by_cases hn : idx < 0
  · exact ⟨(len + idx).toNat, by omega, by rw [if_neg (by omega), if_pos (by omega)], by rw [if_pos hn]; congr 2; omega⟩
  · exact ⟨idx.toNat, by omega, by rw [if_pos (by omega)], by rw [if_neg hn]⟩

theorem position_none {len : ℕ} {idx : ℤ} (h : ¬(-(len : ℤ) ≤ idx ∧ idx < len)) : position len idx = none := by
  unfold position
  rw [if_neg (by omega), if_neg (by omega)]

theorem absIndex_number (o : Obj) (l : List Val) (h : o.modules = number 0 l) (idx : ℤ) :
    (position l.length idx = none ∧ absIndex o idx = .error .indexError) ∨ ∃ i < l.length, position l.length idx = some i ∧ absIndex o idx = .ok (toString i) := by
  unfold absIndex
  rw [h, number_length]
  by_cases hr : -(l.length : ℤ) ≤ idx ∧ idx < l.length
  · obtain ⟨i, hi, h1, h2⟩ := position_some hr
    right
    refine ⟨i, hi, h1, ?_⟩
    rw [if_neg (not_not.2 hr), ← h2]
    split <;> rfl
  · left
    exact ⟨position_none hr, by rw [if_pos hr]⟩

theorem extend_number (ms : List Val) : ∀ (l : List Val) (o : Obj), o.modules = number 0 l → (listExtend l.length ms o).1.modules = number 0 (l ++ ms) ∧ (listExtend l.length ms o).2 = none := by
  induction ms with
  | nil => intro l o h; simp [listExtend, h]
  | cons m ms ih =>
    intro l o h
    have hk : toString l.length ∉ o.modules.keys := by rw [h, number_keys]; omega
    have ha := number_append 0 l m
    rw [Nat.zero_add] at ha
    rw [listExtend, addModule, if_neg hk, registerModule, Out.andThen]
    have := ih (l ++ [m]) { o with modules := o.modules.set (toString l.length) m } (by dsimp only; rw [h, ha])
    rw [List.length_append, List.length_singleton] at this
    simpa using this

theorem listCall_number (o : Obj) (l : List Val) (h : o.modules = number 0 l) (c : ListCall) : (listCall o c).1.modules = number 0 (Spec.listCall l c).1 ∧ (listCall o c).2 = (Spec.listCall l c).2 := by
  cases c with
  | append m =>
    have := extend_number [m] l o h
    simp only [listExtend] at this
    simp only [listCall, listAppend, Spec.listCall]
    rw [h, number_length]
    have e : ∀ r : Out, r.andThen (fun o => (o, none)) = r := fun r => by rcases r with ⟨o, _ | e⟩ <;> rfl
    rw [e] at this
    exact this
  | extend ms =>
    simp only [listCall, Spec.listCall]
    rw [h, number_length]
    exact extend_number ms l o h
  | set idx m =>
    simp only [listCall, listSet, Spec.listCall]
    rcases absIndex_number o l h idx with ⟨h1, h2⟩ | ⟨i, hi, h1, h2⟩
    · rw [h1, h2]; exact ⟨h, rfl⟩
    · rw [h1, h2]
      have hk : toString i ∈ o.modules.keys := by rw [h, number_keys]; exact hi
      have hs := fun v => number_set 0 i l v hi
      rw [Nat.zero_add] at hs
      cases m with
      | none =>
        dsimp only
        rw [setattr_plain (by simp), if_pos hk, if_pos rfl]
        exact ⟨by dsimp only; rw [h, hs], rfl⟩
      | plain j =>
        dsimp only
        rw [setattr_plain (by simp), if_pos hk, if_neg (by simp)]
        exact ⟨h, rfl⟩
      | module j =>
        exact ⟨by dsimp only [setattr]; rw [h, hs], rfl⟩
  | insert index m =>
    simp only [listCall, listInsert, Spec.listCall]
    rw [h, number_length]
    by_cases hi : index ≤ l.length
    · rw [if_pos hi, if_pos hi]
      refine ⟨?_, rfl⟩
      dsimp only
      by_cases he : index = l.length
      · subst he
        have := number_append 0 l m
        rw [Nat.zero_add] at this
        rw [Nat.sub_self, listShift, this, List.insertIdx_length_self]
      · have hl : l = l.take index ++ l.drop index ++ [] := by simp
        obtain ⟨x, hx⟩ := shift_number index (l.take index) (by simp [hi]) (l.length - index) (l.drop index) [] (by simp) (by simp; omega)
        rw [← hl] at hx
        rw [hx]
        have := number_set 0 index (l.take index ++ x :: (l.drop index ++ [].tail)) m (by simp; omega)
        rw [Nat.zero_add] at this
        rw [this]
        congr 1
        rw [List.set_append_right _ _ (by simp)]
        simp only [List.length_take, Nat.min_eq_left hi, Nat.sub_self, List.set_cons_zero, List.tail_nil, List.append_nil]
        have ins : ∀ (l : List Val) (i : ℕ), i ≤ l.length → l.insertIdx i m = l.take i ++ m :: l.drop i := by
          intro l
          induction l with
          | nil => intro i hi; obtain rfl : i = 0 := by simpa using hi
                   rfl
          | cons a l ih =>
            intro i hi
            cases i with
            | zero => rfl
            | succ i => rw [List.insertIdx_succ_cons, ih i (by simpa using hi)]; rfl
        exact (ins l index hi).symm
    · rw [if_neg hi, if_neg hi]; exact ⟨h, rfl⟩
  | del idx =>
    simp only [listCall, listDel, Spec.listCall]
    rcases absIndex_number o l h idx with ⟨h1, h2⟩ | ⟨i, hi, h1, h2⟩
    · rw [h1, h2]; exact ⟨h, rfl⟩
    · rw [h1, h2]
      have := number_del l i 0
      rw [Nat.zero_add] at this
      refine ⟨?_, rfl⟩
      dsimp only
      rw [renumber_eq, h, this]
  | delSlice start stop step =>
    simp only [listCall, listDelSlice, Spec.listCall]
    refine ⟨?_, trivial⟩
    rw [renumber_eq, h, number_length, number_delSlice]
    congr 1
    rw [number_filter (fun i => decide (i ∉ sliceRange l.length start stop step)) (fun s => decide (s ∉ (sliceRange l.length start stop step).map toString)) (fun i => by
      simp only [List.mem_map, toString_inj', exists_eq_right])]
    congr 1
    refine List.filter_congr fun x hx => ?_
    have hx2 : x.2 < l.length := by
      have := List.snd_lt_of_mem_zipIdx hx
      omega
    simp only [sliceRange, List.mem_filter, List.mem_range, decide_eq_decide, decide_eq_true_eq]
    refine not_congr ⟨fun hh => ⟨hh.2.1, by omega, hh.2.2⟩, fun hh => ⟨by omega, hh.1, hh.2.2⟩⟩

/-- **C78 (lists).** A `ModuleList` made of any modules behaves as the Python list of these modules, for every history of `append`, `extend`, assignment, `insert`, deletion of one entry and of slices: it has the same entries in
the same order, raises when the list does, and reads the same at every position. -/
theorem C78_list (ms : List Val) (cs : List ListCall) : (listNew ms).2 = none ∧
    let o := (listCalls (listNew ms).1 cs).1
    let l := (Spec.listCalls ms cs).1
    listValues o = l ∧ (listCalls (listNew ms).1 cs).2 = (Spec.listCalls ms cs).2 ∧
    ∀ idx, listGet idx o = match position l.length idx with | some i => (match l[i]? with | some v => .ok v | none => .error .indexError) | none => .error .indexError := by
  have hn := extend_number ms [] new rfl
  simp only [List.length_nil, List.nil_append] at hn
  refine ⟨hn.2, ?_⟩
  have : ∀ (cs : List ListCall) (o : Obj) (l : List Val), o.modules = number 0 l → (listCalls o cs).1.modules = number 0 (Spec.listCalls l cs).1 ∧ (listCalls o cs).2 = (Spec.listCalls l cs).2 := by
    intro cs
    induction cs with
    | nil => exact fun o l h => ⟨h, rfl⟩
    | cons c cs ih =>
      intro o l h
      obtain ⟨h1, h2⟩ := listCall_number o l h c
      obtain ⟨h3, h4⟩ := ih _ _ h1
      exact ⟨h3, by simp only [listCalls, Spec.listCalls]; rw [h2, h4]⟩
  obtain ⟨h1, h2⟩ := this cs (listNew ms).1 ms hn.1
  intro o l
  refine ⟨?_, h2, fun idx => ?_⟩
  · rw [listValues, h1, number_values]
  · unfold listGet
    rcases absIndex_number o l h1 idx with ⟨e1, e2⟩ | ⟨i, hi, e1, e2⟩
    · rw [e1, e2]
    · rw [e1, e2]
      dsimp only
      rw [show o.modules = number 0 l from h1, number_lookup, if_pos (Nat.zero_le _), Nat.sub_zero, List.getElem?_eq_getElem hi]

/-- Three modules; the middle one is deleted, one is inserted in front, one is replaced, a wrong position is rejected. -/
example : (Spec.listCalls [.module 1, .module 2, .module 3] [.del (-2), .insert 0 (.module 7), .set (-1) (.module 9), .del 5, .extend [.module 4, .module 4], .delSlice 1 4 2]) =
    ([.module 7, .module 9, .module 4], [none, none, none, some .indexError, none, none]) := by decide

/-! ### Dictionaries of modules -/

/-- **C78 (dictionaries).** A new key can be entered into a `ModuleDict`, reads as the module entered, and leaves all other keys as they are; a key can be deleted. -/
theorem C78_dict_partial (o : Obj) (key : String) (m : Val) (h : key ∉ o.modules.keys) : (dictSet key m o).2 = none ∧ dictGet key (dictSet key m o).1 = .ok m ∧
    (dictSet key m o).1.modules = o.modules ++ [(key, m)] ∧ (∀ other, other ≠ key → dictGet other (dictSet key m o).1 = dictGet other o) ∧
    (dictDel key (dictSet key m o).1).2 = none ∧ dictGet key (dictDel key (dictSet key m o).1).1 = .error .keyError := by
  have he : (dictSet key m o) = ({ o with modules := o.modules.set key m }, none) := by rw [dictSet, addModule, if_neg h, registerModule]
  have ha : o.modules.set key m = o.modules ++ [(key, m)] := by
    generalize o.modules = d at h
    induction d with
    | nil => rfl
    | cons x d ih =>
      obtain ⟨a, b⟩ := x
      simp only [OD.keys, List.map_cons, List.mem_cons, not_or] at h
      rw [OD.set, if_neg (Ne.symm h.1), ih h.2]; rfl
  have hk : key ∈ (o.modules.set key m).keys := by simp [mem_keys, lookup_set]
  rw [he]
  refine ⟨rfl, by simp [dictGet, lookup_set], ha, fun other ho => by simp [dictGet, lookup_set, Ne.symm ho], ?_, ?_⟩
  · rw [dictDel, if_pos hk]
  · rw [dictDel, if_pos hk]; simp [dictGet, lookup_del]

/-- **C78 fails** for replacing: `d[key] = m` and `d.update({key: m})` raise for every key that is there already; `update` has then entered the keys before it. -/
theorem C78_dict_wrong (o : Obj) (key : String) (m : Val) : (key ∈ o.modules.keys → dictSet key m o = (o, some .assertionError)) ∧
    ∀ new v rest, new ∉ o.modules.keys → key ∈ o.modules.keys → dictUpdate ((new, v) :: (key, m) :: rest) o = ({ o with modules := o.modules.set new v }, some .assertionError) := by
  refine ⟨fun h => by rw [dictSet, addModule, if_pos h], fun new v rest h1 h2 => ?_⟩
  have h3 : key ∈ (o.modules.set new v).keys := by
    rw [mem_keys, lookup_set]
    rw [mem_keys] at h2
    split
    · simp
    · exact h2
  rw [dictUpdate, dictSet, addModule, if_neg h1, registerModule]
  simp only [Out.andThen, dictUpdate, dictSet, addModule]
  rw [if_pos h3]

/-- A dictionary with a key and a new key. -/
example : "a" ∈ (addModule "a" (.module 1) new).1.modules.keys ∧ "b" ∉ (addModule "a" (.module 1) new).1.modules.keys := by decide

end CrypTen.Attr

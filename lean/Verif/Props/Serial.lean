import Verif.Spec.Serial
import Mathlib.Tactic.Linarith
import Mathlib.Data.List.Perm.Basic
import Mathlib.Data.List.Induction

/-!
# C38: restricted deserialisation; C39: what load_from_party reveals
-/

namespace CrypTen.Serial

/-! ## C38 -/

private theorem initial_permitted (e : String → Bool) (name : String) (o : Obj) (h : initialRegistry e name = some o) :
    (name ∈ allowlist ∧ o = .allowed name ∧ e name = true) ∨ (name = loadFromBytesName ∧ o = .safeLoadFromBytes) := by
  unfold initialRegistry at h
  have key : ∀ (l : List String) (reg : Registry), (∀ n o, reg n = some o → (n ∈ allowlist ∧ o = .allowed n ∧ e n = true) ∨ (n = loadFromBytesName ∧ o = .safeLoadFromBytes)) → (∀ x ∈ l, x ∈ allowlist) →
      ∀ n o, (l.foldl (fun reg item => if e item then Registry.insert reg item (.allowed item) else reg) reg) n = some o →
        (n ∈ allowlist ∧ o = .allowed n ∧ e n = true) ∨ (n = loadFromBytesName ∧ o = .safeLoadFromBytes) := by
    intro l
    induction l with
    | nil => intro reg h _; exact h
    | cons x l ih =>
      intro reg h hl
      refine ih _ (fun n o hn => ?_) fun y hy => hl y (by simp [hy])
      beta_reduce at hn
      split at hn
      · next hx =>
        unfold Registry.insert at hn
        split at hn
        · next e1 => subst e1; cases hn; exact .inl ⟨hl n (by simp), rfl, hx⟩
        · exact h n o hn
      · exact h n o hn
  refine key allowlist _ (fun n o hn => ?_) (fun _ hx => hx) name o h
  unfold Registry.insert at hn
  split at hn
  · next e1 => subst e1; cases hn; exact .inr ⟨rfl, rfl⟩
  · cases hn

private theorem registry_snoc (e : String → Bool) (h : List (ℕ × String)) (c : ℕ × String) : registry e (h ++ [c]) = registerSafeClass (registry e h) c := by
  unfold registry; rw [List.foldl_append]; rfl

/-- the last registration under a name decides -/
private theorem registry_apply (e : String → Bool) (h : List (ℕ × String)) (name : String) :
    registry e h name = match h.reverse.find? (fun c => c.2 = name) with
      | some c => some (.user c.1 c.2)
      | none => initialRegistry e name := by
  induction h using List.reverseRecOn with
  | nil => rfl
  | append_singleton h c ih =>
    rw [registry_snoc, List.reverse_append]
    simp only [List.reverse_cons, List.reverse_nil, List.nil_append, List.cons_append, List.find?_cons]
    unfold registerSafeClass Registry.insert
    by_cases hc : c.2 = name
    · simp [hc]
    · simp only [hc, decide_false, Ne.symm hc, if_false]
      exact ih

/-- **C38.** Whatever is resolved is permitted. -/
theorem C38_only (e : String → Bool) (history : List (ℕ × String)) (module name : String) (o : Obj) (h : findClass (registry e history) module name = some o) :
    Permitted history (module ++ "." ++ name) o := by
  unfold findClass at h
  rw [registry_apply] at h
  split at h
  · next c hc =>
    cases h
    have h1 := List.find?_some hc
    have h2 := List.mem_of_find?_eq_some hc
    simp only [decide_eq_true_eq] at h1
    exact .inr (.inr ⟨c.1, by rw [← h1]; simpa using h2, by rw [h1]⟩)
  · rcases initial_permitted e _ o h with ⟨h1, h2, _⟩ | h1
    · exact .inl ⟨h1, h2⟩
    · exact .inr (.inl h1)

/-- **C38.** Everything that has never been permitted raises. -/
theorem C38_rejected (e : String → Bool) (history : List (ℕ × String)) (module name : String) (h1 : module ++ "." ++ name ∉ allowlist) (h2 : module ++ "." ++ name ≠ loadFromBytesName)
    (h3 : ∀ id, (id, module ++ "." ++ name) ∉ history) : findClass (registry e history) module name = none := by
  cases h : findClass (registry e history) module name with
  | none => rfl
  | some o =>
    rcases C38_only e history module name o h with ⟨a, _⟩ | ⟨a, _⟩ | ⟨id, a, _⟩
    · exact absurd a h1
    · exact absurd a h2
    · exact absurd a (h3 id)

/-- **C38.** Registration is permanent: a class registered at any time can be resolved ever after; it is the class that was registered last under the name. -/
theorem C38_permanent (e : String → Bool) (before after : List (ℕ × String)) (id : ℕ) (module name : String) :
    (findClass (registry e (before ++ (id, module ++ "." ++ name) :: after)) module name).isSome ∧
      ((∀ c ∈ after, c.2 ≠ module ++ "." ++ name) → findClass (registry e (before ++ (id, module ++ "." ++ name) :: after)) module name = some (.user id (module ++ "." ++ name))) := by
  have key : findClass (registry e (before ++ (id, module ++ "." ++ name) :: after)) module name
      = match after.reverse.find? (fun c => c.2 = module ++ "." ++ name) with
        | some c => some (.user c.1 c.2)
        | none => some (.user id (module ++ "." ++ name)) := by
    unfold findClass
    rw [registry_apply, List.reverse_append, List.reverse_cons, List.append_assoc, List.find?_append]
    cases h : after.reverse.find? (fun c => c.2 = module ++ "." ++ name) with
    | some c => simp
    | none => simp
  rw [key]
  refine ⟨by split <;> simp, fun h => ?_⟩
  rw [List.find?_eq_none.2 fun c hc => by simpa using h c (by simpa using hc)]

/-- **C38**, order-independence: two histories with the same classes resolve the same, if no two different classes in them have the same qualified name. -/
theorem C38_order_partial (e : String → Bool) (h1 h2 : List (ℕ × String)) (hsame : ∀ c, c ∈ h1 ↔ c ∈ h2) (hinj : ∀ c ∈ h1, ∀ d ∈ h1, c.2 = d.2 → c = d) (module name : String) :
    findClass (registry e h1) module name = findClass (registry e h2) module name := by
  unfold findClass
  rw [registry_apply, registry_apply]
  cases ha : h1.reverse.find? (fun c => c.2 = module ++ "." ++ name) with
  | some c =>
    have hc1 : c ∈ h1 := by simpa using List.mem_of_find?_eq_some ha
    have hc2 : c.2 = module ++ "." ++ name := by simpa using List.find?_some ha
    cases hb : h2.reverse.find? (fun c => c.2 = module ++ "." ++ name) with
    | some d =>
      have hd1 : d ∈ h2 := by simpa using List.mem_of_find?_eq_some hb
      have hd2 : d.2 = module ++ "." ++ name := by simpa using List.find?_some hb
      rw [hinj c hc1 d ((hsame d).2 hd1) (hc2.trans hd2.symm)]
    | none => exact absurd hc2 (by simpa using List.find?_eq_none.1 hb c (by simpa using (hsame c).1 hc1))
  | none =>
    cases hb : h2.reverse.find? (fun c => c.2 = module ++ "." ++ name) with
    | some d =>
      have hd1 : d ∈ h2 := by simpa using List.mem_of_find?_eq_some hb
      have hd2 : d.2 = module ++ "." ++ name := by simpa using List.find?_some hb
      exact absurd hd2 (by simpa using List.find?_eq_none.1 ha d (by simpa using (hsame d).2 hd1))
    | none => rfl

/-- **C38 fails** (order-independence) for two classes with the same qualified name, and a registered class replaces an allow-listed one of the same name. -/
theorem C38_order_wrong (e : String → Bool) :
    findClass (registry e [(1, "__main__.Net"), (2, "__main__.Net")]) "__main__" "Net" = some (.user 2 "__main__.Net")
      ∧ findClass (registry e [(2, "__main__.Net"), (1, "__main__.Net")]) "__main__" "Net" = some (.user 1 "__main__.Net")
      ∧ findClass (registry e [(3, "torch.Size")]) "torch" "Size" = some (.user 3 "torch.Size") := by
  refine ⟨?_, ?_, ?_⟩ <;> (unfold findClass; rw [registry_apply]; simp [List.find?])

/-- every object inside the value is permitted -/
private def Good (history : List (ℕ × String)) : PVal → Prop
  | .const _ => True
  | .bytes _ => True
  | .obj o => ∃ name, Permitted history name o
  | .pair a b => Good history a ∧ Good history b
  | .called o a => (∃ name, Permitted history name o) ∧ Good history a

private theorem unpickle_good (e : String → Bool) (history : List (ℕ × String)) (fuel : ℕ) : ∀ (s : Stream) (stack : List PVal), (∀ v ∈ stack, Good history v) →
    (∀ v, (unpickle (registry e history) fuel s stack).1 = some v → Good history v) ∧ ∀ o ∈ (unpickle (registry e history) fuel s stack).2, ∃ name, Permitted history name o := by
  induction fuel with
  | zero => intro s stack _; simp [unpickle]
  | succ fuel ih =>
    intro s stack hs
    cases s with
    | stop =>
      simp only [unpickle]
      refine ⟨fun v hv => hs v (List.mem_of_mem_head? hv), by simp⟩
    | cons i rest =>
      unfold unpickle
      split
      · exact ih _ _ fun v hv => by rcases List.mem_cons.1 hv with rfl | hv; exacts [trivial, hs v hv]
      · exact ih _ _ fun v hv => by rcases List.mem_cons.1 hv with rfl | hv; exacts [trivial, hs v hv]
      · split
        · next m n _ o ho => exact ih _ _ fun v hv => by rcases List.mem_cons.1 hv with rfl | hv; exacts [⟨_, C38_only e history m n o ho⟩, hs v hv]
        · simp
      · next b a st =>
        exact ih _ _ fun v hv => by
          rcases List.mem_cons.1 hv with rfl | hv
          · exact ⟨hs a (by simp), hs b (by simp)⟩
          · exact hs v (by simp [hv])
      · next arg o st =>
        have ho : ∃ name, Permitted history name o := hs (.obj o) (by simp)
        have hst : ∀ v ∈ st, Good history v := fun v hv => hs v (by simp [hv])
        split
        · next s =>
          have h1 := ih s [] (by simp)
          split
          · next v called hv =>
            rw [hv] at h1
            have h2 := ih rest (v :: st) fun w hw => by rcases List.mem_cons.1 hw with rfl | hw; exacts [h1.1 _ rfl, hst w hw]
            refine ⟨h2.1, fun p hp => ?_⟩
            simp only [List.cons_append, List.mem_cons, List.mem_append] at hp
            rcases hp with rfl | hp | hp
            exacts [ho, h1.2 p hp, h2.2 p hp]
          · next called hv =>
            rw [hv] at h1
            refine ⟨by simp, fun p hp => ?_⟩
            rcases List.mem_cons.1 hp with rfl | hp
            exacts [ho, h1.2 p hp]
        · have h2 := ih rest (.called o arg :: st) fun w hw => by rcases List.mem_cons.1 hw with rfl | hw; exacts [⟨ho, hs arg (by simp)⟩, hst w hw]
          refine ⟨h2.1, fun p hp => ?_⟩
          rcases List.mem_cons.1 hp with rfl | hp
          exacts [ho, h2.2 p hp]
      · simp

/-- **C38.** For every stream of instructions: everything the unpickler calls, also while loading nested storages, is permitted. -/
theorem C38_stream (e : String → Bool) (history : List (ℕ × String)) (fuel : ℕ) (s : Stream) :
    ∀ o ∈ (unpickle (registry e history) fuel s []).2, ∃ name, Permitted history name o := (unpickle_good e history fuel s [] (by simp)).2

/-- A stream that loads a nested storage and calls a registered class on the result, then one that asks for `os.system`. -/
example :
    (unpickle (registry (fun _ => true) [(7, "mod.Net")]) 20
      (.cons (.global "mod" "Net") (.cons (.global "torch.storage" "_load_from_bytes") (.cons (.bytes (.cons (.const 3) .stop)) (.cons .reduce (.cons .reduce .stop))))) []).2
        = [.safeLoadFromBytes, .user 7 "mod.Net"]
    ∧ (unpickle (registry (fun _ => true) [(7, "mod.Net")]) 20 (.cons (.global "os" "system") (.cons (.const 1) (.cons .reduce .stop))) []).1.isNone := by
  have h1 : findClass (registry (fun _ => true) [(7, "mod.Net")]) "mod" "Net" = some (.user 7 "mod.Net") := (C38_permanent (fun _ => true) [] [] 7 "mod" "Net").2 (by simp)
  have h2 : findClass (registry (fun _ => true) [(7, "mod.Net")]) "torch.storage" "_load_from_bytes" = some .safeLoadFromBytes := by decide +kernel
  have h3 : findClass (registry (fun _ => true) [(7, "mod.Net")]) "os" "system" = none := C38_rejected _ _ _ _ (by decide +kernel) (by decide +kernel) (by simp)
  simp [unpickle, h1, h2, h3]

/-! ## C39 -/

private theorem zeros_eq_iff (a b : Tensor) : a.zeros = b.zeros ↔ SameShape a b := by
  unfold Tensor.zeros SameShape
  simp only [Tensor.mk.injEq, List.replicate_inj]
  constructor
  · rintro ⟨h1, h2, _⟩; exact ⟨h1, h2⟩
  · rintro ⟨h1, h2⟩; exact ⟨h1, h2, .inr trivial⟩

/-- **C39**, tensors: what is broadcast depends on the shape only. -/
theorem C39_tensor_partial (a b : Tensor) (h : SameShape a b) : broadcastMessage (.tensor a) = broadcastMessage (.tensor b) := by
  show Loaded.tensor a.zeros = Loaded.tensor b.zeros
  rw [(zeros_eq_iff a b).2 h]

private theorem forall2_map_zero (ps qs : List (String × Tensor)) :
    ps.map (fun p => (p.1, p.2.zeros)) = qs.map (fun p => (p.1, p.2.zeros)) ↔ List.Forall₂ (fun p q => p.1 = q.1 ∧ SameShape p.2 q.2) ps qs := by
  induction ps generalizing qs with
  | nil => cases qs <;> simp
  | cons p ps ih => cases qs with
    | nil => simp
    | cons q qs => simp only [List.map_cons, List.cons.injEq, Prod.mk.injEq, List.forall₂_cons, ih, zeros_eq_iff]

private theorem forall2_eq (ps qs : List (String × Tensor)) : List.Forall₂ (fun p q : String × Tensor => p.1 = q.1 ∧ p.2 = q.2) ps qs ↔ ps = qs := by
  have : (fun p q : String × Tensor => p.1 = q.1 ∧ p.2 = q.2) = Eq := by funext p q; simp [Prod.ext_iff]
  rw [this, List.forall₂_eq_eq_eq]

mutual
private theorem module_iff : ∀ m m' : Module, m.zeroParameters = m'.zeroParameters ↔ SameStructure Eq m m'
  | .mk cls ps bs cs, .mk cls' ps' bs' cs' => by
    simp only [Module.zeroParameters, SameStructure, Module.mk.injEq, forall2_map_zero, forall2_eq, children_iff cs cs']
private theorem children_iff : ∀ cs cs' : List (String × Module), zeroChildren cs = zeroChildren cs' ↔ SameChildren Eq cs cs'
  | [], [] => by simp [zeroChildren, SameChildren]
  | [], _ :: _ => by simp [zeroChildren, SameChildren]
  | _ :: _, [] => by simp [zeroChildren, SameChildren]
  | (n, m) :: cs, (n', m') :: cs' => by
    simp only [zeroChildren, SameChildren, List.cons.injEq, Prod.mk.injEq, module_iff m m', children_iff cs cs', and_assoc]
end

/-- **C39**, modules, exactly: two modules give the same message if and only if they have the same structure *and the same buffers*. In particular parameter values are never revealed, buffer values always. -/
theorem C39_module_partial (m m' : Module) : broadcastMessage (.module m) = broadcastMessage (.module m') ↔ SameStructure Eq m m' := by
  unfold broadcastMessage
  rw [Loaded.module.injEq, module_iff]

/-- A batch-normalisation layer with a weight and running mean. -/
private def bn (w r : ℤ) : Module := .mk "BatchNorm1d" [("weight", ⟨[1], [w]⟩)] [("running_mean", ⟨[1], [r]⟩)] []

example : SameStructure Eq (.mk "Net" [] [] [("bn", bn 3 8)]) (.mk "Net" [] [] [("bn", bn 5 8)]) := by simp [SameStructure, SameChildren, bn, SameShape]

/-- **C39 fails** for buffers: two models of the same structure that differ in a running mean only give different messages, so the other parties learn it. -/
theorem C39_buffers_wrong : ∃ m m' : Module, SameStructure SameShape m m' ∧ broadcastMessage (.module m) ≠ broadcastMessage (.module m') :=
  ⟨.mk "Net" [] [] [("bn", bn 3 8)], .mk "Net" [] [] [("bn", bn 3 9)], by simp [SameStructure, SameChildren, bn, SameShape], by
    rw [Ne, C39_module_partial]; simp [SameStructure, SameChildren, bn, SameShape]⟩

end CrypTen.Serial

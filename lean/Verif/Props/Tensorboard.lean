import Verif.Spec.Tensorboard
import Mathlib.Data.List.Nodup
import Mathlib.Tactic.Tauto

/-!
# C103: TensorBoard graphs show the model
-/

namespace CrypTen.Tensorboard

theorem dotted_snoc (path : List String) (x : String) (h : path ≠ []) : dotted (path ++ [x]) = dotted path ++ "." ++ x := by
  induction path with
  | nil => exact absurd rfl h
  | cons a l ih =>
    cases l with
    | nil => rfl
    | cons b l => rw [List.cons_append, List.cons_append, dotted, ← List.cons_append, ih (by simp), dotted]; simp only [String.append_assoc]

theorem append_ne_empty {a b : String} (h : a ≠ "") : a ++ b ≠ "" := fun e => h (by
  have := congrArg String.toList e
  rw [String.toList_append] at this
  have h2 : a.toList = [] := (List.append_eq_nil_iff.1 this).1
  exact String.toList_inj.1 h2)

theorem dotted_ne_empty {path : List String} (h0 : path ≠ []) (h : "" ∉ path) : dotted path ≠ "" := by
  cases path with
  | nil => exact absurd rfl h0
  | cons a l =>
    have ha : a ≠ "" := fun e => h (e ▸ List.mem_cons_self)
    cases l with
    | nil => exact ha
    | cons b l =>
      rw [dotted]
      exact append_ne_empty (append_ne_empty ha)

theorem step_name {path : List String} (h : "" ∉ path) (x : String) : dotted path ++ (if dotted path = "" then "" else ".") ++ x = dotted (path ++ [x]) := by
  by_cases h0 : path = []
  · subst h0; simp [dotted]
  · rw [if_neg (dotted_ne_empty h0 h), dotted_snoc _ _ h0]

mutual
theorem namedModules_eq (memo : List ℕ) (path : List String) (hp : "" ∉ path) : ∀ m : Obj, ((below path m).map fun q => q.2.id).Nodup → (∀ q ∈ below path m, q.2.id ∉ memo) → (∀ q ∈ below path m, "" ∉ q.2.children.map Prod.fst) →
    (namedModules memo (dotted path) m).1 = (below path m).map (fun q => (dotted q.1, q.2)) ∧ ∀ i, i ∈ (namedModules memo (dotted path) m).2 ↔ i ∈ memo ∨ i ∈ (below path m).map fun q => q.2.id
  | .mk id c ps cs => by
    intro h1 h2 h3
    rw [below] at h1 h2 h3
    rw [List.map_cons, List.nodup_cons] at h1
    have hid : id ∉ memo := h2 _ List.mem_cons_self
    have h := namedChildren_eq (id :: memo) path hp cs (h3 _ List.mem_cons_self) h1.2 (fun q hq => by
      rw [List.mem_cons, not_or]
      exact ⟨fun e => h1.1 (List.mem_map.2 ⟨q, hq, e⟩), h2 q (List.mem_cons_of_mem _ hq)⟩) (fun q hq => h3 q (List.mem_cons_of_mem _ hq))
    rw [namedModules, if_neg hid, below]
    refine ⟨by dsimp only; rw [List.map_cons, h.1], fun i => ?_⟩
    dsimp only
    rw [h.2 i, List.map_cons, List.mem_cons, List.mem_cons]
    simp only [Obj.id]
    tauto
theorem namedChildren_eq (memo : List ℕ) (path : List String) (hp : "" ∉ path) : ∀ cs : List (String × Obj), "" ∉ cs.map Prod.fst → ((belowChildren path cs).map fun q => q.2.id).Nodup → (∀ q ∈ belowChildren path cs, q.2.id ∉ memo) →
    (∀ q ∈ belowChildren path cs, "" ∉ q.2.children.map Prod.fst) →
    (namedChildren memo (dotted path) cs).1 = (belowChildren path cs).map (fun q => (dotted q.1, q.2)) ∧ ∀ i, i ∈ (namedChildren memo (dotted path) cs).2 ↔ i ∈ memo ∨ i ∈ (belowChildren path cs).map fun q => q.2.id
  | [] => by
    intro _ _ _ _
    simp [namedChildren, belowChildren]
  | (x, m) :: cs => by
    intro h0 h1 h2 h3
    rw [belowChildren] at h1 h2 h3
    rw [List.map_cons, List.mem_cons, not_or] at h0
    rw [List.map_append, List.nodup_append] at h1
    have hp' : "" ∉ path ++ [x] := by
      rw [List.mem_append, List.mem_singleton, not_or]
      exact ⟨hp, h0.1⟩
    have a := namedModules_eq memo (path ++ [x]) hp' m h1.1 (fun q hq => h2 q (List.mem_append_left _ hq)) (fun q hq => h3 q (List.mem_append_left _ hq))
    have b := namedChildren_eq (namedModules memo (dotted (path ++ [x])) m).2 path hp cs h0.2 h1.2.1 (fun q hq => by
      rw [a.2, not_or]
      exact ⟨h2 q (List.mem_append_right _ hq), fun hm => h1.2.2 _ hm _ (List.mem_map.2 ⟨q, hq, rfl⟩) rfl⟩) (fun q hq => h3 q (List.mem_append_right _ hq))
    rw [namedChildren, step_name hp, belowChildren]
    refine ⟨by rw [a.1, b.1, List.map_append], fun i => ?_⟩
    rw [b.2, a.2, List.map_append, List.mem_append]
    tauto
end

theorem get_of_nodup {α : Type} {d : List (String × α)} (h : (d.map Prod.fst).Nodup) {k : String} {v : α} (hv : (k, v) ∈ d) : get d k = .ok v := by
  unfold get
  have hr : (d.reverse.map Prod.fst).Nodup := by rw [List.map_reverse]; exact List.nodup_reverse.2 h
  have hm : (k, v) ∈ d.reverse := List.mem_reverse.2 hv
  generalize d.reverse = l at hr hm
  induction l with
  | nil => exact absurd hm (by simp)
  | cons p l ih =>
    rw [List.map_cons, List.nodup_cons] at hr
    rcases List.mem_cons.1 hm with rfl | hm
    · simp
    · have hne : p.1 ≠ k := fun e => hr.1 (e ▸ List.mem_map.2 ⟨_, hm, rfl⟩)
      rw [List.find?_cons_of_neg (by simpa using hne)]
      exact ih hr.2 hm

theorem get_append_right {α : Type} (a : List (String × α)) {b : List (String × α)} {k : String} (h : k ∈ b.map Prod.fst) : get (a ++ b) k = get b k := by
  unfold get
  rw [List.reverse_append, List.find?_append]
  obtain ⟨p, hp, hk⟩ := List.mem_map.1 h
  cases hf : b.reverse.find? fun p => decide (p.1 = k) with
  | some q => rfl
  | none =>
    have := List.find?_eq_none.1 hf p (List.mem_reverse.2 hp)
    simp [hk] at this

theorem get_append_left {α : Type} {a b : List (String × α)} {k : String} (h : k ∉ b.map Prod.fst) : get (a ++ b) k = get a k := by
  unfold get
  rw [List.reverse_append, List.find?_append, List.find?_eq_none.2 fun p hp => ?_]
  · rfl
  · have : p.1 ≠ k := fun e => h (List.mem_map.2 ⟨p, List.mem_reverse.1 hp, e⟩)
    simpa using this

theorem get_same {l : List String} {k : String} (h : k ∈ l) : get (l.map fun i => (i, i)) k = .ok k := by
  unfold get
  cases hf : (l.map fun i => (i, i)).reverse.find? fun p => decide (p.1 = k) with
  | none =>
    have := List.find?_eq_none.1 hf (k, k) (List.mem_reverse.2 (List.mem_map.2 ⟨k, h, rfl⟩))
    simp at this
  | some q =>
    have h1 := List.find?_some hf
    obtain ⟨i, _, rfl⟩ := List.mem_map.1 (List.mem_reverse.1 (List.mem_of_find?_eq_some hf))
    dsimp only
    rw [show i = k from by simpa using h1]

/-! ## Parameters -/

theorem join_eq (l : List String) : join l = "; ".intercalate l := by
  refine String.toList_inj.1 ?_
  rw [String.toList_intercalate]
  induction l with
  | nil => rfl
  | cons a l ih =>
    cases l with
    | nil => simp [join]
    | cons b l => rw [join, String.toList_append, String.toList_append, ih, List.map_cons, List.map_cons, List.map_cons, List.intercalate_cons_cons, List.append_assoc]

theorem under_path {path : List String} (x : String) : under (if path = [] then none else some (dotted path)) x = dotted (path ++ [x]) := by
  by_cases h : path = []
  · subst h; rfl
  · rw [if_neg h, dotted_snoc _ _ h]; rfl

mutual
theorem namedParameters_eq (path : List String) : ∀ m : Obj, namedParameters (if path = [] then none else some (dotted path)) m = (below path m).flatMap fun q => q.2.params.map fun p => (dotted (q.1 ++ [p.1]), p.2)
  | .mk id c ps cs => by
    rw [namedParameters, below, List.flatMap_cons, namedParametersChildren_eq path cs]
    simp only [under_path, Obj.params]
theorem namedParametersChildren_eq (path : List String) : ∀ cs : List (String × Obj), namedParametersChildren (if path = [] then none else some (dotted path)) cs = (belowChildren path cs).flatMap fun q => q.2.params.map fun p => (dotted (q.1 ++ [p.1]), p.2)
  | [] => by simp [namedParametersChildren, belowChildren]
  | (x, m) :: cs => by
    have h := namedParameters_eq (path ++ [x]) m
    rw [if_neg (by simp)] at h
    rw [namedParametersChildren, belowChildren, List.flatMap_append, under_path, h, namedParametersChildren_eq path cs]
end

/-! ## The graph -/

theorem mem_belowChildren {path : List String} {x : String} {m : Obj} : ∀ {cs : List (String × Obj)}, (x, m) ∈ cs → (path ++ [x], m) ∈ belowChildren path cs
  | (y, m') :: cs, h => by
    rw [belowChildren]
    rcases List.mem_cons.1 h with e | h
    · obtain ⟨rfl, rfl⟩ := Prod.mk.inj e
      refine List.mem_append_left _ ?_
      cases m
      rw [below]
      exact List.mem_cons_self
    · exact List.mem_append_right _ (mem_belowChildren h)

theorem mem_below {g : Obj} {x : String} {m : Obj} (h : (x, m) ∈ g.children) : ([x], m) ∈ below [] g := by
  cases g
  rw [below]
  exact List.mem_cons_of_mem _ (mem_belowChildren (path := []) h)

theorem mapM_ok {α β : Type} (f : α → Except KeyError β) (l : List α) (P : α → β → Prop) (h : ∀ a ∈ l, ∃ b, f a = .ok b ∧ P a b) : ∃ bs, l.mapM f = .ok bs ∧ List.Forall₂ P l bs := by
  induction l with
  | nil => exact ⟨[], rfl, .nil⟩
  | cons a l ih =>
    obtain ⟨b, hb, hP⟩ := h a List.mem_cons_self
    obtain ⟨bs, hbs, hall⟩ := ih fun a ha => h a (List.mem_cons_of_mem _ ha)
    exact ⟨b :: bs, by rw [List.mapM_cons, hb, hbs]; rfl, .cons hP hall⟩

theorem eq_map {α β : Type} {f : α → β} {l : List α} {bs : List β} (h : List.Forall₂ (fun a b => b = f a) l bs) : bs = l.map f := by
  induction h with
  | nil => rfl
  | cons h1 _ ih => rw [h1, ih, List.map_cons]

section Plain
variable {g : Graph}

theorem modules_eq (h : Plain g) : (namedModules [] "" g.self).1 = (below [] g.self).map fun q => (dotted q.1, q.2) :=
  (namedModules_eq [] [] (by simp) g.self h.once (fun q _ => by simp) fun q hq hm => h.nonempty (List.mem_flatMap.2 ⟨q, hq, hm⟩)).1

theorem modules_nodup (h : Plain g) : ((namedModules [] "" g.self).1.map Prod.fst).Nodup := by
  rw [modules_eq h, List.map_map]
  exact h.names

theorem mem_modules (h : Plain g) {x : String} {m : Obj} (hm : (x, m) ∈ g.self.children) : (x, m) ∈ (namedModules [] "" g.self).1 := by
  rw [modules_eq h]
  exact List.mem_map.2 ⟨([x], m), mem_below hm, rfl⟩

theorem map_module (h : Plain g) {x : String} {m : Obj} (hm : (x, m) ∈ g.self.children) : get (mapping g.inputs (namedModules [] "" g.self).1) x = .ok (short m.cls ++ "_" ++ x) := by
  have hx : (x, short m.cls ++ "_" ++ x) ∈ (namedModules [] "" g.self).1.map fun p => (p.1, short p.2.cls ++ "_" ++ p.1) := List.mem_map.2 ⟨(x, m), mem_modules h hm, rfl⟩
  rw [mapping, get_append_right _ (List.mem_map.2 ⟨_, hx, rfl⟩)]
  refine get_of_nodup ?_ hx
  rw [List.map_map]
  exact modules_nodup h

theorem map_input (h : Plain g) {x : String} (hx : x ∈ g.inputs) : get (mapping g.inputs (namedModules [] "" g.self).1) x = .ok x := by
  rw [mapping, get_append_left, get_same hx]
  rw [List.map_map, modules_eq h, List.map_map]
  exact h.inputs x hx

theorem child_unique (h : Plain g) {x : String} {m m' : Obj} (hm : (x, m) ∈ g.self.children) (hm' : (x, m') ∈ g.self.children) : m = m' :=
  Except.ok.inj ((get_of_nodup (modules_nodup h) (mem_modules h hm)).symm.trans (get_of_nodup (modules_nodup h) (mem_modules h hm')))

theorem label_module (h : Plain g) {x : String} {m : Obj} (hm : (x, m) ∈ g.self.children) : label g x = short m.cls ++ "_" ++ x := by
  unfold label
  cases hf : g.self.children.find? fun p => decide (p.1 = x) with
  | none =>
    have := List.find?_eq_none.1 hf _ hm
    simp at this
  | some p =>
    obtain ⟨y, m'⟩ := p
    have hy : y = x := by simpa using List.find?_some hf
    subst hy
    rw [child_unique h hm (List.mem_of_find?_eq_some hf)]

theorem label_input (h : Plain g) {x : String} (hx : x ∈ g.inputs) : label g x = x := by
  unfold label
  cases hf : g.self.children.find? fun p => decide (p.1 = x) with
  | none => rfl
  | some p =>
    obtain ⟨y, m'⟩ := p
    have hy : y = x := by simpa using List.find?_some hf
    subst hy
    exact absurd (List.mem_map.2 ⟨([y], m'), mem_below (List.mem_of_find?_eq_some hf), rfl⟩) (h.inputs y hx)

/-- **C103 (graphs).** For every graph in which no module occurs twice, names do not clash, and operands are inputs or modules: the result has one node per input and one per module, in order; the node of a module has the module's class,
its parameters with all parameters of modules below it, and edges from the nodes of its operands. Missing: modules in two places, modules with several results, `Sequential` with a dictionary (`C103_…_wrong`). -/
theorem C103_graph_partial (fresh : ℕ) (h : Plain g) : ∃ nodes, graph fresh (.graph g) = .ok (g.inputs.map Variable ++ nodes) ∧ List.Forall₂ (Shows g) g.graph nodes := by
  obtain ⟨vars, hv, hvars⟩ := mapM_ok (fun i => do
    let name ← get (mapping g.inputs (namedModules [] "" g.self).1) i
    return (⟨name, "Variable", [], none⟩ : NodeDef)) g.inputs (fun i v => v = Variable i) fun i hi => ⟨Variable i, by rw [map_input h hi]; rfl, rfl⟩
  obtain ⟨nodes, hn, hnodes⟩ := mapM_ok (nodeOf (namedModules [] "" g.self).1 (mapping g.inputs (namedModules [] "" g.self).1)) g.graph (Shows g) fun e he => by
    obtain ⟨⟨x, m⟩, hm, hx⟩ := List.mem_map.1 (h.modules e he)
    obtain ⟨y, ops⟩ := e
    subst hx
    obtain ⟨ins, hi, hins⟩ := mapM_ok (get (mapping g.inputs (namedModules [] "" g.self).1)) ops (fun a b => b = label g a) fun a ha => by
      rcases h.operands _ he a ha with h1 | h1
      · exact ⟨a, map_input h h1, (label_input h h1).symm⟩
      · obtain ⟨⟨a', m'⟩, hm', rfl⟩ := List.mem_map.1 h1
        exact ⟨_, map_module h hm', (label_module h hm').symm⟩
    have hins' : ins = ops.map (label g) := eq_map hins
    refine ⟨⟨short m.cls ++ "_" ++ x, m.cls, ops.map (label g), some ("; ".intercalate ((parameters m).map fun p => p.1 ++ ": " ++ p.2))⟩, ?_, m, hm, rfl⟩
    dsimp only [nodeOf]
    rw [get_of_nodup (modules_nodup h) (mem_modules h hm), hi, map_module h hm, hins', parameters, ← namedParameters_eq [] m, ← join_eq]
    rfl
  refine ⟨nodes, ?_, hnodes⟩
  have hvars' : vars = g.inputs.map Variable := eq_map hvars
  dsimp only [graph, graphOf]
  rw [hv, hn, hvars']
  rfl

end Plain

/-! ## Single modules -/

mutual
theorem names_modules (memo : List ℕ) (pre : String) (hp : pre ≠ "") : ∀ m : Obj, ∀ q ∈ (namedModules memo pre m).1, q.1 = pre ∨ ∃ s, q.1 = pre ++ "." ++ s
  | .mk id c ps cs => by
    intro q hq
    rw [namedModules] at hq
    split at hq
    · exact absurd hq (by simp)
    · rcases List.mem_cons.1 hq with rfl | hq
      · exact .inl rfl
      · exact .inr (names_children _ pre hp cs q hq)
theorem names_children (memo : List ℕ) (pre : String) (hp : pre ≠ "") : ∀ cs : List (String × Obj), ∀ q ∈ (namedChildren memo pre cs).1, ∃ s, q.1 = pre ++ "." ++ s
  | [] => by
    intro q hq
    exact absurd hq (by simp [namedChildren])
  | (x, m) :: cs => by
    intro q hq
    rw [namedChildren, if_neg hp] at hq
    rcases List.mem_append.1 hq with hq | hq
    · rcases names_modules memo (pre ++ "." ++ x) (append_ne_empty (append_ne_empty hp)) m q hq with h | ⟨s, h⟩
      · exact ⟨x, h⟩
      · exact ⟨x ++ "." ++ s, by rw [h]; simp only [String.append_assoc]⟩
    · exact names_children _ pre hp cs q hq
end

/-- **C103 (single modules).** Every module that is no graph, whatever modules it contains and shares, is shown as one node with an edge from the node of its input. -/
theorem C103_module (fresh : ℕ) (m : Obj) (hm : m.id ≠ fresh) :
    graph fresh (.module m) = .ok [Variable "input", ⟨short m.cls ++ "_output", m.cls, ["input"], some ("; ".intercalate ((parameters m).map fun p => p.1 ++ ": " ++ p.2))⟩] := by
  obtain ⟨id, c, ps, cs⟩ := m
  have hid : id ∉ [fresh] := by simpa [Obj.id] using hm
  generalize hr : (namedChildren [id, fresh] "output" cs).1 = rest
  have hmod : (namedModules [] "" (.mk fresh graphClass [] [("output", .mk id c ps cs)])).1 = [("", .mk fresh graphClass [] [("output", .mk id c ps cs)]), ("output", .mk id c ps cs)] ++ rest := by
    rw [namedModules, if_neg (by simp)]
    dsimp only
    rw [namedChildren, if_pos rfl, show "" ++ "" ++ "output" = "output" from rfl, namedModules, if_neg hid]
    dsimp only
    rw [namedChildren, hr]
    simp
  have hrest : ∀ q ∈ rest, ∃ s, q.1 = "output." ++ s := by
    intro q hq
    rw [← hr] at hq
    exact names_children _ "output" (by decide) cs q hq
  have hno : "output" ∉ rest.map Prod.fst := by
    intro h
    obtain ⟨q, hq, he⟩ := List.mem_map.1 h
    obtain ⟨s, hs⟩ := hrest q hq
    have := congrArg String.length (he.symm.trans hs)
    rw [String.length_append] at this
    have h6 : "output".length = 6 := by decide
    have h7 : "output.".length = 7 := by decide
    omega
  have hni : "input" ∉ rest.map Prod.fst := by
    intro h
    obtain ⟨q, hq, he⟩ := List.mem_map.1 h
    obtain ⟨s, hs⟩ := hrest q hq
    have := congrArg String.length (he.symm.trans hs)
    rw [String.length_append] at this
    have h6 : "input".length = 5 := by decide
    have h7 : "output.".length = 7 := by decide
    omega
  have hmap : mapping ["input"] ([("", .mk fresh graphClass [] [("output", .mk id c ps cs)]), ("output", .mk id c ps cs)] ++ rest) =
      [("input", "input"), ("", short graphClass ++ "_" ++ ""), ("output", short c ++ "_" ++ "output")] ++ rest.map fun p => (p.1, short p.2.cls ++ "_" ++ p.1) := rfl
  have hkeys : (rest.map fun p => (p.1, short p.2.cls ++ "_" ++ p.1)).map Prod.fst = rest.map Prod.fst := by rw [List.map_map]; rfl
  have g1 : get (mapping ["input"] ([("", .mk fresh graphClass [] [("output", .mk id c ps cs)]), ("output", .mk id c ps cs)] ++ rest)) "input" = .ok "input" := by
    rw [hmap, get_append_left (by rw [hkeys]; exact hni)]
    rfl
  have g2 : get (mapping ["input"] ([("", .mk fresh graphClass [] [("output", .mk id c ps cs)]), ("output", .mk id c ps cs)] ++ rest)) "output" = .ok (short c ++ "_output") := by
    rw [hmap, get_append_left (by rw [hkeys]; exact hno)]
    show Except.ok (short c ++ "_" ++ "output") = _
    rw [String.append_assoc]
    rfl
  have g3 : get ([("", .mk fresh graphClass [] [("output", .mk id c ps cs)]), ("output", .mk id c ps cs)] ++ rest) "output" = .ok (.mk id c ps cs) := by
    rw [get_append_left hno]
    rfl
  dsimp only [graph, graphOf]
  rw [hmod]
  simp only [List.mapM_cons, List.mapM_nil, nodeOf, g1, g2, g3, parameters, ← namedParameters_eq [] (.mk id c ps cs), ← join_eq]
  rfl

/-! ## Names -/

/-- The class of a module of `crypten.nn.module`, as it is shown. -/
theorem C103_class (c : String) : short ("<class 'crypten.nn.module." ++ c ++ "'>") = c := by
  unfold short
  rw [String.toList_append, String.toList_append, List.append_assoc, List.drop_left' (by decide), show "'>".toList = ['\'', '>'] from rfl, show c.toList ++ ['\'', '>'] = (c.toList ++ ['\'']) ++ ['>'] by simp, List.dropLast_concat, List.dropLast_concat,
    String.ofList_toList]

/-- **C103 (names).** Nodes of different modules have different names if no class has an underscore in its name. -/
theorem C103_names {c c' x x' : String} (hc : '_' ∉ c.toList) (hc' : '_' ∉ c'.toList) (h : c ++ "_" ++ x = c' ++ "_" ++ x') : c = c' ∧ x = x' := by
  have h := congrArg String.toList h
  simp only [String.toList_append] at h
  have key : ∀ (a a' b b' : List Char), '_' ∉ a → '_' ∉ a' → a ++ ['_'] ++ b = a' ++ ['_'] ++ b' → a = a' ∧ b = b' := by
    intro a
    induction a with
    | nil =>
      intro a' b b' _ ha' e
      cases a' with
      | nil => exact ⟨rfl, by simpa using e⟩
      | cons z a' => simp at e; exact absurd (e.1 ▸ List.mem_cons_self) ha'
    | cons y a ih =>
      intro a' b b' ha ha' e
      cases a' with
      | nil => simp at e; exact absurd (e.1 ▸ List.mem_cons_self) ha
      | cons z a' =>
        simp only [List.cons_append, List.cons.injEq] at e
        obtain ⟨h1, h2⟩ := ih a' b b' (fun h => ha (List.mem_cons_of_mem _ h)) (fun h => ha' (List.mem_cons_of_mem _ h)) e.2
        exact ⟨by rw [e.1, h1], h2⟩
  obtain ⟨h1, h2⟩ := key _ _ _ _ hc hc' h
  exact ⟨String.toList_inj.1 h1, String.toList_inj.1 h2⟩

/-! ## Cases -/

def linear (id : ℕ) : Obj := .mk id "<class 'crypten.nn.module.Linear'>" [("weight", "torch.Size([2, 2])"), ("bias", "torch.Size([2])")] []
def relu (id : ℕ) : Obj := .mk id "<class 'crypten.nn.module.ReLU'>" [] []

/-- A network of four modules meets the conditions of `C103_graph_partial`. -/
theorem sample_plain : Plain (sequential 0 [linear 1, relu 2, linear 3, relu 4]) := by
  constructor <;> decide +kernel

example : graph 9 (.graph (sequential 0 [linear 1, relu 2, linear 3])) = .ok [⟨"input", "Variable", [], none⟩,
    ⟨"Linear_0", "<class 'crypten.nn.module.Linear'>", ["input"], some "weight: torch.Size([2, 2]); bias: torch.Size([2])"⟩, ⟨"ReLU_1", "<class 'crypten.nn.module.ReLU'>", ["Linear_0"], some ""⟩,
    ⟨"Linear_2", "<class 'crypten.nn.module.Linear'>", ["ReLU_1"], some "weight: torch.Size([2, 2]); bias: torch.Size([2])"⟩] := by decide +kernel

/-- **C103 is false for a module in two places**: `relu = ReLU(); Sequential(Linear(2, 2), relu, Linear(2, 2), relu)`. `named_modules` lists the module under its first name only. -/
theorem C103_shared_wrong : graph 9 (.graph (sequential 0 [linear 1, relu 2, linear 3, relu 2])) = .error ⟨"3"⟩ := by decide +kernel

/-- **C103 is false for `Sequential` with a dictionary**: `Sequential(OrderedDict([("fc", Linear(2, 2)), ("act", ReLU())]))`. The operand of the second module is stored as a text, of which the letters are looked up. -/
theorem C103_dict_wrong : graph 9 (.graph (sequentialDict 0 [("fc", linear 1), ("act", relu 2)])) = .error ⟨"f"⟩ := by decide +kernel

/-- **C103 is false for a module with several results**: a graph where one of two results of a module (`output_names=["mean", "var"]`) is the operand of another, as `Graph.add_module` allows. -/
theorem C103_outputs_wrong : graph 9 (.graph ⟨.mk 0 graphClass [] [("stats", linear 1), ("act", relu 2)], ["input"], [("stats", ["input"]), ("act", ["mean"])]⟩) = .error ⟨"mean"⟩ := by decide +kernel

/-- **C103 (names) is false for inputs**: an input can have the name that a module gets, so that two nodes have the same name. -/
theorem C103_names_wrong : ∃ nodes, graph 9 (.graph (sequential 0 [relu 1] ["ReLU_0"])) = .ok nodes ∧ nodes.map NodeDef.name = ["ReLU_0", "ReLU_0"] := ⟨_, rfl, by decide +kernel⟩

end CrypTen.Tensorboard

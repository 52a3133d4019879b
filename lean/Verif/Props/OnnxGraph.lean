import Verif.Spec.OnnxGraph
import Verif.Props.Graph
import Mathlib.Algebra.BigOperators.Group.List.Basic
import Mathlib.Algebra.Ring.Int.Defs

/-!
# C70: an imported ONNX graph computes what the graph means
-/

namespace CrypTen.OnnxGraph
open CrypTen.Graph
variable {V : Type}

/-! ## Environments -/

lemma define_not_mem {l : List (String × V)} {k : String} : ∀ {env : Env V}, k ∉ l.map Prod.fst → define env l k = env k := by
  induction l with
  | nil => intro env _; rfl
  | cons p l ih =>
    intro env h
    simp only [List.map_cons, List.mem_cons, not_or] at h
    obtain ⟨a, v⟩ := p
    rw [define, ih h.2, if_neg h.1]

lemma define_mem {l : List (String × V)} {k : String} {v : V} : ∀ {env : Env V}, define env l k = some v → (k, v) ∈ l ∨ env k = some v := by
  induction l with
  | nil => intro env h; exact .inr h
  | cons p l ih =>
    intro env h
    obtain ⟨a, w⟩ := p
    rw [define] at h
    rcases ih h with h1 | h1
    · exact .inl (by simp [h1])
    · by_cases hk : k = a
      · rw [if_pos hk] at h1
        exact .inl (by simp [hk, Option.some.inj h1])
      · rw [if_neg hk] at h1
        exact .inr h1

lemma lookupAll_spec {env : Env V} : ∀ {ks : List String} {vs : List V}, lookupAll env ks = some vs → ks.length = vs.length ∧ (∀ p ∈ ks.zip vs, env p.1 = some p.2) ∧ ∀ k ∈ ks, env k ≠ none
  | [], vs, h => by
    simp only [lookupAll, Option.some.injEq] at h
    subst h; simp
  | k :: ks, vs, h => by
    simp only [lookupAll, Option.bind_eq_some_iff, Option.map_eq_some_iff] at h
    obtain ⟨v, hv, ws, hws, rfl⟩ := h
    obtain ⟨h1, h2, h3⟩ := lookupAll_spec hws
    refine ⟨by simp [h1], ?_, ?_⟩
    · intro p hp
      simp only [List.zip_cons_cons, List.mem_cons] at hp
      rcases hp with rfl | hp
      exacts [hv, h2 p hp]
    · intro j hj
      rcases List.mem_cons.1 hj with rfl | hj
      exacts [by simp [hv], h3 j hj]

/-- The inputs of a node are defined before it. -/
lemma execute_defined (op : NodeProto V → List V → List V) : ∀ (pre : List (NodeProto V)) {nd : NodeProto V} {post : List (NodeProto V)} {env env' : Env V},
    execute op (pre ++ nd :: post) env = some env' → ∀ k ∈ nd.inputs, env k ≠ none ∨ ∃ p ∈ pre, k ∈ p.outputs
  | [], nd, post, env, env', h, k, hk => by
    simp only [List.nil_append, execute, Option.bind_eq_some_iff] at h
    obtain ⟨ins, hins, -⟩ := h
    exact .inl ((lookupAll_spec hins).2.2 k hk)
  | p :: pre, nd, post, env, env', h, k, hk => by
    simp only [List.cons_append, execute, Option.bind_eq_some_iff] at h
    obtain ⟨ins, -, h⟩ := h
    rcases execute_defined op pre h k hk with h | ⟨q, hq, hk⟩
    · by_cases hp : k ∈ p.outputs
      · exact .inr ⟨p, by simp, hp⟩
      · refine .inl ?_
        rwa [define_not_mem] at h
        intro hk'
        obtain ⟨x, hx, rfl⟩ := List.mem_map.1 hk'
        exact hp (List.of_mem_zip hx).1
    · exact .inr ⟨q, by simp [hq], hk⟩

/-- Executing the nodes gives names the values that the graph of modules gives them. -/
lemma execute_sound (op : NodeProto V → List V → List V) (modules : Node V → Prop) (asTuple : V → Option (List V)) (inputs : List (String × V)) (good : String → Prop) :
    ∀ (nds : List (NodeProto V)) {env env' : Env V},
    (∀ nd ∈ nds, ∃ f o rest, nd.outputs = o :: rest ∧ (∀ ins, (op nd ins).head? = some (f ins)) ∧ modules ⟨o, nd.inputs, some [o], f⟩ ∧ (∀ k ∈ nd.inputs, good k) ∧ ∀ k ∈ rest, ¬ good k) →
    (∀ k v, env k = some v → good k → Evaluates modules asTuple inputs k v) → execute op nds env = some env' →
    ∀ k v, env' k = some v → good k → Evaluates modules asTuple inputs k v
  | [], env, env', _, h, he => by
    simp only [execute, Option.some.injEq] at he
    exact he ▸ h
  | nd :: nds, env, env', hn, h, he => by
    simp only [execute, Option.bind_eq_some_iff] at he
    obtain ⟨ins, hins, he⟩ := he
    refine execute_sound op modules asTuple inputs good nds (fun x hx => hn x (by simp [hx])) ?_ he
    intro k v hk hg
    obtain ⟨f, o, rest, ho, hop, hm, hi, hr⟩ := hn nd (by simp)
    obtain ⟨h1, h2, -⟩ := lookupAll_spec hins
    obtain ⟨r, hr'⟩ : ∃ r, op nd ins = f ins :: r := by
      have := hop ins
      cases hx : op nd ins with
      | nil => simp [hx] at this
      | cons a r => rw [hx] at this; simp only [List.head?_cons, Option.some.injEq] at this; exact ⟨r, by rw [this]⟩
    rw [ho, hr', List.zip_cons_cons, define, define_not_mem] at hk
    · split_ifs at hk with hko
      · subst hko
        simp only [Option.some.injEq] at hk
        subst hk
        refine Evaluates.single (nd := ⟨k, nd.inputs, some [k], f⟩) hm (.inr rfl) h1 ?_
        intro p hp
        exact h p.1 p.2 (h2 p hp) (hi p.1 (List.of_mem_zip hp).1)
      · exact h k v hk hg
    · intro hk'
      obtain ⟨x, hx, rfl⟩ := List.mem_map.1 hk'
      exact hr _ (List.of_mem_zip hx).1 hg

/-! ## The conversion -/

lemma addModule_ok {nodes : List (Node V)} {nd : Node V} (h : nd.name ∉ nodes.map Node.name) : addModule nodes nd = .ok (nodes ++ [nd]) := by
  unfold addModule
  rw [if_neg]
  simp only [List.any_eq_true, decide_eq_true_eq, not_exists, not_and]
  exact fun x hx e => h (List.mem_map.2 ⟨x, hx, e⟩)

lemma addParameters_ok : ∀ (ps : List (String × V)) (nodes : List (Node V)), (nodes.map Node.name ++ ps.map Prod.fst).Nodup → addParameters ps nodes = .ok (nodes ++ ps.map parameter)
  | [], nodes, _ => by simp [addParameters]
  | p :: ps, nodes, h => by
    have h1 : (parameter p).name ∉ nodes.map Node.name := fun hm => (List.nodup_append.1 h).2.2 _ hm p.1 (by simp) rfl
    rw [addParameters, addModule_ok h1]
    simp only [Except.bind]
    rw [addParameters_ok ps _ (by simpa [parameter] using h)]
    simp

lemma addNodes_ok (M : NodeProto V → Node V) : ∀ (nds : List (NodeProto V)) (nodes : List (Node V)), (∀ nd ∈ nds, moduleOf nd = .ok (M nd)) →
    (nodes.map Node.name ++ nds.map fun nd => (M nd).name).Nodup → addNodes nds nodes = .ok (nodes ++ nds.map M)
  | [], nodes, _, _ => by simp [addNodes]
  | nd :: nds, nodes, hm, h => by
    have h1 : (M nd).name ∉ nodes.map Node.name := fun hm => (List.nodup_append.1 h).2.2 _ hm (M nd).name (by simp) rfl
    rw [addNodes, hm nd (by simp)]
    simp only [Except.bind]
    rw [addModule_ok h1]
    simp only []
    rw [addNodes_ok M nds _ (fun x hx => hm x (by simp [hx])) (by simpa using h)]
    simp

/-- The conditions under which the import is right. -/
structure Plain (g : GraphProto V) (out : String) : Prop where
  /-- there is an input -/
  input : g.inputs ≠ []
  /-- there is one output, which is not an input -/
  output : g.outputs = [out]
  computed : out ∉ g.inputs
  /-- parameters are not inputs -/
  parameters : ∀ k ∈ g.inputs, k ∉ g.initializers.map Prod.fst
  /-- nodes have one output; `Dropout` may have more, which nobody uses -/
  one : ∀ nd ∈ g.nodes, nd.outputs.length = 1 ∨ (nd.opType = "Dropout" ∧ nd.outputs ≠ [])
  unused : ∀ nd ∈ g.nodes, ∀ k ∈ nd.outputs.tail, k ≠ out ∧ ∀ nd' ∈ g.nodes, k ∉ nd'.inputs
  /-- no node uses a value twice -/
  once : ∀ nd ∈ g.nodes, nd.inputs.Nodup

lemma sublist_heads (M : NodeProto V → Node V) : ∀ (nds : List (NodeProto V)), (∀ nd ∈ nds, ∃ rest, nd.outputs = (M nd).name :: rest) →
    (nds.map fun nd => (M nd).name).Sublist (nds.flatMap NodeProto.outputs)
  | [], _ => by simp
  | nd :: nds, h => by
    obtain ⟨rest, hr⟩ := h nd (by simp)
    rw [List.map_cons, List.flatMap_cons, hr, List.cons_append]
    exact ((sublist_heads M nds fun x hx => h x (by simp [hx])).trans (List.sublist_append_right rest _)).cons_cons _

/-- **C70 (partial).** If an ONNX graph, executed as its specification says, gives the value `v` for the arguments, then it is converted without exception, and the converted model returns `v`
for these arguments, after at most as many rounds as it has modules. Proved for graphs as described by `Plain`, of single assignment, whose operators are converted correctly (C66). Missing: graphs
with parameters among the inputs, with several outputs, with nodes with several outputs and with nodes that use a value twice or leave out an optional input, see the theorems below. -/
theorem C70_import_partial (g : GraphProto V) (op : NodeProto V → List V → List V) (out : String) (hp : Plain g out) (hs : g.SingleAssignment) (hl : g.LayersCorrect op)
    (args : List V) (hargs : args.length = g.inputs.length) (v : V) (hv : g.value op args out = some v) :
    ∃ m, toCrypten g = .ok m ∧ ∀ asTuple fuel, m.nodes.length ≤ fuel → m.forward asTuple fuel args = .ok [v] := by
  have hreq : g.required = g.inputs := by
    unfold GraphProto.required
    rw [List.filter_eq_self]
    exact fun k hk => by simpa using hp.parameters k hk
  unfold GraphProto.SingleAssignment at hs
  rw [hreq] at hs
  unfold GraphProto.value at hv
  rw [hreq, Option.bind_eq_some_iff] at hv
  obtain ⟨env, henv, hout⟩ := hv
  obtain ⟨M, hM⟩ : ∃ M : NodeProto V → Node V, ∀ nd ∈ g.nodes, ∃ f o rest, nd.outputs = o :: rest ∧ (∀ ins, (op nd ins).head? = some (f ins)) ∧
      M nd = ⟨o, nd.inputs, some [o], f⟩ ∧ moduleOf nd = .ok (M nd) := by
    refine ⟨fun nd => match moduleOf nd with | .ok m => m | .error _ => ⟨"", [], none, fun _ => v⟩, fun nd hnd => ?_⟩
    obtain ⟨f, hf, hop⟩ := hl nd hnd
    obtain ⟨o, rest, ho⟩ : ∃ o rest, nd.outputs = o :: rest := by
      cases ho : nd.outputs with
      | nil => rcases hp.one nd hnd with h | h <;> simp [ho] at h
      | cons o rest => exact ⟨o, rest, rfl⟩
    have hm : moduleOf nd = .ok ⟨o, nd.inputs, some [o], f⟩ := by
      unfold moduleOf
      rw [hf, ho]
      dsimp only
      rcases hp.one nd hnd with h | h
      · have : rest = [] := by rw [ho] at h; simpa using h
        subst this
        simp
      · rw [if_pos h.1]
    exact ⟨f, o, rest, ho, hop, by simp only [hm], by simp only [hm]⟩
  have hname : ∀ nd ∈ g.nodes, ∃ rest, nd.outputs = (M nd).name :: rest := fun nd hnd => by
    obtain ⟨f, o, rest, ho, -, hm, -⟩ := hM nd hnd
    exact ⟨rest, by rw [ho, hm]⟩
  have hin : ∀ nd ∈ g.nodes, (M nd).inputs = nd.inputs := fun nd hnd => by
    obtain ⟨f, o, rest, ho, -, hm, -⟩ := hM nd hnd
    rw [hm]
  have hsub := sublist_heads M g.nodes hname
  rw [List.append_assoc] at hs
  have hs1 : (g.inputs ++ (g.initializers.map Prod.fst ++ g.nodes.map fun nd => (M nd).name)).Nodup :=
    hs.sublist ((List.Sublist.refl _).append ((List.Sublist.refl _).append hsub))
  obtain ⟨hsi, hsn, hsd⟩ := List.nodup_append.1 hs1
  set nodes := g.initializers.map parameter ++ g.nodes.map M with hnodes
  have hnames : nodes.map Node.name = g.initializers.map Prod.fst ++ g.nodes.map fun nd => (M nd).name := by
    rw [hnodes, List.map_append, List.map_map, List.map_map]; rfl
  have hconv : toCrypten g = .ok ⟨g.inputs, out, nodes⟩ := by
    unfold toCrypten inputOutputNames
    cases hi : g.inputs with
    | nil => exact absurd hi hp.input
    | cons a l =>
      rw [hp.output]
      dsimp only [Except.bind]
      rw [addParameters_ok _ _ (by simpa using (List.nodup_append.1 hsn).1)]
      dsimp only [Except.bind]
      rw [List.nil_append, addNodes_ok M _ _ (fun nd hnd => (hM nd hnd).choose_spec.choose_spec.choose_spec.2.2.2) (by rw [List.map_map]; exact hsn)]
  refine ⟨_, hconv, fun asTuple fuel hfuel => ?_⟩
  -- where the inputs of nodes come from
  have hfrom : ∀ pre nd post, g.nodes = pre ++ nd :: post → ∀ k ∈ nd.inputs, k ∈ g.inputs ∨ k ∈ g.initializers.map Prod.fst ++ pre.map fun nd => (M nd).name := by
    intro pre nd post hg k hk
    rw [hg] at henv
    rcases execute_defined op pre henv k hk with h | ⟨p, hpp, hk'⟩
    · obtain ⟨w, hw⟩ := Option.ne_none_iff_exists'.1 h
      rcases define_mem hw with h | h
      · exact .inl (List.of_mem_zip h).1
      · rcases define_mem h with h | h
        · exact .inr (List.mem_append_left _ (List.mem_map.2 ⟨_, h, rfl⟩))
        · cases h
    · have hpg : p ∈ g.nodes := by rw [hg]; simp [hpp]
      have hng : nd ∈ g.nodes := by rw [hg]; simp
      obtain ⟨rest, hr⟩ := hname p hpg
      rw [hr, List.mem_cons] at hk'
      rcases hk' with rfl | hk'
      · exact .inr (List.mem_append_right _ (List.mem_map.2 ⟨p, hpp, rfl⟩))
      · exact absurd hk ((hp.unused p hpg k (by rw [hr]; exact hk')).2 nd hng)
  have hwf : WellFormed nodes g.inputs := by
    refine ⟨fun nd h => ?_, by rw [hnames]; exact hsn, hsi, fun nd h hk => ?_, fun nd h k hk => ?_, fun nd h => ?_, ⟨fun k => (nodes.map Node.name).idxOf k, fun nd h nd' h' hk => ?_⟩⟩
    · rcases List.mem_append.1 h with h | h
      · obtain ⟨p, -, rfl⟩ := List.mem_map.1 h
        exact .inl rfl
      · obtain ⟨x, hx, rfl⟩ := List.mem_map.1 h
        obtain ⟨f, o, rest, ho, -, hm, -⟩ := hM x hx
        rw [hm]
        exact .inr rfl
    · exact hsd _ hk _ (by rw [← hnames]; exact List.mem_map.2 ⟨nd, h, rfl⟩) rfl
    · rcases List.mem_append.1 h with h | h
      · obtain ⟨p, -, rfl⟩ := List.mem_map.1 h
        simp [parameter] at hk
      · obtain ⟨x, hx, rfl⟩ := List.mem_map.1 h
        rw [hin x hx] at hk
        obtain ⟨pre, post, hg⟩ := List.append_of_mem hx
        rcases hfrom pre x post hg k hk with h | h
        · exact .inl h
        · refine .inr ?_
          have : k ∈ nodes.map Node.name := by
            rw [hnames, hg]
            simp only [List.map_append, List.mem_append] at h ⊢
            tauto
          obtain ⟨n, hn, e⟩ := List.mem_map.1 this
          exact ⟨n, hn, e⟩
    · rcases List.mem_append.1 h with h | h
      · obtain ⟨p, -, rfl⟩ := List.mem_map.1 h
        simp [parameter]
      · obtain ⟨x, hx, rfl⟩ := List.mem_map.1 h
        rw [hin x hx]
        exact hp.once x hx
    · rcases List.mem_append.1 h with h | h
      · obtain ⟨p, -, rfl⟩ := List.mem_map.1 h
        simp [parameter] at hk
      · obtain ⟨x, hx, rfl⟩ := List.mem_map.1 h
        rw [hin x hx] at hk
        obtain ⟨pre, post, hg⟩ := List.append_of_mem hx
        have hmem' : nd'.name ∈ nodes.map Node.name := List.mem_map.2 ⟨nd', h', rfl⟩
        rcases hfrom pre x post hg _ hk with h2 | h2
        · exact absurd rfl (hsd _ h2 _ (by rw [← hnames]; exact hmem'))
        · have hsplit : nodes.map Node.name = (g.initializers.map Prod.fst ++ pre.map fun nd => (M nd).name) ++ ((M x).name :: post.map fun nd => (M nd).name) := by
            rw [hnames, hg]; simp
          have hnot : (M x).name ∉ g.initializers.map Prod.fst ++ pre.map fun nd => (M nd).name := by
            intro hm
            have := hsn
            rw [← hnames, hsplit] at this
            exact (List.nodup_append.1 this).2.2 _ hm (M x).name (by simp) rfl
          show (nodes.map Node.name).idxOf nd'.name < (nodes.map Node.name).idxOf (M x).name
          rw [hsplit, List.idxOf_append_of_mem h2, List.idxOf_append_of_notMem hnot]
          have := List.idxOf_lt_length_iff.2 h2
          omega
  -- the values
  have hev : ∀ k w, env k = some w → (∀ nd ∈ g.nodes, k ∉ nd.outputs.tail) → Evaluates (· ∈ nodes) asTuple (g.inputs.zip args) k w := by
    refine execute_sound op (· ∈ nodes) asTuple (g.inputs.zip args) (fun k => ∀ nd ∈ g.nodes, k ∉ nd.outputs.tail) g.nodes ?_ ?_ henv
    · intro nd hnd
      obtain ⟨f, o, rest, ho, hop, hm, -⟩ := hM nd hnd
      refine ⟨f, o, rest, ho, hop, ?_, fun k hk x hx hkx => (hp.unused x hx k hkx).2 nd hnd hk, fun k hk hg => hg nd hnd (by rw [ho]; exact hk)⟩
      rw [← hm]
      exact List.mem_append_right _ (List.mem_map.2 ⟨nd, hnd, rfl⟩)
    · intro k w hk _
      rcases define_mem hk with h | h
      · exact .input h
      · rcases define_mem h with h | h
        · exact Evaluates.single (nd := parameter (k, w)) (vs := []) (List.mem_append_left _ (List.mem_map.2 ⟨_, h, rfl⟩)) (.inl rfl) rfl (by simp [parameter])
        · cases h
  have hgood : ∀ nd ∈ g.nodes, out ∉ nd.outputs.tail := fun nd hnd hk => (hp.unused nd hnd out hk).1 rfl
  have hvo := hev out v hout hgood
  have hmem : ∃ nd ∈ nodes, nd.name = out := by
    cases hvo with
    | input h => exact absurd (List.of_mem_zip h).1 hp.computed
    | single h _ _ _ => exact ⟨_, h, rfl⟩
    | tuple h ho hone _ _ _ _ _ =>
      exfalso
      rcases hwf.single _ h with h1 | h1
      · rw [h1] at ho; cases ho
      · rw [h1, Option.some.injEq] at ho
        subst ho
        exact hone rfl
  obtain ⟨w, hw, hew⟩ := C45_forward_partial hwf asTuple out hmem args hargs fuel hfuel
  unfold Model.forward
  rw [hw, C45_unique hwf asTuple args hew hvo]

/-! ## A graph that meets the conditions -/

/-- `y = dropout(x * w) + x`, with a mask as second output of the dropout. -/
def sample : GraphProto ℤ where
  inputs := ["x"]
  outputs := ["y"]
  initializers := [("w", 3)]
  nodes := [⟨"Mul", ["x", "w"], ["a"], some List.prod⟩, ⟨"Dropout", ["a"], ["b", "mask"], some List.sum⟩, ⟨"Add", ["b", "x"], ["y"], some List.sum⟩]

/-- The meaning of the operators of `sample` (a dropout in evaluation mode). -/
def sampleOp (nd : NodeProto ℤ) (ins : List ℤ) : List ℤ := if nd.opType = "Mul" then [ins.prod] else if nd.opType = "Dropout" then [ins.sum, 1] else [ins.sum]

example : Plain sample "y" ∧ sample.SingleAssignment ∧ sample.LayersCorrect sampleOp ∧ sample.value sampleOp [5] "y" = some 20 := by
  refine ⟨⟨by decide, rfl, by decide, by decide, ?_, ?_, ?_⟩, ?_, ?_, by decide⟩
  · simp [sample]
  · simp [sample]
  · simp [sample]
  · unfold GraphProto.SingleAssignment; decide
  · intro nd hnd
    simp only [sample, List.mem_cons, List.not_mem_nil, or_false] at hnd
    rcases hnd with rfl | rfl | rfl <;> exact ⟨_, rfl, fun ins => by simp [sampleOp]⟩

/-- The converted sample, run. -/
example : ∃ m, toCrypten sample = .ok m ∧ m.forward (fun _ => none) 4 [5] = .ok [20] := ⟨_, rfl, by decide⟩

/-! ## Where it fails -/

/-- **C70 fails** for graphs that list their parameters among the inputs, as ONNX files before IR version 4 must: the model then demands the parameters as arguments. -/
theorem C70_initializer_input_wrong : ∃ (g : GraphProto ℤ) (m : Model ℤ), g.SingleAssignment ∧ g.LayersCorrect sampleOp ∧ g.value sampleOp [5] "y" = some 15 ∧ toCrypten g = .ok m ∧
    ∀ asTuple fuel, m.forward asTuple fuel [5] = .error .wrongNumberOfInputs := by
  refine ⟨⟨["x", "w"], ["y"], [("w", 3)], [⟨"Mul", ["x", "w"], ["y"], some List.prod⟩]⟩, _, ?_, ?_, by decide, rfl, fun _ _ => rfl⟩
  · unfold GraphProto.SingleAssignment; decide
  · intro nd hnd
    simp only [List.mem_cons, List.not_mem_nil, or_false] at hnd
    subst hnd
    exact ⟨_, rfl, fun ins => by simp [sampleOp]⟩

/-- **C70 fails** for nodes that use a value twice, such as `x * x`: the conversion succeeds, every forward pass raises. -/
theorem C70_repeated_input_wrong : ∃ (g : GraphProto ℤ) (m : Model ℤ), g.SingleAssignment ∧ g.LayersCorrect sampleOp ∧ g.value sampleOp [5] "y" = some 25 ∧ toCrypten g = .ok m ∧
    ∀ asTuple fuel, m.forward asTuple fuel [5] = .error .unconnected := by
  refine ⟨⟨["x"], ["y"], [], [⟨"Mul", ["x", "x"], ["y"], some List.prod⟩]⟩, _, ?_, ?_, by decide, rfl, fun _ fuel => by cases fuel <;> rfl⟩
  · unfold GraphProto.SingleAssignment; decide
  · intro nd hnd
    simp only [List.mem_cons, List.not_mem_nil, or_false] at hnd
    subst hnd
    exact ⟨_, rfl, fun ins => by simp [sampleOp]⟩

/-- The operator of `C70_second_output_wrong`: the input and a mask. -/
def featureDropout (_ : NodeProto ℤ) (ins : List ℤ) : List ℤ := [ins.sum, 1]

/-- **C70 fails** for other operators than `Dropout` with a second output, in particular for `DropoutNd`, which CrypTen itself emits with two outputs for `torch.nn.Dropout2d`
(onnx_converter.py:345-360): every forward pass raises, because the layer returns no tuple. -/
theorem C70_second_output_wrong : ∃ (g : GraphProto ℤ) (m : Model ℤ), g.SingleAssignment ∧ g.LayersCorrect featureDropout ∧ g.value featureDropout [5] "y" = some 5 ∧ toCrypten g = .ok m ∧
    ∀ fuel, 1 ≤ fuel → m.forward (fun _ => none) fuel [5] = .error .notATuple := by
  refine ⟨⟨["x"], ["y"], [], [⟨"DropoutNd", ["x"], ["y", "mask"], some List.sum⟩]⟩, _, ?_, ?_, by decide, rfl, fun fuel hf => ?_⟩
  · unfold GraphProto.SingleAssignment; decide
  · intro nd hnd
    simp only [List.mem_cons, List.not_mem_nil, or_false] at hnd
    subst hnd
    exact ⟨_, rfl, fun ins => by simp [featureDropout]⟩
  · obtain ⟨f, rfl⟩ : ∃ f, fuel = f + 1 := ⟨fuel - 1, by omega⟩
    rfl

/-- **C70 fails** if the output of the graph is one of its inputs: every forward pass raises. -/
theorem C70_identity_wrong : ∃ (g : GraphProto ℤ) (m : Model ℤ), g.SingleAssignment ∧ g.LayersCorrect sampleOp ∧ g.value sampleOp [5] "x" = some 5 ∧ g.outputs = ["x"] ∧ toCrypten g = .ok m ∧
    ∀ asTuple fuel, m.forward asTuple fuel [5] = .error .unconnected := by
  refine ⟨⟨["x"], ["x"], [], []⟩, _, ?_, ?_, by decide, rfl, rfl, fun _ fuel => by cases fuel <;> rfl⟩
  · unfold GraphProto.SingleAssignment; decide
  · intro nd hnd
    simp at hnd

/-! ## What raises -/

/-- **C70.** A graph with an operator that CrypTen does not have, or whose attributes it rejects, is not converted: never a model that leaves it out. -/
theorem C70_unsupported_raises (g : GraphProto V) (nd : NodeProto V) (hnd : nd ∈ g.nodes) (hl : nd.layer = none) : ∃ e, toCrypten g = .error e := by
  have hn : ∀ (nds : List (NodeProto V)) (nodes : List (Node V)), nd ∈ nds → ∃ e, addNodes nds nodes = .error e := by
    intro nds
    induction nds with
    | nil => intro _ h; simp at h
    | cons x xs ih =>
      intro nodes h
      rw [addNodes]
      rcases List.mem_cons.1 h with rfl | h
      · exact ⟨.unsupported, by simp [moduleOf, hl, Except.bind]⟩
      · cases moduleOf x with
        | error e => exact ⟨e, rfl⟩
        | ok m =>
          cases hm : addModule nodes m with
          | error e => exact ⟨e, by simp [Except.bind, hm]⟩
          | ok l =>
            obtain ⟨e, he⟩ := ih l h
            exact ⟨e, by simp [Except.bind, hm, he]⟩
  unfold toCrypten
  cases inputOutputNames g with
  | error e => exact ⟨e, rfl⟩
  | ok io =>
    cases hp : addParameters g.initializers [] with
    | error e => exact ⟨e, by simp [Except.bind]⟩
    | ok l =>
      obtain ⟨e, he⟩ := hn g.nodes l hnd
      exact ⟨e, by simp [Except.bind, he]⟩

theorem addModule_ok_nodup {nodes nodes' : List (Node V)} {nd : Node V} (h : addModule nodes nd = .ok nodes') (hn : (nodes.map Node.name).Nodup) :
    nodes' = nodes ++ [nd] ∧ (nodes'.map Node.name).Nodup := by
  unfold addModule at h
  split at h
  · exact nomatch h
  · rename_i hd
    cases h
    refine ⟨rfl, ?_⟩
    rw [List.map_append, List.nodup_append]
    refine ⟨hn, by simp, ?_⟩
    intro a ha b hb
    obtain ⟨x, hx, rfl⟩ := List.mem_map.1 ha
    simp only [List.map_cons, List.map_nil, List.mem_singleton] at hb
    subst hb
    intro hab
    exact hd (List.any_eq_true.2 ⟨x, hx, by simpa using hab⟩)

theorem addParameters_ok_nodup : ∀ {ps : List (String × V)} {nodes nodes' : List (Node V)}, addParameters ps nodes = .ok nodes' → (nodes.map Node.name).Nodup →
    (nodes'.map Node.name).Nodup ∧ nodes'.map Node.name = nodes.map Node.name ++ ps.map Prod.fst := by
  intro ps
  induction ps with
  | nil => intro nodes nodes' h hn; cases h; exact ⟨hn, by simp⟩
  | cons p ps ih =>
    intro nodes nodes' h hn
    rw [addParameters] at h
    cases hm : addModule nodes (parameter p) with
    | error e => rw [hm] at h; exact nomatch h
    | ok x =>
      rw [hm] at h
      obtain ⟨rfl, h2⟩ := addModule_ok_nodup hm hn
      obtain ⟨h3, h4⟩ := ih h h2
      exact ⟨h3, by rw [h4, List.map_append, List.append_assoc]; rfl⟩

theorem addNodes_ok_nodup : ∀ {nds : List (NodeProto V)} {nodes nodes' : List (Node V)}, addNodes nds nodes = .ok nodes' → (nodes.map Node.name).Nodup →
    (nodes'.map Node.name).Nodup ∧ nodes'.map (fun x => some x.name) = nodes.map (fun x => some x.name) ++ nds.map fun nd => nd.outputs.head? := by
  intro nds
  induction nds with
  | nil => intro nodes nodes' h hn; cases h; exact ⟨hn, by simp⟩
  | cons nd nds ih =>
    intro nodes nodes' h hn
    rw [addNodes] at h
    cases hmo : moduleOf nd with
    | error e => rw [hmo] at h; exact nomatch h
    | ok m =>
      rw [hmo] at h
      cases hm : addModule nodes m with
      | error e => exact nomatch (show Except.error e = Except.ok nodes' by rw [← h]; show _ = (addModule nodes m).bind _; rw [hm]; rfl)
      | ok x =>
        have h' : addNodes nds x = .ok nodes' := by rw [← h]; show _ = (addModule nodes m).bind _; rw [hm]; rfl
        obtain ⟨rfl, h2⟩ := addModule_ok_nodup hm hn
        obtain ⟨h3, h4⟩ := ih h' h2
        have hname : some m.name = nd.outputs.head? := by
          unfold moduleOf at hmo
          split at hmo
          · exact nomatch hmo
          · split at hmo
            · exact nomatch hmo
            · rename_i ho; cases hmo; rw [ho]; rfl
        exact ⟨h3, by rw [h4, List.map_append, List.append_assoc]; simp [← hname]⟩

/-- **C70.** What is converted is well-formed: there are inputs, there is one output, and no name is given to two parameters or computed by two nodes. Graphs that are not raise. -/
theorem C70_accepts (g : GraphProto V) (m : Model V) (h : toCrypten g = .ok m) :
    g.inputs ≠ [] ∧ g.outputs = [m.outputName] ∧ m.inputNames = g.inputs ∧ ((g.initializers.map fun p => some p.1) ++ g.nodes.map fun nd => nd.outputs.head?).Nodup ∧
      none ∉ g.nodes.map fun nd => nd.outputs.head? := by
  unfold toCrypten at h
  cases hio : inputOutputNames g with
  | error e => rw [hio] at h; exact nomatch h
  | ok io =>
    rw [hio] at h
    cases hp : addParameters g.initializers [] with
    | error e => exact nomatch (show Except.error e = Except.ok m by rw [← h]; show _ = (addParameters g.initializers []).bind _; rw [hp]; rfl)
    | ok nodes =>
      have h' : ((addNodes g.nodes nodes).bind fun nodes => .ok ⟨io.1, io.2, nodes⟩) = Except.ok m := by
        rw [← h]; show _ = (addParameters g.initializers []).bind _; rw [hp]; rfl
      cases hn : addNodes g.nodes nodes with
      | error e => rw [hn] at h'; exact nomatch h'
      | ok nodes' =>
        rw [hn] at h'
        cases h'
        obtain ⟨a1, a2⟩ := addParameters_ok_nodup hp (by simp)
        obtain ⟨b1, b2⟩ := addNodes_ok_nodup hn a1
        have hout : g.inputs ≠ [] ∧ g.outputs = [io.2] ∧ io.1 = g.inputs := by
          unfold inputOutputNames at hio
          split at hio
          · exact nomatch hio
          · rename_i h1 h2; cases hio; exact ⟨fun h => h2 h, h1, rfl⟩
          · exact nomatch hio
        have hnames : nodes.map (fun x => some x.name) = g.initializers.map fun p => some p.1 := by
          have := congrArg (List.map some) a2
          simpa [List.map_map, Function.comp_def] using this
        refine ⟨hout.1, hout.2.1, hout.2.2, ?_, ?_⟩
        · rw [← hnames, ← b2]
          have : (nodes'.map fun x => some x.name) = (nodes'.map Node.name).map some := by rw [List.map_map]; rfl
          rw [this]; exact b1.map (Option.some_injective _)
        · intro hmem
          have : (none : Option String) ∈ nodes'.map fun x => some x.name := by rw [b2]; exact List.mem_append_right _ hmem
          simp at this

/-- Both happen: the sample graph is converted, and two nodes with the same output are not. -/
example : (∃ m, toCrypten (⟨["x"], ["y"], [("w", 3)], [⟨"Mul", ["x", "w"], ["y"], some List.prod⟩]⟩ : GraphProto ℤ) = .ok m) ∧
    toCrypten (⟨["x"], ["y"], [], [⟨"Relu", ["x"], ["y"], some List.sum⟩, ⟨"Neg", ["x"], ["y"], some List.sum⟩]⟩ : GraphProto ℤ) = .error .moduleExists := ⟨⟨_, rfl⟩, rfl⟩

end CrypTen.OnnxGraph

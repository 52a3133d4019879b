import Verif.Spec.OnnxStuck
import Verif.Props.OnnxGraph

/-!
# C70: graphs that are converted, but cannot be run
-/

namespace CrypTen.OnnxGraph
open CrypTen.Graph
variable {V : Type}

/-! ## Where the modules of a model come from -/

theorem mem_addParameters : ∀ {ps : List (String × V)} {nodes nodes' : List (Node V)}, addParameters ps nodes = .ok nodes' → ∀ x ∈ nodes', x ∈ nodes ∨ ∃ p ∈ ps, x = parameter p
  | [], nodes, nodes', h, x, hx => by
    rw [addParameters] at h
    cases h
    exact .inl hx
  | p :: ps, nodes, nodes', h, x, hx => by
    rw [addParameters] at h
    unfold addModule at h
    split at h
    · exact absurd h (by simp [Except.bind])
    · rcases mem_addParameters (show addParameters ps (nodes ++ [parameter p]) = .ok nodes' from h) x hx with h | ⟨q, hq, e⟩
      · rcases List.mem_append.1 h with h | h
        · exact .inl h
        · exact .inr ⟨p, List.mem_cons_self, List.mem_singleton.1 h⟩
      · exact .inr ⟨q, List.mem_cons_of_mem _ hq, e⟩

theorem mem_addNodes : ∀ {nds : List (NodeProto V)} {nodes nodes' : List (Node V)}, addNodes nds nodes = .ok nodes' → ∀ x ∈ nodes', x ∈ nodes ∨ ∃ nd ∈ nds, moduleOf nd = .ok x
  | [], nodes, nodes', h, x, hx => by
    rw [addNodes] at h
    cases h
    exact .inl hx
  | nd :: nds, nodes, nodes', h, x, hx => by
    rw [addNodes] at h
    cases hm : moduleOf nd with
    | error e => rw [hm] at h; exact absurd h (by simp [Except.bind])
    | ok md =>
      rw [hm] at h
      replace h : (addModule nodes md).bind (addNodes nds) = .ok nodes' := h
      unfold addModule at h
      split at h
      · exact absurd h (by simp [Except.bind])
      · rcases mem_addNodes (show addNodes nds (nodes ++ [md]) = .ok nodes' from h) x hx with h | ⟨q, hq, e⟩
        · rcases List.mem_append.1 h with h | h
          · exact .inl h
          · exact .inr ⟨nd, List.mem_cons_self, by rw [hm, List.mem_singleton.1 h]⟩
        · exact .inr ⟨q, List.mem_cons_of_mem _ hq, e⟩

/-- The results of a module. -/
def results (md : Node V) : List String := md.outputNames.getD [md.name]

theorem moduleOf_ok {nd : NodeProto V} {md : Node V} (h : moduleOf nd = .ok md) : md.inputs = nd.inputs ∧ md.name ∈ nd.outputs ∧ ∀ o ∈ results md, o ∈ nd.outputs := by
  unfold moduleOf at h
  split at h
  · cases h
  · split at h
    · cases h
    · rename_i o rest ho
      cases h
      refine ⟨rfl, by rw [ho]; exact List.mem_cons_self, fun x hx => ?_⟩
      rw [ho]
      simp only [results, Option.getD_some] at hx
      split at hx
      · rw [List.mem_singleton.1 hx]; exact List.mem_cons_self
      · exact hx

theorem model_nodes {g : GraphProto V} {m : Model V} (h : toCrypten g = .ok m) :
    m.inputNames = g.inputs ∧ g.outputs = [m.outputName] ∧ (m.nodes.map Node.name).Nodup ∧ ∀ x ∈ m.nodes, (∃ p ∈ g.initializers, x = parameter p) ∨ ∃ nd ∈ g.nodes, moduleOf nd = .ok x := by
  have ha := C70_accepts g m h
  unfold toCrypten at h
  cases h1 : inputOutputNames g with
  | error e => rw [h1] at h; exact absurd h (by simp [Except.bind])
  | ok io =>
    rw [h1] at h
    cases h2 : addParameters g.initializers [] with
    | error e => rw [h2] at h; exact absurd h (by simp [Except.bind])
    | ok nodes =>
      rw [h2] at h
      replace h : (addNodes g.nodes nodes).bind (fun nodes => Except.ok (⟨io.1, io.2, nodes⟩ : Model V)) = .ok m := h
      cases h3 : addNodes g.nodes nodes with
      | error e => rw [h3] at h; exact absurd h (by simp [Except.bind])
      | ok nodes' =>
        rw [h3] at h
        cases h
        refine ⟨ha.2.2.1, ha.2.1, (addNodes_ok_nodup h3 (addParameters_ok_nodup h2 List.nodup_nil).1).1, fun x hx => ?_⟩
        rcases mem_addNodes h3 x hx with h | h
        · rcases mem_addParameters h2 x h with h | h
          · exact absurd h (by simp)
          · exact .inl h
        · exact .inr h

/-! ## The invariant -/

theorem producer_unique {g : GraphProto V} (h : g.Once) {nd nd' : NodeProto V} {o : String} (hn : nd ∈ g.nodes) (hn' : nd' ∈ g.nodes) (ho : o ∈ nd.outputs) (ho' : o ∈ nd'.outputs) : nd = nd' := by
  have h : (g.nodes.flatMap NodeProto.outputs).Nodup := (List.nodup_append.1 h).2.1
  generalize g.nodes = l at h hn hn'
  induction l with
  | nil => exact absurd hn (by simp)
  | cons a l ih =>
    rw [List.flatMap_cons, List.nodup_append] at h
    rcases List.mem_cons.1 hn with e | hn1 <;> rcases List.mem_cons.1 hn' with e' | hn1'
    · rw [e, e']
    · exact absurd rfl (h.2.2 o (e ▸ ho) o (List.mem_flatMap.2 ⟨nd', hn1', ho'⟩))
    · exact absurd rfl (h.2.2 o (e' ▸ ho') o (List.mem_flatMap.2 ⟨nd, hn1, ho⟩))
    · exact ih h.2.1 hn1 hn1'

theorem Stuck.not_input {g : GraphProto V} (h : g.Once) {x : String} (hx : x ∈ g.inputs) : ¬ Stuck g x := by
  have hd : ∀ nd ∈ g.nodes, x ∉ nd.outputs := fun nd hnd ho => (List.nodup_append.1 h).2.2 x (List.mem_append_left _ hx) x (List.mem_flatMap.2 ⟨nd, hnd, ho⟩) rfl
  intro hs
  cases hs with
  | undefined h1 => exact h1 hx
  | repeated h1 h2 => exact hd _ h1 h2
  | operand h1 h2 => exact hd _ h1 h2

theorem Stuck.not_initializer {g : GraphProto V} (h : g.Once) {x : String} (hx : x ∈ g.initializers.map Prod.fst) : ¬ Stuck g x := by
  have hd : ∀ nd ∈ g.nodes, x ∉ nd.outputs := fun nd hnd ho => (List.nodup_append.1 h).2.2 x (List.mem_append_right _ hx) x (List.mem_flatMap.2 ⟨nd, hnd, ho⟩) rfl
  intro hs
  cases hs with
  | undefined _ h1 => exact h1 hx
  | repeated h1 h2 => exact hd _ h1 h2
  | operand h1 h2 => exact hd _ h1 h2

/-- Values that are stuck are not computed, and only operands that were computed are marked, at their first place. -/
structure Inv (g : GraphProto V) (nodes : List (Node V)) (s : St V) : Prop where
  stuck : ∀ x, Stuck g x → s.computed x ≠ some true
  length : ∀ md ∈ nodes, (s.available md.name).length = md.inputs.length
  marked : ∀ md ∈ nodes, ∀ j, (s.available md.name)[j]? = some true → ∃ x, md.inputs[j]? = some x ∧ s.computed x = some true ∧ md.inputs.idxOf x = j

variable {g : GraphProto V} {nodes : List (Node V)}

theorem find_name (hn : (nodes.map Node.name).Nodup) {md : Node V} (hmd : md ∈ nodes) : nodes.find? (fun nd => nd.name = md.name) = some md := by
  induction nodes with
  | nil => exact absurd hmd (by simp)
  | cons a l ih =>
    rw [List.map_cons, List.nodup_cons] at hn
    rcases List.mem_cons.1 hmd with rfl | hmd
    · simp
    · have hne : a.name ≠ md.name := fun e => hn.1 (e ▸ List.mem_map.2 ⟨md, hmd, rfl⟩)
      rw [List.find?_cons_of_neg (by simpa using hne)]
      exact ih hn.2 hmd

theorem Inv.mark (hn : (nodes.map Node.name).Nodup) {s : St V} (h : Inv g nodes s) {x : String} (hx : ¬ Stuck g x) : Inv g nodes (markAsComputed nodes x s) := by
  refine ⟨fun y hy => ?_, fun md hmd => ?_, fun md hmd j hj => ?_⟩
  · have hne : y ≠ x := fun e => hx (e ▸ hy)
    simp only [markAsComputed, if_neg hne]
    exact h.stuck y hy
  · simp only [markAsComputed, find_name hn hmd]
    split
    · rw [List.length_set]; exact h.length md hmd
    · exact h.length md hmd
  · simp only [markAsComputed, find_name hn hmd] at hj ⊢
    have old : (s.available md.name)[j]? = some true → ∃ y, md.inputs[j]? = some y ∧ (if y = x then some true else s.computed y) = some true ∧ md.inputs.idxOf y = j := fun hj => by
      obtain ⟨y, h1, h2, h3⟩ := h.marked md hmd j hj
      refine ⟨y, h1, ?_, h3⟩
      split
      · rfl
      · exact h2
    split at hj
    · rename_i hm
      by_cases hji : md.inputs.idxOf x = j
      · subst hji
        exact ⟨x, by rw [List.getElem?_eq_getElem (List.idxOf_lt_length_of_mem hm), List.getElem_idxOf], if_pos rfl, rfl⟩
      · rw [List.getElem?_set_ne hji] at hj
        exact old hj
    · exact old hj

theorem Inv.values {s : St V} (h : Inv g nodes s) (f : String → Option V) : Inv g nodes { s with values := f } := ⟨h.stuck, h.length, h.marked⟩

theorem Inv.store (hn : (nodes.map Node.name).Nodup) {s : St V} (h : Inv g nodes s) {kv : String × V} (hx : ¬ Stuck g kv.1) : Inv g nodes (store nodes s kv) := (h.values _).mark hn hx

/-- A node that can be computed has no stuck results. -/
theorem Inv.computable (ho : g.Once) (hsrc : ∀ x ∈ nodes, (∃ p ∈ g.initializers, x = parameter p) ∨ ∃ nd ∈ g.nodes, moduleOf nd = .ok x) {s : St V} (h : Inv g nodes s) {md : Node V} (hf : findComputable nodes s = some md) :
    ¬ Stuck g md.name ∧ ∀ o ∈ results md, ¬ Stuck g o := by
  have hmd : md ∈ nodes := List.mem_of_find?_eq_some hf
  have hall := List.find?_some hf
  rw [Bool.and_eq_true, List.all_eq_true] at hall
  have hav : ∀ j, j < md.inputs.length → ∃ x, md.inputs[j]? = some x ∧ s.computed x = some true ∧ md.inputs.idxOf x = j := fun j hj => by
    refine h.marked md hmd j ?_
    have hl : j < (s.available md.name).length := by rw [h.length md hmd]; exact hj
    rw [List.getElem?_eq_getElem hl]
    exact congrArg some (hall.1 _ (List.getElem_mem hl))
  rcases hsrc md hmd with ⟨p, hp, rfl⟩ | ⟨nd, hnd, hm⟩
  · have hi := Stuck.not_initializer ho (List.mem_map.2 ⟨p, hp, rfl⟩)
    exact ⟨hi, fun o hos => by rw [List.mem_singleton.1 hos]; exact hi⟩
  · obtain ⟨h1, h2, h3⟩ := moduleOf_ok hm
    have key : ∀ o ∈ nd.outputs, ¬ Stuck g o := by
      intro o hos hs
      cases hs with
      | undefined _ _ hu => exact hu nd hnd hos
      | repeated hnd' ho' hr =>
        obtain rfl := producer_unique ho hnd hnd' hos ho'
        refine hr (List.nodup_iff_injective_getElem.2 fun i j e => ?_)
        obtain ⟨x, hx, _, hix⟩ := hav i (by rw [h1]; exact i.isLt)
        obtain ⟨y, hy, _, hjy⟩ := hav j (by rw [h1]; exact j.isLt)
        rw [h1] at hx hy hix hjy
        rw [List.getElem?_eq_getElem i.isLt, Option.some.injEq] at hx
        rw [List.getElem?_eq_getElem j.isLt, Option.some.injEq] at hy
        have e : nd.inputs[i.val] = nd.inputs[j.val] := e
        exact Fin.ext (by rw [← hix, ← hjy, ← hx, ← hy, e])
      | operand hnd' ho' hx hsx =>
        obtain rfl := producer_unique ho hnd hnd' hos ho'
        rw [← h1] at hx
        obtain ⟨j, hj, hjx⟩ := List.getElem_of_mem hx
        obtain ⟨y, hy, hc, _⟩ := hav j hj
        rw [List.getElem?_eq_getElem hj, hjx, Option.some.injEq] at hy
        exact h.stuck y (hy ▸ hsx) hc
    exact ⟨key _ h2, fun o hos => key _ (h3 o hos)⟩

theorem Inv.foldl (hn : (nodes.map Node.name).Nodup) : ∀ (l : List (String × V)) {s : St V}, Inv g nodes s → (∀ p ∈ l, ¬ Stuck g p.1) → Inv g nodes (l.foldl (CrypTen.Graph.store nodes) s)
  | [], _, h, _ => h
  | p :: l, _, h, hl => Inv.foldl hn l (h.store hn (hl p List.mem_cons_self)) fun q hq => hl q (List.mem_cons_of_mem _ hq)

theorem Inv.compute (hn : (nodes.map Node.name).Nodup) {asTuple : V → Option (List V)} {s s' : St V} (h : Inv g nodes s) {md : Node V} (h1 : ¬ Stuck g md.name) (h2 : ∀ o ∈ results md, ¬ Stuck g o) (hc : computeNode nodes asTuple s md = .ok s') :
    Inv g nodes s' := by
  unfold computeNode at hc
  split at hc
  · cases hc
  · dsimp only at hc
    split at hc
    · cases hc; exact h.store hn h1
    · split at hc
      · cases hc; exact h.store hn h1
      · cases hc
    · rename_i outs _ hout
      split at hc
      · cases hc
      · split at hc
        · cases hc
          refine Inv.foldl hn _ h fun p hp => h2 _ ?_
          rw [results, hout]
          exact (List.of_mem_zip hp).1
        · cases hc

theorem loop_stuck (hn : (nodes.map Node.name).Nodup) (ho : g.Once) (hsrc : ∀ x ∈ nodes, (∃ p ∈ g.initializers, x = parameter p) ∨ ∃ nd ∈ g.nodes, moduleOf nd = .ok x) (asTuple : V → Option (List V)) {out : String} (hs : Stuck g out) (fuel : ℕ)
    {s s0 : St V} (h : Inv g nodes s) (h0 : Inv g nodes s0) : ∃ e, loop nodes asTuple [out] fuel s (findComputable nodes s0) = .error e := by
  induction fuel generalizing s s0 with
  | zero =>
    cases findComputable nodes s0 with
    | none => exact ⟨_, rfl⟩
    | some md => exact ⟨_, rfl⟩
  | succ fuel ih =>
    cases hf : findComputable nodes s0 with
    | none => exact ⟨_, rfl⟩
    | some md =>
      obtain ⟨h1, h2⟩ := h0.computable ho hsrc hf
      rw [loop]
      cases hc : computeNode nodes asTuple s md with
      | error e => exact ⟨e, rfl⟩
      | ok s' =>
        have h' := h.compute hn h1 h2 hc
        dsimp only
        rw [allComputed]
        cases hcomp : s'.computed out with
        | none => exact ⟨_, rfl⟩
        | some b =>
          cases b with
          | true => exact absurd hcomp (h'.stuck out hs)
          | false => exact ih (h'.values _) h'

/-- **C70.** For every graph: if its result is stuck (it needs a value that nothing defines, such as the empty name of an optional input that is left out, or a node that uses a value twice), then the converted model never returns
anything: every forward pass raises, for all arguments. -/
theorem C70_stuck (g : GraphProto V) (m : Model V) (hm : toCrypten g = .ok m) (ho : g.Once) (hs : Stuck g m.outputName) (asTuple : V → Option (List V)) (fuel : ℕ) (args : List V) : ∃ e, m.forward asTuple fuel args = .error e := by
  obtain ⟨h1, h2, hn, hsrc⟩ := model_nodes hm
  unfold Model.forward Graph.forward
  split
  · have hi : Inv g m.nodes (initial m.nodes m.inputNames args) := by
      refine ⟨fun x _ => ?_, fun md hmd => ?_, fun md hmd j hj => ?_⟩
      · simp only [initial]; split <;> simp
      · simp only [initial, find_name hn hmd, List.length_map]
      · simp only [initial, find_name hn hmd, List.getElem?_map, Option.map_eq_some_iff] at hj
        obtain ⟨_, _, hj⟩ := hj
        exact absurd hj (by simp)
    have hinv : ∀ (l : List String) {s : St V}, Inv g m.nodes s → (∀ x ∈ l, ¬ Stuck g x) → Inv g m.nodes (l.foldl (fun s k => markAsComputed m.nodes k s) s) := by
      intro l
      induction l with
      | nil => intro s h _; exact h
      | cons x l ih => intro s h hl; exact ih (h.mark hn (hl x List.mem_cons_self)) fun y hy => hl y (List.mem_cons_of_mem _ hy)
    have h := hinv m.inputNames hi fun x hx => Stuck.not_input ho (h1 ▸ hx)
    exact loop_stuck hn ho hsrc asTuple hs fuel h h
  · exact ⟨_, rfl⟩

/-- `Clip` with a maximum and no minimum, as ONNX writes it: the second name is empty. -/
def clip : GraphProto ℤ := ⟨["x"], ["y"], [("max", 6)], [⟨"Clip", ["x", "", "max"], ["c"], some List.sum⟩, ⟨"Neg", ["c"], ["y"], some List.sum⟩]⟩

/-- The graph is converted, and its result is stuck. -/
example : (∃ m, toCrypten clip = .ok m ∧ m.outputName = "y") ∧ clip.Once ∧ Stuck clip "y" := by
  refine ⟨⟨_, rfl, rfl⟩, by unfold GraphProto.Once; decide, ?_⟩
  exact .operand (nd := ⟨"Neg", ["c"], ["y"], some List.sum⟩) (x := "c") (by simp [clip]) (by simp) (by simp) (.operand (nd := ⟨"Clip", ["x", "", "max"], ["c"], some List.sum⟩) (x := "") (by simp [clip]) (by simp) (by simp) (.undefined (by decide) (by decide) (by simp [clip])))

end CrypTen.OnnxGraph

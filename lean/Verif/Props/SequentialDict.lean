import Verif.Spec.SequentialDict
import Verif.Props.Graph
import Mathlib.Data.List.Infix

/-!
# C74: sequential models, built from modules and from ordered dictionaries
-/

namespace CrypTen.SequentialDict

open CrypTen.Graph (Err St)

variable {V : Type}

/-! ## Where strings behave like lists -/

/-- The module as a node of the graph model: its inputs are what iteration yields. -/
def Entry.toNode (e : Entry V) : Graph.Node V := ⟨e.name, e.inputs.iter, none, e.run⟩

/-- Apart from the empty name, `len`, `in` and `index` are those of the list that iteration yields. -/
structure Names.Plain (s : Names) : Prop where
  len : s.len = s.iter.length
  has : ∀ name, name ≠ "" → (s.has name = true ↔ name ∈ s.iter)
  index : ∀ name, name ∈ s.iter → s.index name = s.iter.idxOf name

theorem plain_list (l : List String) : (Names.list l).Plain := ⟨rfl, fun _ _ => by simp [Names.has, Names.iter], fun _ _ => rfl⟩

theorem plain_str {s : String} {c : Char} (h : s.toList = [c]) : (Names.str s).Plain := by
  refine ⟨by simp [Names.len, Names.iter], fun name hne => ?_, fun name hin => ?_⟩
  · have hne' : name.toList ≠ [] := fun e => hne (String.toList_inj.1 (by rw [e]; rfl))
    simp only [Names.has, Names.iter, h, decide_eq_true_eq, List.map_cons, List.map_nil, List.mem_singleton]
    constructor
    · intro hi
      have h1 := hi.length_le
      have h2 : name.toList = [c] := hi.sublist.eq_of_length_le (by have := List.length_pos_iff.2 hne'; simp only [List.length_singleton]; omega)
      exact String.toList_inj.1 (by rw [h2]; simp)
    · rintro rfl
      simp
  · simp only [Names.iter, h, List.map_cons, List.map_nil, List.mem_singleton] at hin
    subst hin
    simp [Names.index, Names.iter, h, List.range_succ, List.findIdx_cons]

theorem find?_toNode (nodes : List (Entry V)) (p : Graph.Node V → Bool) : (nodes.map Entry.toNode).find? p = (nodes.find? fun e => p e.toNode).map Entry.toNode := by
  rw [List.find?_map]; rfl

theorem initial_toNode {nodes : List (Entry V)} (hp : ∀ e ∈ nodes, e.inputs.Plain) (inputNames : List String) (args : List V) :
    initial nodes inputNames args = Graph.initial (nodes.map Entry.toNode) inputNames args := by
  unfold initial Graph.initial
  congr 1
  · funext k
    rw [List.any_map]; rfl
  · funext k
    rw [find?_toNode]
    change _ = match Option.map Entry.toNode (nodes.find? fun e => decide (e.name = k)) with | some nd => nd.inputs.map fun _ => false | none => []
    cases hf : nodes.find? fun e => decide (e.name = k) with
    | none => rfl
    | some e =>
      have := (hp e (List.mem_of_find?_eq_some hf)).len
      simp only [Option.map_some, Entry.toNode, List.map_const', this]

theorem mark_toNode {nodes : List (Entry V)} (hp : ∀ e ∈ nodes, e.inputs.Plain) {name : String} (hne : name ≠ "") (s : St V) :
    markAsComputed nodes name s = Graph.markAsComputed (nodes.map Entry.toNode) name s := by
  unfold markAsComputed Graph.markAsComputed
  congr 1
  funext k
  rw [find?_toNode]
  change _ = match Option.map Entry.toNode (nodes.find? fun e => decide (e.name = k)) with
    | some nd => if name ∈ nd.inputs then (s.available k).set (nd.inputs.idxOf name) true else s.available k
    | none => s.available k
  cases hf : nodes.find? fun e => decide (e.name = k) with
  | none => rfl
  | some e =>
    have h := hp e (List.mem_of_find?_eq_some hf)
    simp only [Option.map_some, Entry.toNode]
    by_cases hin : name ∈ e.inputs.iter
    · rw [if_pos hin, if_pos ((h.has name hne).2 hin), h.index name hin]
    · rw [if_neg hin, if_neg (fun h' => hin ((h.has name hne).1 h'))]

theorem findComputable_toNode (nodes : List (Entry V)) (s : St V) : Graph.findComputable (nodes.map Entry.toNode) s = (findComputable nodes s).map Entry.toNode := by
  unfold Graph.findComputable findComputable
  rw [find?_toNode]; rfl

theorem clear_toNode {nodes : List (Entry V)} (hp : ∀ e ∈ nodes, e.inputs.Plain) {s : St V} (hs : s.values "" = none) :
    clearUnused nodes s = Graph.clearUnused (nodes.map Entry.toNode) s := by
  unfold clearUnused Graph.clearUnused
  congr 1
  funext k
  by_cases hk : k = ""
  · subst hk; simp [hs]
  · have : (nodes.any fun nd => decide (s.computed nd.name = some false) && nd.inputs.has k) =
        ((nodes.map Entry.toNode).any fun nd => decide (s.computed nd.name = some false) && decide (k ∈ nd.inputs)) := by
      rw [List.any_map]
      rw [Bool.eq_iff_iff, List.any_eq_true, List.any_eq_true]
      refine exists_congr fun e => and_congr_right fun he => ?_
      simp only [Function.comp, Entry.toNode, Bool.and_eq_true, (hp e he).has k hk, decide_eq_true_eq]
      exact (and_congr decide_eq_true_iff decide_eq_true_iff).symm
    rw [this]

theorem loop_toNode {nodes : List (Entry V)} (hp : ∀ e ∈ nodes, e.inputs.Plain) (hn : ∀ e ∈ nodes, e.name ≠ "") (asTuple : V → Option (List V)) (outputNames : List String) (fuel : ℕ) :
    ∀ (s : St V) (o : Option (Entry V)), s.values "" = none → (∀ e, o = some e → e ∈ nodes) →
      loop nodes outputNames fuel s o = Graph.loop (nodes.map Entry.toNode) asTuple outputNames fuel s (o.map Entry.toNode) := by
  induction fuel with
  | zero => intro s o _ _; cases o <;> rfl
  | succ fuel ih =>
    intro s o hs ho
    cases o with
    | none => rfl
    | some e =>
      have he := ho e rfl
      simp only [Option.map_some, loop, Graph.loop, computeNode, Graph.computeNode, Entry.toNode]
      cases hf : Graph.fetch s e.inputs.iter with
      | error e => rfl
      | ok ins =>
        simp only [Except.bind, Graph.store]
        rw [mark_toNode hp (hn e he)]
        generalize hs' : Graph.markAsComputed (nodes.map Entry.toNode) e.name { s with values := fun k => if k = e.name then some (e.run ins) else s.values k } = s'
        have hv : s'.values "" = none := by
          subst hs'
          simp [Graph.markAsComputed, Ne.symm (hn e he), hs]
        cases Graph.allComputed s' outputNames with
        | error e => rfl
        | ok b =>
          cases b with
          | true => rfl
          | false =>
            simp only
            rw [ih (clearUnused nodes s') (findComputable nodes s') (by simp [clearUnused, hv]) (fun e h => List.mem_of_find?_eq_some h), clear_toNode hp hv, findComputable_toNode]

theorem forward_toNode {nodes : List (Entry V)} (hp : ∀ e ∈ nodes, e.inputs.Plain) (hn : ∀ e ∈ nodes, e.name ≠ "") (asTuple : V → Option (List V)) {inputNames : List String}
    (hi : ∀ k ∈ inputNames, k ≠ "") (outputNames : List String) (fuel : ℕ) (args : List V) :
    forward nodes inputNames outputNames fuel args = Graph.forward (nodes.map Entry.toNode) asTuple inputNames outputNames fuel args := by
  unfold forward Graph.forward
  split
  · have hfold : ∀ (l : List String), (∀ k ∈ l, k ≠ "") → ∀ s : St V, s.values "" = none →
        l.foldl (fun s k => markAsComputed nodes k s) s = l.foldl (fun s k => Graph.markAsComputed (nodes.map Entry.toNode) k s) s ∧
          (l.foldl (fun s k => Graph.markAsComputed (nodes.map Entry.toNode) k s) s).values "" = none := by
      intro l
      induction l with
      | nil => intro _ s hs; exact ⟨rfl, hs⟩
      | cons k l ih =>
        intro hl s hs
        rw [List.foldl_cons, List.foldl_cons, mark_toNode hp (hl k List.mem_cons_self)]
        exact ih (fun x hx => hl x (List.mem_cons_of_mem _ hx)) _ (by simpa [Graph.markAsComputed] using hs)
    have hinit : (initial nodes inputNames args).values "" = none := by
      simp only [initial, Option.map_eq_none_iff, List.find?_eq_none, List.mem_reverse, decide_eq_true_eq]
      rintro ⟨a, b⟩ hab
      exact hi a (List.of_mem_zip hab).1
    obtain ⟨h1, h2⟩ := hfold inputNames hi _ hinit
    simp only
    rw [h1, loop_toNode hp hn asTuple outputNames fuel _ (findComputable nodes _) h2 (fun e h => List.mem_of_find?_eq_some h), initial_toNode hp, findComputable_toNode]
  · rfl

/-! ## What the constructor builds -/

/-- The modules of a dictionary: each takes what the string of the previous key names. -/
def entriesFrom : Names → List (String × (List V → V)) → List (Entry V)
  | _, [] => []
  | inp, (k, f) :: rest => ⟨k, inp, f⟩ :: entriesFrom (.str k) rest

theorem entriesFrom_names (inp : Names) (items : List (String × (List V → V))) : (entriesFrom inp items).map Entry.name = items.map Prod.fst := by
  induction items generalizing inp with
  | nil => rfl
  | cons it items ih => simp [entriesFrom, ih]

theorem addItems_ok (items : List (String × (List V → V))) : ∀ b : Build V, ((b.nodes.map Entry.name) ++ items.map Prod.fst).Nodup →
    ∃ b', addItems b items = .ok b' ∧ b'.nodes = b.nodes ++ entriesFrom b.inputNames items ∧ b'.key = (items.getLast?.map Prod.fst).or b.key := by
  induction items with
  | nil => intro b _; exact ⟨b, rfl, by simp [entriesFrom], by simp⟩
  | cons it items ih =>
    obtain ⟨k, f⟩ := it
    intro b hb
    have hk : ¬ (b.nodes.any fun nd => decide (nd.name = k)) = true := by
      intro h
      rw [List.any_eq_true] at h
      obtain ⟨nd, h1, h2⟩ := h
      rw [List.nodup_append] at hb
      exact hb.2.2 nd.name (List.mem_map_of_mem h1) k (by simp) (by simpa using h2)
    obtain ⟨b', h1, h2, h3⟩ := ih { b with nodes := b.nodes ++ [⟨k, b.inputNames, f⟩], inputNames := .str k, key := some k } (by simpa using hb)
    refine ⟨b', ?_, ?_, ?_⟩
    · rw [addItems, add, if_neg hk]
      exact h1
    · rw [h2]; simp [entriesFrom]
    · rw [h3]
      cases items with
      | nil => simp
      | cons a l =>
        obtain ⟨z, hz⟩ : ∃ z, (a :: l).getLast? = some z := ⟨_, List.getLast?_eq_some_getLast (List.cons_ne_nil a l)⟩
        rw [List.getLast?_cons_cons, hz]; rfl

theorem sequential_dict {items : List (String × (List V → V))} {last : String × (List V → V)} (hl : items.getLast? = some last) (hn : (items.map Prod.fst).Nodup) :
    ∃ b, sequential [.dict items] = .ok b ∧ b.nodes = entriesFrom (.list ["input"]) items ∧ b.outputNames = [last.1] := by
  obtain ⟨b', h1, h2, h3⟩ := addItems_ok items ⟨[], .list ["input"], none, ["output"]⟩ (by simpa using hn)
  refine ⟨{ b' with outputNames := [last.1] }, ?_, by simpa using h2, rfl⟩
  rw [hl] at h3
  simp only [sequential, addArgs, addArg, h1, Except.bind, h3, Option.map_some, Option.some_or]

theorem toString_inj {i j : ℕ} (h : toString i = toString j) : i = j := by
  have h' : Nat.toDigits 10 i = Nat.toDigits 10 j := by
    have := congrArg String.toList h
    simpa [Nat.repr_eq_repr, toString, Nat.repr_eq_ofList_toDigits] using this
  rw [← Nat.ofDigitChars_ten_toDigits (n := i), h', Nat.ofDigitChars_ten_toDigits]

theorem toString_ne_input (i : ℕ) : toString i ≠ "input" := by
  intro h
  have h' : Nat.toDigits 10 i = "input".toList := by
    have := congrArg String.toList h
    simpa [Nat.repr_eq_repr, toString, Nat.repr_eq_ofList_toDigits] using this
  have hi : i = Nat.ofDigitChars 10 "input".toList 0 := by rw [← h', Nat.ofDigitChars_ten_toDigits]
  have : Nat.toDigits 10 (Nat.ofDigitChars 10 "input".toList 0) ≠ "input".toList := by decide +kernel
  exact this (hi ▸ h')

theorem addArgs_modules (fs : List (List V → V)) : ∀ (idx : ℕ) (b : Build V), (∀ nd ∈ b.nodes, ∃ i < idx, nd.name = toString i) → (idx = 0 → b.inputNames = .list ["input"]) →
    ∃ b', addArgs idx b (fs.map .module) = .ok b' ∧
      b'.nodes = b.nodes ++ fs.mapIdx (fun i f => ⟨toString (idx + i), .list [if idx + i = 0 then "input" else toString (idx + i - 1)], f⟩) ∧
      (fs ≠ [] → b'.outputNames = [toString (idx + fs.length - 1)]) := by
  induction fs with
  | nil => intro idx b _ _; exact ⟨b, rfl, by simp, fun h => absurd rfl h⟩
  | cons f fs ih =>
    intro idx b hb h0
    have hk : ¬ (b.nodes.any fun nd => decide (nd.name = toString idx)) = true := by
      intro h
      rw [List.any_eq_true] at h
      obtain ⟨nd, h1, h2⟩ := h
      obtain ⟨i, hi, e⟩ := hb nd h1
      have := toString_inj (e.symm.trans (by simpa using h2))
      omega
    have hin : (if idx > 0 then .list [toString (idx - 1)] else b.inputNames) = Names.list [if idx = 0 then "input" else toString (idx - 1)] := by
      by_cases h : idx = 0
      · rw [if_neg (by omega), if_pos h, h0 h]
      · rw [if_pos (by omega), if_neg h]
    obtain ⟨b', h1, h2, h3⟩ := ih (idx + 1) ⟨b.nodes ++ [⟨toString idx, .list [if idx = 0 then "input" else toString (idx - 1)], f⟩],
        .list [if idx = 0 then "input" else toString (idx - 1)], b.key, [toString idx]⟩ (by
      intro nd hnd
      rw [List.mem_append, List.mem_singleton] at hnd
      rcases hnd with h | rfl
      · obtain ⟨i, hi, e⟩ := hb nd h
        exact ⟨i, by omega, e⟩
      · exact ⟨idx, by omega, rfl⟩) (by omega)
    refine ⟨b', ?_, ?_, fun _ => ?_⟩
    · rw [List.map_cons, addArgs, addArg]
      simp only [hin, add, if_neg hk, Except.bind]
      exact h1
    · rw [h2, List.mapIdx_cons]
      simp [Nat.add_right_comm, Nat.add_assoc, Nat.add_comm 1]
    · cases fs with
      | nil =>
        rw [List.map_nil, addArgs] at h1
        cases h1
        rfl
      | cons g fs =>
        rw [h3 (List.cons_ne_nil g fs)]
        congr 3
        simp only [List.length_cons]
        omega

/-! ## Sequential models that compute the composition -/

theorem foldl_eq_compose (fs : List (V → V)) : ∀ x : V, fs.foldl (fun v f => f v) x = compose fs x := by
  induction fs with
  | nil => intro x; rfl
  | cons f fs ih => intro x; exact ih (f x)

/-- **C74.** `Sequential(f₀, f₁, …)` computes the composition of its modules, for any number of them. -/
theorem C74_modules (default : V) (fs : List (V → V)) (hfs : fs ≠ []) (x : V) :
    apply (fs.map fun f => .module (unary default f)) fs.length x = some (.ok [compose fs x]) := by
  obtain ⟨b, h1, h2, h3⟩ := addArgs_modules (fs.map (unary default)) 0 ⟨[], .list ["input"], none, ["output"]⟩ (by simp) (fun _ => rfl)
  rw [List.map_map] at h1
  unfold apply sequential
  rw [show (fs.map fun f => Arg.module (unary default f)) = fs.map (Arg.module ∘ unary default) from rfl, h1]
  simp only [h3 (by simpa using hfs), List.length_map, zero_add]
  have hnd : ∀ e ∈ b.nodes, e.inputs.Plain ∧ e.name ≠ "" := by
    intro e he
    rw [h2, List.nil_append, List.mem_mapIdx] at he
    obtain ⟨i, _, rfl⟩ := he
    exact ⟨plain_list _, Nat.repr_ne_empty⟩
  rw [forward_toNode (fun e he => (hnd e he).1) (fun e he => (hnd e he).2) (fun _ => none) (by simp)]
  have : b.nodes.map Entry.toNode = Graph.chain (fun i => toString i) "input" fs default := by
    rw [h2, List.nil_append]
    apply List.ext_getElem
    · simp [Graph.chain]
    · intro i hi hi'
      simp [Graph.chain, Entry.toNode, Names.iter, -List.headD_eq_head?_getD]
      rfl
  rw [this, Graph.C45_sequential _ _ (fun i j => toString_inj) toString_ne_input _ fs hfs default x, foldl_eq_compose]

example : apply (V := ℕ) [.module (unary 0 (· + 1)), .module (unary 0 (· * 10)), .module (unary 0 (· - 3))] 3 4 = some (.ok [47]) := by decide +kernel

theorem entriesFrom_getElem (items : List (String × (List V → V))) : ∀ (inp : Names) (i : ℕ) (h : i < items.length) (h' : i < (entriesFrom inp items).length),
    (entriesFrom inp items)[i] = ⟨items[i].1, if _h : i = 0 then inp else .str (items[i - 1]).1, items[i].2⟩ := by
  induction items with
  | nil => intro inp i h; exact absurd h (by simp)
  | cons it items ih =>
    intro inp i h h'
    cases i with
    | zero => rfl
    | succ i =>
      have hi : i < items.length := by simpa using h
      have := ih (.str it.1) i hi (by simpa [entriesFrom] using h')
      simp only [entriesFrom, List.getElem_cons_succ, this]
      cases i with
      | zero => simp
      | succ i => simp

theorem entriesFrom_length (inp : Names) (items : List (String × (List V → V))) : (entriesFrom inp items).length = items.length := by
  simpa using congrArg List.length (entriesFrom_names inp items)

/-- **C74, partial.** A sequential model built from an ordered dictionary computes the composition of its modules *if every key is a single character*. -/
theorem C74_dict_partial (default : V) (items : List (Char × (V → V))) (hne : items ≠ []) (hn : (items.map Prod.fst).Nodup) (x : V) :
    apply [.dict (items.map fun p => (String.singleton p.1, unary default p.2))] items.length x = some (.ok [compose (items.map Prod.snd) x]) := by
  have hinj : ∀ c d : Char, String.singleton c = String.singleton d → c = d := by
    intro c d h
    simpa using congrArg String.toList h
  have hlen := List.length_pos_iff.2 hne
  obtain ⟨b, h1, h2, h3⟩ := sequential_dict (items := items.map fun p => (String.singleton p.1, unary default p.2)) (by rw [List.getLast?_map, List.getLast?_eq_some_getLast hne]; rfl)
    (by
      rw [List.map_map]
      have := hn.map (f := String.singleton) hinj
      rwa [List.map_map] at this)
  unfold apply
  rw [h1]
  simp only [h3]
  let name : ℕ → String := fun i => if h : i < items.length then String.singleton items[i].1 else String.ofList (List.replicate (i + 6) 'x')
  have hname : ∀ i (h : i < items.length), name i = String.singleton items[i].1 := fun i h => dif_pos h
  have hname' : ∀ i, ¬ i < items.length → (name i).toList.length = i + 6 := fun i h => by
    show (if h : i < items.length then String.singleton items[i].1 else String.ofList (List.replicate (i + 6) 'x')).toList.length = _
    rw [dif_neg h]; simp
  have hlen1 : ∀ i, i < items.length → (name i).toList.length = 1 := fun i h => by rw [hname i h]; simp
  have hnodes : b.nodes.map Entry.toNode = Graph.chain name "input" (items.map Prod.snd) default := by
    rw [h2]
    apply List.ext_getElem
    · simp [Graph.chain, entriesFrom_length]
    · intro i hi hi'
      have hi2 : i < items.length := by simpa [Graph.chain] using hi'
      have hi3 : i - 1 < items.length := by omega
      simp only [List.getElem_map, Graph.chain, List.getElem_mapIdx]
      rw [entriesFrom_getElem _ _ i (by simpa using hi2)]
      simp only [List.getElem_map, Entry.toNode, hname i hi2, hname _ hi3]
      congr 1
      by_cases h0 : i = 0
      · simp [h0, Names.iter]
      · simp [h0, Names.iter]
  have hnd : ∀ e ∈ b.nodes, e.inputs.Plain ∧ e.name ≠ "" := by
    intro e he
    rw [h2] at he
    obtain ⟨i, hi, rfl⟩ := List.getElem_of_mem he
    have hi2 : i < items.length := by simpa [entriesFrom_length] using hi
    have hi3 : i - 1 < items.length := by omega
    rw [entriesFrom_getElem _ _ i (by simpa using hi2)]
    refine ⟨?_, ?_⟩
    · by_cases h0 : i = 0
      · simp only [h0, dite_true]; exact plain_list _
      · simp only [h0, dite_false, List.getElem_map]
        exact plain_str (c := items[i - 1].1) (by simp)
    · intro h
      have := congrArg String.toList h
      simp at this
  rw [forward_toNode (fun e he => (hnd e he).1) (fun e he => (hnd e he).2) (fun _ => none) (by simp), hnodes]
  have hlast : String.singleton (items.getLast hne).1 = name ((items.map Prod.snd).length - 1) := by
    rw [List.length_map, hname _ (by omega), List.getLast_eq_getElem]
  have hinj' : ∀ i j, name i = name j → i = j := by
    intro i j e
    have hl := congrArg (fun s => s.toList.length) e
    beta_reduce at hl
    by_cases hi : i < items.length <;> by_cases hj : j < items.length
    · rw [hname i hi, hname j hj] at e
      have e' := hinj _ _ e
      have := (List.nodup_iff_injective_getElem.1 hn) (a₁ := ⟨i, by simpa using hi⟩) (a₂ := ⟨j, by simpa using hj⟩) (by simpa using e')
      simpa using this
    · rw [hlen1 i hi, hname' j hj] at hl; omega
    · rw [hlen1 j hj, hname' i hi] at hl; omega
    · rw [hname' i hi, hname' j hj] at hl; omega
  have hne' : ∀ i, name i ≠ "input" := by
    intro i e
    have hl := congrArg (fun s => s.toList.length) e
    have h5 : "input".toList.length = 5 := rfl
    beta_reduce at hl
    by_cases hi : i < items.length
    · have := hlen1 i hi; omega
    · have := hname' i hi; omega
  have := Graph.C45_sequential name "input" hinj' hne' (fun _ => none) (items.map Prod.snd) (by simpa using hne) default x
  rw [List.length_map] at this
  rw [hlast, List.length_map, this, foldl_eq_compose]

example : apply (V := ℕ) [.dict [("a", unary 0 (· + 1)), ("b", unary 0 (· * 10)), ("c", unary 0 (· - 3))]] 3 4 = some (.ok [47]) := by decide +kernel

/-! ## Where it fails -/

/-- Marking two values does not make a string of two or more characters available. -/
theorem not_all_available (s k : String) (hs : s ≠ "") (hk : 2 ≤ k.toList.length) :
    let N := Names.str s
    let l1 := if N.has "input" then (List.replicate N.len false).set (N.index "input") true else List.replicate N.len false
    let l2 := if N.has k then l1.set (N.index k) true else l1
    l2.all id = false := by
  intro N l1 l2
  have hlen : 0 < s.toList.length := List.length_pos_iff.2 fun e => hs (String.toList_inj.1 (by rw [e]; rfl))
  have hN : N.len = s.toList.length := rfl
  have hin : N.has "input" = true → 5 ≤ s.toList.length := by
    intro h
    have : "input".toList <:+: s.toList := by simpa [N, Names.has] using h
    simpa using this.length_le
  have hki : N.has k = true → 2 ≤ s.toList.length := by
    intro h
    have : k.toList <:+: s.toList := by simpa [N, Names.has] using h
    have := this.length_le
    omega
  obtain ⟨i, hi, ha, hb⟩ : ∃ i, i < s.toList.length ∧ (N.has "input" = true → i ≠ N.index "input") ∧ (N.has k = true → i ≠ N.index k) := by
    by_cases h1 : N.has "input" = true
    · have := hin h1
      by_cases e0 : N.index "input" ≠ 0 ∧ N.index k ≠ 0
      · exact ⟨0, by omega, fun _ => by omega, fun _ => by omega⟩
      · by_cases e1 : N.index "input" ≠ 1 ∧ N.index k ≠ 1
        · exact ⟨1, by omega, fun _ => by omega, fun _ => by omega⟩
        · exact ⟨2, by omega, fun _ => by omega, fun _ => by omega⟩
    · by_cases h2 : N.has k = true
      · have := hki h2
        by_cases e0 : N.index k = 0
        · exact ⟨1, by omega, fun h => absurd h h1, fun _ => by omega⟩
        · exact ⟨0, by omega, fun h => absurd h h1, fun _ => by omega⟩
      · exact ⟨0, hlen, fun h => absurd h h1, fun h => absurd h h2⟩
  have h1 : l1.length = s.toList.length ∧ l1[i]? = some false := by
    show (if N.has "input" then (List.replicate N.len false).set (N.index "input") true else List.replicate N.len false).length = _ ∧
      (if N.has "input" then (List.replicate N.len false).set (N.index "input") true else List.replicate N.len false)[i]? = _
    split
    · rename_i h
      refine ⟨by simp [hN], ?_⟩
      rw [List.getElem?_set_ne (ha h).symm]
      simp [hN, hi]
    · exact ⟨by simp [hN], by simp [hN, hi]⟩
  have h2 : l2[i]? = some false := by
    show (if N.has k then l1.set (N.index k) true else l1)[i]? = _
    split
    · rename_i h
      rw [List.getElem?_set_ne (hb h).symm]
      exact h1.2
    · exact h1.2
  rw [List.all_eq_false]
  exact ⟨false, List.mem_of_getElem? h2, by simp⟩

/-- **C74 fails** for ordered dictionaries: with two or more modules, whatever they are, the model raises "Is graph unconnected?" for every input as soon as the first key has two characters. -/
theorem C74_dict_wrong (k₀ : String) (hk₀ : 2 ≤ k₀.toList.length) (f₀ : List V → V) (rest : List (String × (List V → V))) (hrest : rest ≠ [])
    (hn : ((k₀ :: rest.map Prod.fst)).Nodup) (hne : ∀ p ∈ rest, p.1 ≠ "") (hinput : "input" ∉ k₀ :: rest.map Prod.fst) (fuel : ℕ) (x : V) :
    apply [.dict ((k₀, f₀) :: rest)] (fuel + 1) x = some (.error .unconnected) := by
  obtain ⟨b, h1, h2, h3⟩ := sequential_dict (items := (k₀, f₀) :: rest) (last := rest.getLast hrest)
    (by rw [List.getLast?_eq_some_getLast (List.cons_ne_nil _ _), List.getLast_cons hrest]) hn
  unfold apply
  rw [h1]
  simp only [h3, h2, Option.some.injEq]
  generalize hnodes : entriesFrom (.list ["input"]) ((k₀, f₀) :: rest) = nodes
  have hnames : nodes.map Entry.name = k₀ :: rest.map Prod.fst := by rw [← hnodes, entriesFrom_names]; rfl
  have hcons : nodes = ⟨k₀, .list ["input"], f₀⟩ :: entriesFrom (.str k₀) rest := by rw [← hnodes]; rfl
  have hstr : ∀ e ∈ entriesFrom (.str k₀) rest, ∃ s, e.inputs = .str s ∧ s ≠ "" := by
    have : ∀ (rest : List (String × (List V → V))) (k : String), k ≠ "" → (∀ p ∈ rest, p.1 ≠ "") → ∀ e ∈ entriesFrom (.str k) rest, ∃ s, e.inputs = .str s ∧ s ≠ "" := by
      intro rest
      induction rest with
      | nil => intro k _ _ e he; cases he
      | cons p rest ih =>
        intro k hk hp e he
        rw [entriesFrom, List.mem_cons] at he
        rcases he with rfl | he
        · exact ⟨k, rfl, hk⟩
        · exact ih p.1 (hp p List.mem_cons_self) (fun q hq => hp q (List.mem_cons_of_mem _ hq)) e he
    refine this rest k₀ (fun e => ?_) hne
    rw [e] at hk₀
    simp at hk₀
  have hfind : ∀ e ∈ nodes, (nodes.find? fun nd => decide (nd.name = e.name)) = some e := by
    intro e he
    have hnd : (nodes.map Entry.name).Nodup := by rw [hnames]; exact hn
    cases hf : nodes.find? fun nd => decide (nd.name = e.name) with
    | none => rw [List.find?_eq_none] at hf; exact absurd (decide_eq_true rfl) (hf e he)
    | some e' =>
      have h1 := List.mem_of_find?_eq_some hf
      have h2 := List.find?_some hf
      rw [List.inj_on_of_nodup_map hnd h1 he (by simpa using h2)]
  have hk : (nodes.find? fun nd => decide (nd.name = k₀)) = some ⟨k₀, .list ["input"], f₀⟩ := by rw [hcons]; simp
  have hki : k₀ ≠ "input" := fun e => hinput (by rw [e]; exact List.mem_cons_self)
  have hmem : ∀ e ∈ entriesFrom (.str k₀) rest, e ∈ nodes ∧ e.name ≠ k₀ ∧ e.name ≠ "input" := by
    intro e he
    have : e.name ∈ rest.map Prod.fst := by rw [← entriesFrom_names (.str k₀) rest]; exact List.mem_map_of_mem he
    exact ⟨by rw [hcons]; exact List.mem_cons_of_mem _ he, fun h => (List.nodup_cons.1 hn).1 (h ▸ this), fun h => hinput (List.mem_cons_of_mem _ (h ▸ this))⟩
  have hany : ∀ e ∈ nodes, (nodes.any fun nd => decide (nd.name = e.name)) = true := fun e he => List.any_eq_true.2 ⟨e, he, by simp⟩
  unfold forward
  rw [if_pos (by rfl)]
  simp only [List.foldl_cons, List.foldl_nil]
  generalize hs : markAsComputed nodes "input" (initial nodes ["input"] [x]) = s
  have hfirst : findComputable nodes s = some ⟨k₀, .list ["input"], f₀⟩ := by
    unfold findComputable
    rw [hcons, List.find?_cons_of_pos]
    subst hs
    simp only [markAsComputed, initial, hk, Names.has, Names.len, Names.index, if_neg hki]
    simp [hcons]
  have hval : s.values "input" = some x := by subst hs; simp [markAsComputed, initial]
  rw [hfirst, loop]
  simp only [computeNode, Names.iter, Graph.fetch, hval, Except.bind]
  generalize hs' : markAsComputed nodes k₀ { s with values := fun k => if k = k₀ then some (f₀ [x]) else s.values k } = s'
  have hcomp : ∀ e ∈ entriesFrom (.str k₀) rest, s'.computed e.name = some false := by
    intro e he
    obtain ⟨h1, h2, h3⟩ := hmem e he
    subst hs' hs
    simp only [markAsComputed, initial, if_neg h2, if_neg h3, hany e h1, if_true]
  have hlast : Graph.allComputed s' [(rest.getLast hrest).1] = .ok false := by
    have : (rest.getLast hrest).1 ∈ (entriesFrom (.str k₀) rest).map Entry.name := by
      rw [entriesFrom_names]; exact List.mem_map_of_mem (List.getLast_mem hrest)
    obtain ⟨e, he, e'⟩ := List.mem_map.1 this
    rw [← e', Graph.allComputed, hcomp e he]
  have hnone : findComputable nodes s' = none := by
    unfold findComputable
    rw [List.find?_eq_none]
    intro e he
    rw [hcons, List.mem_cons] at he
    rcases he with rfl | he
    · subst hs'
      simp [markAsComputed]
    · obtain ⟨t, ht, ht'⟩ := hstr e he
      have hf := hfind e (hmem e he).1
      have := not_all_available t k₀ ht' hk₀
      have ha : (s'.available e.name).all id = false := by
        subst hs' hs
        simp only [markAsComputed, initial, hf, ht]
        exact this
      rw [ha]; simp
  rw [hlast, hnone]
  cases fuel <;> rfl

/-- Two linear layers named as usual. -/
example : apply (V := ℕ) [.dict [("fc1", unary 0 (· + 1)), ("fc2", unary 0 (· * 10))]] 100 4 = some (.error .unconnected) :=
  C74_dict_wrong "fc1" (by decide) _ [("fc2", unary 0 (· * 10))] (by simp) (by decide) (by decide) (by decide) 99 4

/-- **C74 fails**: a key made of earlier keys silently gives the next module *two* inputs; here the last module is the identity of its first input, and the model returns the output of the first module, not of the third. -/
theorem C74_dict_value_wrong : apply (V := ℕ) [.dict [("a", unary 0 (· + 1)), ("b", unary 0 (· * 10)), ("ab", unary 0 (· + 7)), ("c", unary 0 id)]] 4 4 = some (.ok [5]) ∧
    compose [(· + 1), (· * 10), (· + 7), id] 4 = 57 := by
  constructor <;> decide +kernel

/-- **C74 fails** for a module that follows a dictionary: its input is looked up under the number of the previous argument, which is no module, so the model raises for every input. -/
theorem C74_mixed_wrong (f g : List V → V) (fuel : ℕ) (x : V) : apply [.dict [("a", f)], .module g] (fuel + 1) x = some (.error .unconnected) := by
  cases fuel <;> rfl

end CrypTen.SequentialDict

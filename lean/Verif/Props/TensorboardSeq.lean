import Verif.Props.Tensorboard
import Verif.Props.SequentialDict

/-!
# C103 for `Sequential`
-/

namespace CrypTen.Tensorboard

/-- A layer without modules inside, as most of crypten.nn are. -/
def Obj.Flat (m : Obj) : Prop := m.children = []

theorem below_flat {m : Obj} (h : m.Flat) (path : List String) : below path m = [(path, m)] := by
  obtain ⟨id, c, ps, cs⟩ := m
  have : cs = [] := h
  subst this
  rw [below, belowChildren]

theorem belowChildren_flat (path : List String) : ∀ (cs : List (String × Obj)), (∀ p ∈ cs, p.2.Flat) → belowChildren path cs = cs.map fun p => (path ++ [p.1], p.2)
  | [], _ => by rw [belowChildren]; rfl
  | (name, m) :: cs, h => by
    rw [belowChildren, below_flat (h _ (List.mem_cons_self ..)), belowChildren_flat path cs fun p hp => h p (List.mem_cons_of_mem _ hp)]
    rfl

theorem toString_ne_empty (i : ℕ) : toString i ≠ "" := by
  intro h
  have : i.repr = "" := h
  exact absurd (congrArg String.length this) (by simpa using Nat.repr_ne_empty)

variable {id : ℕ} {ms : List Obj} {inputs : List String}

theorem below_sequential (h : ∀ m ∈ ms, m.Flat) : below [] (sequential id ms inputs).self = ([], (sequential id ms inputs).self) :: ms.zipIdx.map fun p => ([toString p.2], p.1) := by
  unfold sequential
  dsimp only
  rw [below, belowChildren_flat]
  · simp [List.map_map, Function.comp_def]
  · intro p hp
    obtain ⟨q, hq, rfl⟩ := List.mem_map.1 hp
    exact h _ (List.fst_mem_of_mem_zipIdx hq)

/-- A chain of different layers meets the conditions of `C103_graph_partial`, if no input has a number as its name. -/
theorem sequential_plain (hflat : ∀ m ∈ ms, m.Flat) (hids : (id :: ms.map Obj.id).Nodup) (hin : ∀ i ∈ inputs, i ≠ "" ∧ ∀ k : ℕ, i ≠ toString k) : Plain (sequential id ms inputs) := by
  have hb := below_sequential (id := id) (inputs := inputs) hflat
  have hnames : (ms.zipIdx.map fun p => toString p.2) = (List.range ms.length).map toString := by
    apply List.ext_getElem <;> simp
  refine ⟨?_, ?_, ?_, ?_, ?_, ?_⟩
  · rw [hb]
    have e : (ms.zipIdx.map fun p => p.1.id) = ms.map Obj.id := by
      apply List.ext_getElem <;> simp
    rw [List.map_cons, List.map_map]
    show (id :: ms.zipIdx.map fun p => p.1.id).Nodup
    rw [e]
    exact hids
  · rw [hb]
    simp only [List.map_cons, List.map_map, Function.comp_def, dotted]
    rw [hnames, List.nodup_cons]
    refine ⟨?_, List.Nodup.map (fun i j => SequentialDict.toString_inj) List.nodup_range⟩
    intro h
    obtain ⟨i, -, hi⟩ := List.mem_map.1 h
    exact toString_ne_empty i hi
  · intro i hi
    rw [hb]
    simp only [List.map_cons, List.map_map, Function.comp_def, dotted, List.mem_cons, List.mem_map, not_or, not_exists, not_and]
    exact ⟨(hin i hi).1, fun p _ e => (hin i hi).2 p.2 e.symm⟩
  · intro e he
    obtain ⟨p, hp, rfl⟩ := List.mem_map.1 he
    simp only [sequential, Obj.children, List.map_map, List.mem_map]
    exact ⟨p, hp, rfl⟩
  · intro e he x hx
    obtain ⟨⟨m, i⟩, hp, rfl⟩ := List.mem_map.1 he
    dsimp only at hx
    split at hx
    · exact Or.inl hx
    · rename_i h0
      right
      have hi : i < ms.length := by simpa using List.snd_lt_of_mem_zipIdx hp
      simp only [List.mem_singleton] at hx
      subst hx
      simp only [sequential, Obj.children, List.map_map, List.mem_map]
      exact ⟨(ms[i - 1], i - 1), by rw [List.mem_zipIdx_iff_getElem?]; simp, rfl⟩
  · rw [hb]
    simp only [List.flatMap_cons, List.mem_append, not_or, List.mem_flatMap, List.mem_map, not_exists, not_and]
    refine ⟨?_, ?_⟩
    · intro x hx e
      obtain ⟨p, -, rfl⟩ := List.mem_map.1 hx
      exact toString_ne_empty p.2 e
    · rintro x ⟨p, hp, rfl⟩ q hq
      rw [hflat p.1 (List.fst_mem_of_mem_zipIdx hp)] at hq
      simp at hq

theorem mem_children {x : String} {m : Obj} : (x, m) ∈ (sequential id ms inputs).self.children ↔ ∃ k, ∃ h : k < ms.length, x = toString k ∧ m = ms[k] := by
  simp only [sequential, Obj.children, List.mem_map, Prod.mk.injEq, Prod.exists]
  constructor
  · rintro ⟨a, k, hp, rfl, rfl⟩
    rw [List.mem_zipIdx_iff_getElem?] at hp
    obtain ⟨h, e⟩ := List.getElem?_eq_some_iff.1 hp
    exact ⟨k, h, rfl, e.symm⟩
  · rintro ⟨k, h, rfl, rfl⟩
    exact ⟨ms[k], k, by rw [List.mem_zipIdx_iff_getElem?]; simp [h], rfl, rfl⟩

theorem label_layer {k : ℕ} (hk : k < ms.length) : label (sequential id ms inputs) (toString k) = short (ms[k]).cls ++ "_" ++ toString k := by
  unfold label
  cases h : (sequential id ms inputs).self.children.find? fun p => decide (p.1 = toString k) with
  | none => exact absurd (List.find?_eq_none.1 h (toString k, ms[k]) (mem_children.2 ⟨k, hk, rfl, rfl⟩)) (by simp)
  | some p =>
    obtain ⟨x, m⟩ := p
    have h1 := List.find?_some h
    obtain ⟨j, hj, rfl, rfl⟩ := mem_children.1 (List.mem_of_find?_eq_some h)
    simp only [decide_eq_true_eq] at h1
    have := SequentialDict.toString_inj h1
    subst this
    rfl

theorem label_source {x : String} (hx : ∀ k : ℕ, x ≠ toString k) : label (sequential id ms inputs) x = x := by
  unfold label
  cases h : (sequential id ms inputs).self.children.find? fun p => decide (p.1 = x) with
  | none => rfl
  | some p =>
    obtain ⟨y, m⟩ := p
    have h1 := List.find?_some h
    obtain ⟨j, hj, rfl, rfl⟩ := mem_children.1 (List.mem_of_find?_eq_some h)
    simp only [decide_eq_true_eq] at h1
    exact absurd h1.symm (hx j)

/-- **C103 (`Sequential`).** `graph(Sequential(*layers))` shows, for every list of different layers, the inputs and then node `i` for layer `i`, with its class and parameters and an edge from node `i - 1`; the first takes the inputs. -/
theorem C103_sequential (fresh : ℕ) (hflat : ∀ m ∈ ms, m.Flat) (hids : (id :: ms.map Obj.id).Nodup) (hin : ∀ i ∈ inputs, i ≠ "" ∧ ∀ k : ℕ, i ≠ toString k) :
    ∃ nodes : List NodeDef, graph fresh (.graph (sequential id ms inputs)) = .ok (inputs.map Variable ++ nodes) ∧ nodes.length = ms.length ∧
      ∀ i (h : i < ms.length), nodes[i]? = some ⟨short (ms[i]).cls ++ "_" ++ toString i, (ms[i]).cls, if i = 0 then inputs else [short (ms[i - 1]).cls ++ "_" ++ toString (i - 1)],
        some ("; ".intercalate ((parameters ms[i]).map fun p => p.1 ++ ": " ++ p.2))⟩ := by
  obtain ⟨nodes, h1, h2⟩ := C103_graph_partial fresh (sequential_plain hflat hids hin)
  have hl : nodes.length = ms.length := by
    rw [← h2.length_eq]; simp [sequential]
  refine ⟨nodes, h1, hl, fun i hi => ?_⟩
  have hi' : i < nodes.length := by omega
  have hg : i < (sequential id ms inputs).graph.length := by simpa [sequential] using hi
  have hs := (List.forall₂_iff_get.1 h2).2 i hg hi'
  have he : (sequential id ms inputs).graph.get ⟨i, hg⟩ = (toString i, if i = 0 then inputs else [toString (i - 1)]) := by simp [sequential]
  rw [he] at hs
  obtain ⟨m, hm, hv⟩ := hs
  obtain ⟨j, hj, e, rfl⟩ := mem_children.1 hm
  have := SequentialDict.toString_inj e
  subst this
  rw [List.getElem?_eq_getElem hi']
  refine congrArg some (hv.trans ?_)
  congr 1
  dsimp only
  split
  · rename_i h0
    conv_rhs => rw [← List.map_id inputs]
    exact List.map_congr_left fun x hx => label_source (hin x hx).2
  · rw [List.map_singleton, label_layer (by omega)]

example : ∃ nodes : List NodeDef, graph 9 (.graph (sequential 0 [linear 1, relu 2, linear 3])) = .ok (["input"].map Variable ++ nodes) ∧ nodes.length = 3 := by
  obtain ⟨nodes, h1, h2, -⟩ := C103_sequential (id := 0) (ms := [linear 1, relu 2, linear 3]) (inputs := ["input"]) 9 (by simp [Obj.Flat, linear, relu, Obj.children]) (by decide)
    (by simpa using fun k => (SequentialDict.toString_ne_input k).symm)
  exact ⟨nodes, h1, h2⟩

end CrypTen.Tensorboard

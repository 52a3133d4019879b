import Verif.Props.NnModule

/-!
# C46: saving and loading the state of a model
-/

namespace CrypTen.Nn

theorem stateDictChildren_eq (pre : String) : ∀ cs : List (String × Mod), stateDictChildren pre cs = cs.flatMap fun c => stateDict (pre ++ c.1 ++ ".") c.2
  | [] => rfl
  | (_, _) :: cs => by rw [stateDictChildren, stateDictChildren_eq pre cs]; rfl

theorem joinPath_cons (k : String) : ∀ {l : List String}, l ≠ [] → joinPath (k :: l) = k ++ "." ++ joinPath l
  | [], h => absurd rfl h
  | _ :: _, _ => rfl

theorem mem_stateDict (n : ℕ) : ∀ (m : Mod) (pre k : String) (v : Val), m.height ≤ n →
    ((k, v) ∈ stateDict pre m ↔ ∃ path, path ≠ [] ∧ k = pre ++ joinPath path ∧ (m.HasParam path v ∨ m.HasBuffer path v)) := by
  induction n with
  | zero => intro m pre k v h; obtain ⟨e, ps, bs, cs⟩ := m; rw [Mod.height] at h; omega
  | succ n ih =>
    intro m pre k v h
    obtain ⟨e, ps, bs, cs⟩ := m
    rw [Mod.height] at h
    rw [stateDict, stateDictChildren_eq, List.mem_append, List.mem_append, List.mem_map, List.mem_map, List.mem_flatMap]
    constructor
    · rintro ((⟨⟨k', v'⟩, hm, heq⟩ | ⟨⟨k', v'⟩, hm, heq⟩) | ⟨c, hc, hm⟩)
      · obtain ⟨rfl, rfl⟩ := Prod.mk.inj heq
        exact ⟨[k'], by simp, rfl, Or.inl (.own hm)⟩
      · obtain ⟨rfl, rfl⟩ := Prod.mk.inj heq
        exact ⟨[k'], by simp, rfl, Or.inr (.own hm)⟩
      · rw [ih c.2 _ k v (by have := height_le_children hc; omega)] at hm
        obtain ⟨path, hne, rfl, hp⟩ := hm
        refine ⟨c.1 :: path, by simp, ?_, hp.imp (.child hc) (.child hc)⟩
        rw [joinPath_cons _ hne]; simp only [String.append_assoc]
    · rintro ⟨path, hne, rfl, hp | hp⟩
      · cases hp with
        | own hm => exact Or.inl (Or.inl ⟨_, hm, rfl⟩)
        | @child _ _ _ _ k m path _ hm hp =>
          refine Or.inr ⟨_, hm, (ih m _ _ v (by have := height_le_children hm; simp only at this; omega)).2 ⟨path, ?_, ?_, Or.inl hp⟩⟩
          · rintro rfl; cases hp
          · rw [joinPath_cons _ (by rintro rfl; cases hp)]; simp only [String.append_assoc]
      · cases hp with
        | own hm => exact Or.inl (Or.inr ⟨_, hm, rfl⟩)
        | @child _ _ _ _ k m path _ hm hp =>
          refine Or.inr ⟨_, hm, (ih m _ _ v (by have := height_le_children hm; simp only at this; omega)).2 ⟨path, ?_, ?_, Or.inr hp⟩⟩
          · rintro rfl; cases hp
          · rw [joinPath_cons _ (by rintro rfl; cases hp)]; simp only [String.append_assoc]

/-- **C46 (state_dict).** The dictionary contains every parameter and every buffer of the model and its descendants under its dotted path, and nothing else. -/
theorem C46_state_dict (m : Mod) (k : String) (v : Val) :
    (k, v) ∈ stateDict "" m ↔ ∃ path, path ≠ [] ∧ k = joinPath path ∧ (m.HasParam path v ∨ m.HasBuffer path v) := by
  rw [mem_stateDict _ m "" k v le_rfl]; simp

example : stateDict "" sample = [("weight", .plain ⟨[2], [3, 5]⟩), ("shape", .other 4), ("bn.weight", .plain ⟨[1], [7]⟩), ("bn.running_mean", .plain ⟨[1], [11]⟩)] := by
  decide +kernel

/-! ## Loading -/

theorem lookup_of_nodup (d : List (String × Val)) (h : (d.map Prod.fst).Nodup) {k : String} {v : Val} (hm : (k, v) ∈ d) : lookup d k = some v := by
  rw [lookup]
  have h' : (d.reverse.map Prod.fst).Nodup := by rw [List.map_reverse]; exact List.pairwise_reverse.2 (h.imp fun hab => Ne.symm hab)
  have hm' : (k, v) ∈ d.reverse := List.mem_reverse.2 hm
  generalize d.reverse = l at h' hm'
  induction l with
  | nil => cases hm'
  | cons x l ih =>
    rw [List.map_cons, List.nodup_cons] at h'
    rcases List.mem_cons.1 hm' with rfl | hm'
    · simp
    · rw [List.find?_cons_of_neg]
      · exact ih h'.2 hm'
      · intro hx
        exact h'.1 (List.mem_map.2 ⟨(k, v), hm', (of_decide_eq_true hx).symm⟩)

/-- A value is a torch tensor, or a CrypTensor, according to the flag. -/
def OfKind (e : Bool) (v : Val) : Prop := if e then ∃ t, v = .enc t else ∃ t, v = .plain t

theorem copyParam_ok (d : List (String × Val)) (e : Bool) (key : String) (p q : Val) (hk : OfKind e q) (hs : SameKind p q) (hl : lookup d key = some q) :
    copyParam d e key p = some q := by
  unfold copyParam
  rw [hl]
  cases e
  · obtain ⟨t, rfl⟩ := hk
    cases p with
    | plain s => exact if_pos ⟨(show s.shape = t.shape from hs).symm, rfl⟩
    | enc s => cases hs
    | other s => cases hs
  · obtain ⟨t, rfl⟩ := hk
    cases p with
    | plain s => cases hs
    | enc s => exact if_pos ⟨(show s.shape = t.shape from hs).symm, rfl⟩
    | other s => cases hs

theorem copyParams_ok (d : List (String × Val)) (e : Bool) (pre : String) : ∀ (ps qs : List (String × Val)),
    List.Forall₂ (fun p q => p.1 = q.1 ∧ SameKind p.2 q.2) ps qs → (∀ q ∈ qs, OfKind e q.2 ∧ lookup d (pre ++ q.1) = some q.2) → copyParams d e pre ps = some qs
  | [], [], _, _ => rfl
  | (k, p) :: ps, (k', q) :: qs, h, hl => by
    obtain ⟨⟨hk, hs⟩, h'⟩ := List.forall₂_cons.1 h
    dsimp only at hk hs; subst hk
    obtain ⟨h1, h2⟩ := hl (k, q) (List.mem_cons_self ..)
    rw [copyParams, copyParam_ok d e _ p q h1 hs h2, copyParams_ok d e pre ps qs h' fun x hx => hl x (List.mem_cons_of_mem _ hx)]
  | [], _ :: _, h, _ => by cases h
  | _ :: _, [], h, _ => by cases h

theorem namedParametersChildren_eq (pre : String) : ∀ cs : List (String × Mod), namedParametersChildren pre cs = cs.flatMap fun c => namedParameters (pre ++ c.1 ++ ".") c.2
  | [] => rfl
  | (_, _) :: cs => by rw [namedParametersChildren, namedParametersChildren_eq pre cs]; rfl

/-- The dictionary has the parameters of `m`, all of the given kind. -/
def Has (d : List (String × Val)) (e : Bool) (pre : String) (m : Mod) : Prop := ∀ x ∈ namedParameters pre m, OfKind e x.2 ∧ lookup d x.1 = some x.2

theorem Has.own {d : List (String × Val)} {e e' : Bool} {pre : String} {ps bs : List (String × Val)} {cs : List (String × Mod)} (h : Has d e pre (.mk e' ps bs cs)) :
    ∀ q ∈ ps, OfKind e q.2 ∧ lookup d (pre ++ q.1) = some q.2 := fun q hq =>
  h (pre ++ q.1, q.2) (by rw [namedParameters]; exact List.mem_append_left _ (List.mem_map.2 ⟨q, hq, rfl⟩))

theorem Has.child {d : List (String × Val)} {e e' : Bool} {pre : String} {ps bs : List (String × Val)} {cs : List (String × Mod)} (h : Has d e pre (.mk e' ps bs cs)) :
    ∀ c ∈ cs, Has d e (pre ++ c.1 ++ ".") c.2 := fun c hc x hx =>
  h x (by rw [namedParameters, namedParametersChildren_eq]; exact List.mem_append_right _ (List.mem_flatMap.2 ⟨c, hc, hx⟩))

theorem loadOne_ok (d : List (String × Val)) (e : Bool) (n : ℕ) : ∀ (m m0 : Mod) (pre : String), m.height ≤ n → m.Matches m0 → Has d e pre m0 →
    loadOne d e pre m = some (m.withParams m0) := by
  induction n with
  | zero => intro m m0 pre h; obtain ⟨e, ps, bs, cs⟩ := m; rw [Mod.height] at h; omega
  | succ n ih =>
    rintro ⟨e1, ps, bs, cs⟩ ⟨e2, ps', bs', cs'⟩ pre h hm hd
    rw [Mod.height] at h
    rw [Mod.Matches] at hm
    have hc : ∀ (cs cs' : List (String × Mod)), heightChildren cs ≤ n → MatchesChildren cs cs' → (∀ c ∈ cs', Has d e (pre ++ c.1 ++ ".") c.2) →
        loadOneChildren d e pre cs = some (withParamsChildren cs cs') := by
      intro cs
      induction cs with
      | nil => intro cs' _ _ _; rw [loadOneChildren]; cases cs' <;> simp [withParamsChildren]
      | cons c cs ihc =>
        intro cs' hh hm hd
        obtain ⟨k, m⟩ := c
        cases cs' with
        | nil => exact hm.elim
        | cons c' cs' =>
          obtain ⟨k', m'⟩ := c'
          obtain ⟨rfl, hm1, hm2⟩ := hm
          rw [heightChildren] at hh
          rw [loadOneChildren, ih m m' _ (by omega) hm1 (hd (k, m') (List.mem_cons_self ..)), ihc cs' (by omega) hm2 fun c hc => hd c (List.mem_cons_of_mem _ hc)]
          rfl
    rw [loadOne, copyParams_ok d e pre ps ps' hm.1 hd.own, hc cs cs' (by omega) hm.2 hd.child]
    rfl

theorem sameKind_refl {e : Bool} {v : Val} (h : OfKind e v) : SameKind v v := by
  cases e <;> (obtain ⟨t, rfl⟩ := h; rfl)

/-- After the parameters have been taken over, the two models still match and taking them over again changes nothing. -/
theorem withParams_again (d : List (String × Val)) (e : Bool) (n : ℕ) : ∀ (m m0 : Mod) (pre : String), m.height ≤ n → m.Matches m0 → Has d e pre m0 →
    (m.withParams m0).Matches m0 ∧ (m.withParams m0).withParams m0 = m.withParams m0 ∧ (m.withParams m0).height = m.height ∧ (m.withParams m0).encrypted = m.encrypted := by
  induction n with
  | zero => intro m m0 pre h; obtain ⟨e, ps, bs, cs⟩ := m; rw [Mod.height] at h; omega
  | succ n ih =>
    rintro ⟨e1, ps, bs, cs⟩ ⟨e2, ps', bs', cs'⟩ pre h hm hd
    rw [Mod.height] at h
    rw [Mod.Matches] at hm
    have hc : ∀ (cs cs' : List (String × Mod)), heightChildren cs ≤ n → MatchesChildren cs cs' → (∀ c ∈ cs', Has d e (pre ++ c.1 ++ ".") c.2) →
        MatchesChildren (withParamsChildren cs cs') cs' ∧ withParamsChildren (withParamsChildren cs cs') cs' = withParamsChildren cs cs' ∧
          heightChildren (withParamsChildren cs cs') = heightChildren cs := by
      intro cs
      induction cs with
      | nil => intro cs' _ hm _; cases cs' with
        | nil => simp [withParamsChildren, MatchesChildren]
        | cons c cs' => exact hm.elim
      | cons c cs ihc =>
        intro cs' hh hm hd
        obtain ⟨k, m⟩ := c
        cases cs' with
        | nil => exact hm.elim
        | cons c' cs' =>
          obtain ⟨k', m'⟩ := c'
          obtain ⟨rfl, hm1, hm2⟩ := hm
          rw [heightChildren] at hh
          obtain ⟨a1, a2, a3, -⟩ := ih m m' _ (by omega) hm1 (hd (k, m') (List.mem_cons_self ..))
          obtain ⟨b1, b2, b3⟩ := ihc cs' (by omega) hm2 fun c hc => hd c (List.mem_cons_of_mem _ hc)
          rw [withParamsChildren, MatchesChildren, withParamsChildren, heightChildren, heightChildren, a2, b2, a3, b3]
          exact ⟨⟨rfl, a1, b1⟩, rfl, rfl⟩
    obtain ⟨c1, c2, c3⟩ := hc cs cs' (by omega) hm.2 hd.child
    rw [Mod.withParams, Mod.Matches, Mod.withParams, Mod.height, Mod.height, c2, c3]
    refine ⟨⟨?_, c1⟩, rfl, rfl, rfl⟩
    rw [List.forall₂_same]
    exact fun x hx => ⟨rfl, sameKind_refl (hd.own x hx).1⟩

/-- The flags of all modules have one value. -/
def Uniform (e : Bool) (m : Mod) : Prop := m.Every fun e' _ _ => e' = e

theorem uniform_withParams (e : Bool) (n : ℕ) : ∀ (m m0 : Mod), m.height ≤ n → Uniform e m → Uniform e (m.withParams m0) := by
  induction n with
  | zero => intro m m0 h; obtain ⟨e, ps, bs, cs⟩ := m; rw [Mod.height] at h; omega
  | succ n ih =>
    rintro ⟨e1, ps, bs, cs⟩ ⟨e2, ps', bs', cs'⟩ h hu
    rw [Mod.height] at h
    rw [Uniform, Mod.Every] at hu
    rw [Mod.withParams, Uniform, Mod.Every]
    refine ⟨hu.1, ?_⟩
    have hu := hu.2
    have hh : heightChildren cs ≤ n := by omega
    clear h
    induction cs generalizing cs' with
    | nil => cases cs' <;> simp [withParamsChildren, EveryChild]
    | cons c cs ihc =>
      obtain ⟨k, m⟩ := c
      cases cs' with
      | nil => rw [withParamsChildren]; exact hu; simp
      | cons c' cs' =>
        rw [heightChildren] at hh
        rw [EveryChild] at hu
        rw [withParamsChildren, EveryChild]
        exact ⟨ih m c'.2 (by omega) hu.1, ihc cs' ⟨‹e1 = e ∧ _›.1, hu.2⟩ hu.2 (by omega)⟩

theorem mem_namedParameters (n : ℕ) : ∀ (m : Mod) (pre k : String) (v : Val), m.height ≤ n → (k, v) ∈ namedParameters pre m →
    ∃ path, k = pre ++ joinPath path ∧ path ≠ [] ∧ m.HasParam path v := by
  induction n with
  | zero => intro m pre k v h; obtain ⟨e, ps, bs, cs⟩ := m; rw [Mod.height] at h; omega
  | succ n ih =>
    intro m pre k v h
    obtain ⟨e, ps, bs, cs⟩ := m
    rw [Mod.height] at h
    rw [namedParameters, namedParametersChildren_eq, List.mem_append, List.mem_map, List.mem_flatMap]
    rintro (⟨⟨k', v'⟩, hm, heq⟩ | ⟨c, hc, hm⟩)
    · obtain ⟨rfl, rfl⟩ := Prod.mk.inj heq
      exact ⟨[k'], rfl, by simp, .own hm⟩
    · obtain ⟨path, rfl, hne, hp⟩ := ih c.2 _ k v (by have := height_le_children hc; omega) hm
      refine ⟨c.1 :: path, ?_, by simp, .child hc hp⟩
      rw [joinPath_cons _ hne]; simp only [String.append_assoc]

theorem loadRec_ok (d : List (String × Val)) (e : Bool) : ∀ (fuel : ℕ) (m m0 : Mod) (pre : String), m.height ≤ fuel → Uniform e m → m.Matches m0 → Has d e pre m0 →
    loadRec d fuel pre m = some (m.withParams m0) := by
  intro fuel
  induction fuel with
  | zero => intro m m0 pre h; obtain ⟨e, ps, bs, cs⟩ := m; rw [Mod.height] at h; omega
  | succ fuel ih =>
    rintro ⟨e1, ps, bs, cs⟩ ⟨e2, ps', bs', cs'⟩ pre h hu hm hd
    have hl := loadOne_ok d e _ _ _ pre le_rfl hm hd
    rw [Mod.height] at h
    rw [Mod.Matches] at hm
    rw [Uniform, Mod.Every, everyChild_iff] at hu
    obtain ⟨rfl, hu⟩ := hu
    have hc : ∀ (cs cs' : List (String × Mod)), heightChildren cs ≤ fuel → (∀ c ∈ cs, Uniform e1 c.2) → MatchesChildren cs cs' → (∀ c ∈ cs', Has d e1 (pre ++ c.1 ++ ".") c.2) →
        loopChildren (fun k => loadRec d fuel (pre ++ k ++ ".")) (withParamsChildren cs cs') = some (withParamsChildren cs cs') := by
      intro cs
      induction cs with
      | nil => intro cs' _ _ _ _; cases cs' <;> simp [withParamsChildren, loopChildren]
      | cons c cs ihc =>
        intro cs' hh hu hm hd
        obtain ⟨k, m⟩ := c
        cases cs' with
        | nil => exact hm.elim
        | cons c' cs' =>
          obtain ⟨k', m'⟩ := c'
          obtain ⟨rfl, hm1, hm2⟩ := hm
          rw [heightChildren] at hh
          have hd1 := hd (k, m') (List.mem_cons_self ..)
          obtain ⟨a1, a2, a3, -⟩ := withParams_again d e1 _ m m' _ le_rfl hm1 hd1
          rw [withParamsChildren, loopChildren, ih _ m' _ (by rw [a3]; omega) (uniform_withParams e1 _ m m' le_rfl (hu (k, m) (List.mem_cons_self ..))) a1 hd1,
            ihc cs' (by omega) (fun c hc => hu c (List.mem_cons_of_mem _ hc)) hm2 fun c hc => hd c (List.mem_cons_of_mem _ hc), a2]
    rw [loadRec]
    show (match loadOne d e1 pre _ with | some (.mk e ps bs cs) => _ | none => none) = _
    rw [hl, Mod.withParams]
    dsimp only
    rw [hc cs cs' (by omega) hu hm.2 hd.child]

/-- **C46 (state_dict, load_state_dict).** The state of any model `m0`, encrypted or not, is loaded into any model `m` of the same architecture, strictly or not: the result is `m` with exactly the
parameters of `m0`. Missing from the full claim: the buffers, which stay those of `m` (refuted below). -/
theorem C46_load_partial (e : Bool) (m m0 : Mod) (strict : Bool) (fuel : ℕ) (hf : m.height ≤ fuel) (hu : Uniform e m) (hm : m.Matches m0)
    (hk : ∀ path v, m0.HasParam path v → OfKind e v) (hn : ((stateDict "" m0).map Prod.fst).Nodup) :
    loadStateDict fuel (some 1) strict (stateDict "" m0) m = some (m.withParams m0) := by
  rw [loadStateDict, if_neg (by simp)]
  refine loadRec_ok _ e fuel m m0 "" hf hu hm fun x hx => ?_
  have hp : ∃ path, x.1 = "" ++ joinPath path ∧ path ≠ [] ∧ m0.HasParam path x.2 := mem_namedParameters _ m0 "" x.1 x.2 le_rfl hx
  obtain ⟨path, hx1, hne, hp⟩ := hp
  refine ⟨hk path _ hp, lookup_of_nodup _ hn ?_⟩
  rw [mem_stateDict _ m0 "" x.1 x.2 le_rfl]
  exact ⟨path, hne, hx1, Or.inl hp⟩

/-- A second model of the same architecture. -/
def sample2 : Mod :=
  .mk false [("weight", .plain ⟨[2], [0, 0]⟩)] [("shape", .other 4)] [("bn", .mk false [("weight", .plain ⟨[1], [0]⟩)] [("running_mean", .plain ⟨[1], [0]⟩)] [])]

theorem sample_kind (path : List String) (v : Val) (h : sample.HasParam path v) : OfKind false v := by
  unfold sample at h
  cases h with
  | own h => simp only [List.mem_singleton, Prod.mk.injEq] at h; exact ⟨_, h.2⟩
  | child h h' =>
    simp only [List.mem_singleton, Prod.mk.injEq] at h
    obtain ⟨rfl, rfl⟩ := h
    cases h' with
    | own h => simp only [List.mem_singleton, Prod.mk.injEq] at h; exact ⟨_, h.2⟩
    | child h _ => cases h

theorem sample_load (strict : Bool) : loadStateDict 2 (some 1) strict (stateDict "" sample) sample2 = some (sample2.withParams sample) := by
  refine C46_load_partial false sample2 sample strict 2 (by decide) ?_ ?_ sample_kind (by decide +kernel)
  · simp [Uniform, sample2, Mod.Every, EveryChild]
  · simp [sample, sample2, Mod.Matches, MatchesChildren, SameKind]

/-- **C46 is false for buffers**: saving a model and loading it into another one of the same architecture, strictly, leaves the other model's running mean. -/
theorem C46_buffers_not_loaded_wrong : ∃ (m m0 m' : Mod) (t : Tensor), m0.HasBuffer ["bn", "running_mean"] (.plain t) ∧
    loadStateDict 2 (some 1) true (stateDict "" m0) m = some m' ∧ ¬ m'.HasBuffer ["bn", "running_mean"] (.plain t) := by
  refine ⟨sample2, sample, _, ⟨[1], [11]⟩, .child (List.mem_singleton.2 rfl) (.own (List.mem_singleton.2 rfl)), sample_load true, ?_⟩
  intro h
  unfold sample2 sample at h
  simp only [Mod.withParams, withParamsChildren] at h
  cases h with
  | child h h' =>
    simp only [List.mem_singleton, Prod.mk.injEq] at h
    obtain ⟨-, rfl⟩ := h
    cases h' with
    | own h => simp at h
    | child h _ => cases h

/-- **C46 is false for superfluous keys**: "the keys must exactly match", but strict loading accepts a dictionary with keys the model does not have. -/
theorem C46_strict_extra_key_wrong : ∃ (m m' : Mod) (d : List (String × Val)) (k : String) (v : Val), (k, v) ∈ d ∧
    (∀ w, (k, w) ∉ stateDict "" m) ∧ loadStateDict 2 (some 1) true d m = some m' := by
  refine ⟨.mk false [("w", .plain ⟨[1], [0]⟩)] [] [], _, [("w", .plain ⟨[1], [3]⟩), ("extra", .plain ⟨[1], [5]⟩)], "extra", _, List.mem_cons_of_mem _ (List.mem_singleton.2 rfl), ?_, rfl⟩
  intro w h
  simp [stateDict, stateDictChildren] at h

/-- Loading that succeeds has found every parameter, with the right shape and kind. -/
theorem copyParam_some {d : List (String × Val)} {e : Bool} {key : String} {p v : Val} (h : copyParam d e key p = some v) : lookup d key = some v ∧ SameKind p v ∧ OfKind e v := by
  unfold copyParam at h
  split at h
  · split at h
    · obtain rfl := Option.some.inj h
      rename_i _ hl hs
      exact ⟨hl, hs.1.symm, by rw [hs.2]; exact ⟨_, rfl⟩⟩
    · cases h
  · split at h
    · obtain rfl := Option.some.inj h
      rename_i _ hl hs
      exact ⟨hl, hs.1.symm, by rw [hs.2]; exact ⟨_, rfl⟩⟩
    · cases h
  · cases h

theorem copyParams_some {d : List (String × Val)} {e : Bool} {pre : String} : ∀ {ps qs : List (String × Val)}, copyParams d e pre ps = some qs →
    ∀ p ∈ ps, ∃ v, lookup d (pre ++ p.1) = some v ∧ SameKind p.2 v ∧ OfKind e v
  | [], _, _, p, hp => by cases hp
  | (k, q) :: ps, qs, h, p, hp => by
    rw [copyParams] at h
    split at h
    · rename_i v l' h1 h2
      rcases List.mem_cons.1 hp with rfl | hp
      · exact ⟨v, copyParam_some h1⟩
      · exact copyParams_some h2 p hp
    · cases h

theorem loadOne_some (d : List (String × Val)) (e : Bool) (n : ℕ) : ∀ (m m' : Mod) (pre : String), m.height ≤ n → loadOne d e pre m = some m' →
    ∀ path p, m.HasParam path p → ∃ v, lookup d (pre ++ joinPath path) = some v ∧ SameKind p v ∧ OfKind e v := by
  induction n with
  | zero => intro m m' pre h; obtain ⟨e, ps, bs, cs⟩ := m; rw [Mod.height] at h; omega
  | succ n ih =>
    rintro ⟨e1, ps, bs, cs⟩ m' pre h hl path p hp
    rw [Mod.height] at h
    rw [loadOne] at hl
    split at hl
    · rename_i ps' cs' h1 h2
      have hc : ∀ (cs cs' : List (String × Mod)), loadOneChildren d e pre cs = some cs' → ∀ c ∈ cs, ∃ m', loadOne d e (pre ++ c.1 ++ ".") c.2 = some m' := by
        intro cs
        induction cs with
        | nil => intro _ _ c hc; cases hc
        | cons c cs ihc =>
          intro cs' hl x hx
          obtain ⟨k, m⟩ := c
          rw [loadOneChildren] at hl
          split at hl
          · rename_i m' l' g1 g2
            rcases List.mem_cons.1 hx with rfl | hx
            · exact ⟨m', g1⟩
            · exact ihc l' g2 x hx
          · cases hl
      cases hp with
      | own hm => exact copyParams_some h1 _ hm
      | @child _ _ _ _ k m path _ hm hp =>
        obtain ⟨m', hm'⟩ := hc cs cs' h2 _ hm
        obtain ⟨v, hv, hs⟩ := ih m m' _ (by have := height_le_children hm; simp only at this; omega) hm' path p hp
        refine ⟨v, ?_, hs⟩
        rw [joinPath_cons _ (by rintro rfl; cases hp), ← hv]
        simp only [String.append_assoc]
    · cases hl

/-- **C46 (strict loading rejects).** If loading succeeds, the dictionary has every parameter of the model under its path, of the same shape and encrypted exactly if the model is; and with `strict`
the version is right. (In other words, a missing key, a wrong shape, a plaintext parameter for an encrypted model, an encrypted parameter for a plaintext model, or a wrong version raises.) -/
theorem C46_load_rejects_partial (fuel : ℕ) (version : Option ℤ) (strict : Bool) (d : List (String × Val)) (m m' : Mod) (h : loadStateDict fuel version strict d m = some m') :
    (strict = true → version = some 1) ∧ ∀ path p, m.HasParam path p → ∃ v, lookup d (joinPath path) = some v ∧ SameKind p v ∧ OfKind m.encrypted v := by
  rw [loadStateDict] at h
  split at h
  · cases h
  · rename_i hs
    refine ⟨fun h1 => by by_contra h2; exact hs ⟨h1, h2⟩, ?_⟩
    cases fuel with
    | zero => cases h
    | succ fuel =>
      rw [loadRec] at h
      split at h
      · rename_i e ps bs cs hl
        intro path p hp
        simpa using loadOne_some d _ _ m _ "" le_rfl hl path p hp
      · cases h

example : loadStateDict 2 (some 1) true [("weight", .plain ⟨[3], [0, 0, 0]⟩), ("bn.weight", .plain ⟨[1], [7]⟩)] sample = none := by decide +kernel

end CrypTen.Nn

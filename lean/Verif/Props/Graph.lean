import Verif.Spec.Graph
import Mathlib.Tactic.Linarith
import Mathlib.Data.List.Perm.Basic
import Mathlib.Data.List.Induction
import Mathlib.Data.List.Nodup

/-!
# C45: a graph model computes the composition of its modules
-/

namespace CrypTen.Graph

variable {V : Type}

/-! ## Whatever is returned is right -/

private theorem mark_values (nodes : List (Node V)) (name : String) (s : St V) : (markAsComputed nodes name s).values = s.values := rfl

private theorem store_values (nodes : List (Node V)) (s : St V) (kv : String × V) : (store nodes s kv).values = fun k => if k = kv.1 then some kv.2 else s.values k := rfl

private theorem fetch_ok {s : St V} : ∀ {ks : List String} {vs : List V}, fetch s ks = .ok vs → ks.length = vs.length ∧ ∀ p ∈ ks.zip vs, s.values p.1 = some p.2
  | [], vs, h => by cases h; simp
  | k :: ks, vs, h => by
    unfold fetch at h
    cases hk : s.values k with
    | none => rw [hk] at h; cases h
    | some v =>
      rw [hk] at h
      dsimp only at h
      cases hr : fetch s ks with
      | error e => rw [hr] at h; cases h
      | ok ws =>
        rw [hr] at h
        cases h
        obtain ⟨h1, h2⟩ := fetch_ok hr
        refine ⟨by simp [h1], fun p hp => ?_⟩
        rw [List.zip_cons_cons, List.mem_cons] at hp
        rcases hp with rfl | hp
        exacts [hk, h2 p hp]

private theorem foldl_mark_values (nodes : List (Node V)) : ∀ (l : List String) (s : St V), (l.foldl (fun s k => markAsComputed nodes k s) s).values = s.values
  | [], _ => rfl
  | _ :: l, s => by rw [List.foldl_cons, foldl_mark_values nodes l]; rfl

section sound
variable (nodes : List (Node V)) (asTuple : V → Option (List V)) (inputs : List (String × V))

private abbrev Sound (s : St V) : Prop := ∀ k v, s.values k = some v → Evaluates (· ∈ nodes) asTuple inputs k v

private theorem sound_store {s : St V} (h : Sound nodes asTuple inputs s) {kv : String × V} (hkv : Evaluates (· ∈ nodes) asTuple inputs kv.1 kv.2) : Sound nodes asTuple inputs (store nodes s kv) := by
  intro k v hk
  rw [store_values] at hk
  dsimp only at hk
  split at hk
  · next e => subst e; cases hk; exact hkv
  · exact h k v hk

private theorem sound_foldl : ∀ (l : List (String × V)) (s : St V), Sound nodes asTuple inputs s → (∀ kv ∈ l, Evaluates (· ∈ nodes) asTuple inputs kv.1 kv.2) →
    Sound nodes asTuple inputs (l.foldl (store nodes) s)
  | [], _, h, _ => h
  | kv :: l, _, h, hl => sound_foldl l _ (sound_store nodes asTuple inputs h (hl kv (by simp))) fun p hp => hl p (by simp [hp])

private theorem sound_compute {s t : St V} (h : Sound nodes asTuple inputs s) {nd : Node V} (hnd : nd ∈ nodes) (he : computeNode nodes asTuple s nd = .ok t) : Sound nodes asTuple inputs t := by
  unfold computeNode at he
  cases hf : fetch s nd.inputs with
  | error e => rw [hf] at he; cases he
  | ok ins =>
    rw [hf] at he
    dsimp only at he
    obtain ⟨h1, h2⟩ := fetch_ok hf
    have hin : ∀ p ∈ nd.inputs.zip ins, Evaluates (· ∈ nodes) asTuple inputs p.1 p.2 := fun p hp => h _ _ (h2 p hp)
    split at he
    · next ho => cases he; exact sound_store nodes asTuple inputs h (.single hnd (.inl ho) h1 hin)
    · next o ho =>
      split at he
      · next e => cases he; exact sound_store nodes asTuple inputs h (.single hnd (.inr (by rw [ho, e])) h1 hin)
      · cases he
    · next outs hne ho =>
      split at he
      · cases he
      · next vs hv =>
        split at he
        · next hl =>
          cases he
          exact sound_foldl nodes asTuple inputs _ _ h fun kv hkv => .tuple hnd ho (fun e => by
            match outs, e with
            | [o], _ => exact hne o rfl) h1 hin hv hl hkv
        · cases he

private theorem sound_clear {s : St V} (h : Sound nodes asTuple inputs s) : Sound nodes asTuple inputs (clearUnused nodes s) := by
  intro k v hk
  unfold clearUnused at hk
  dsimp only at hk
  split at hk
  · exact h k v hk
  · cases hk

private theorem loop_sound (outs : List String) : ∀ (fuel : ℕ) (s : St V) (nd? : Option (Node V)) (rs : List V), Sound nodes asTuple inputs s → (∀ nd, nd? = some nd → nd ∈ nodes) →
    loop nodes asTuple outs fuel s nd? = .ok rs → outs.length = rs.length ∧ ∀ p ∈ outs.zip rs, Evaluates (· ∈ nodes) asTuple inputs p.1 p.2
  | fuel, s, none, rs, _, _, h => by cases fuel <;> (unfold loop at h; cases h)
  | 0, s, some nd, rs, _, _, h => by unfold loop at h; cases h
  | fuel + 1, s, some nd, rs, hs, hnd, h => by
    unfold loop at h
    cases hc : computeNode nodes asTuple s nd with
    | error e => rw [hc] at h; cases h
    | ok t =>
      rw [hc] at h
      dsimp only at h
      have ht := sound_compute nodes asTuple inputs hs (hnd nd rfl) hc
      split at h
      · cases h
      · obtain ⟨h1, h2⟩ := fetch_ok h
        exact ⟨h1, fun p hp => ht _ _ (h2 p hp)⟩
      · exact loop_sound outs fuel _ _ rs (sound_clear nodes asTuple inputs ht) (fun nd' e => List.mem_of_find?_eq_some e) h

end sound

private theorem initial_sound (nodes : List (Node V)) (asTuple : V → Option (List V)) (inputNames : List String) (args : List V) :
    Sound nodes asTuple (inputNames.zip args) (initial nodes inputNames args) := by
  intro k v h
  unfold initial at h
  dsimp only at h
  rw [Option.map_eq_some_iff] at h
  obtain ⟨p, hp, rfl⟩ := h
  have h1 := List.mem_of_find?_eq_some hp
  have h2 : p.1 = k := by simpa using List.find?_some hp
  exact .input (by rw [← h2]; simpa using h1)

/-- **C45.** For every graph, cyclic or not, with any modules and any number of outputs: if `forward` returns, it returns the values obtained by recursively evaluating the named outputs. -/
theorem C45_sound (nodes : List (Node V)) (asTuple : V → Option (List V)) (inputNames outputNames : List String) (fuel : ℕ) (args rs : List V)
    (h : forward nodes asTuple inputNames outputNames fuel args = .ok rs) :
    outputNames.length = rs.length ∧ ∀ p ∈ outputNames.zip rs, Evaluates (· ∈ nodes) asTuple (inputNames.zip args) p.1 p.2 := by
  unfold forward at h
  split at h
  · refine loop_sound nodes asTuple _ outputNames fuel _ _ rs ?_ (fun nd e => List.mem_of_find?_eq_some e) h
    have := initial_sound nodes asTuple inputNames args
    intro k v hk
    rw [foldl_mark_values] at hk
    exact this k v hk
  · cases h

/-! ## The value is unique, and does not depend on the order -/

private theorem fst_eq_of_nodup {l : List (Node V)} (h : (l.map Node.name).Nodup) {a b : Node V} (ha : a ∈ l) (hb : b ∈ l) (e : a.name = b.name) : a = b := List.inj_on_of_nodup_map h ha hb e

private theorem lookup_unique {ks : List String} {vs : List V} (h : ks.Nodup) {k : String} {v w : V} (hv : (k, v) ∈ ks.zip vs) (hw : (k, w) ∈ ks.zip vs) : v = w := by
  induction ks generalizing vs with
  | nil => simp at hv
  | cons a ks ih =>
    cases vs with
    | nil => simp at hv
    | cons b vs =>
      rw [List.nodup_cons] at h
      rw [List.zip_cons_cons, List.mem_cons, Prod.mk.injEq] at hv hw
      rcases hv with ⟨rfl, rfl⟩ | hv
      · rcases hw with ⟨_, rfl⟩ | hw
        · rfl
        · exact absurd (List.of_mem_zip hw).1 h.1
      · rcases hw with ⟨rfl, rfl⟩ | hw
        · exact absurd (List.of_mem_zip hv).1 h.1
        · exact ih h.2 hv hw

private theorem zip_ext {ks : List String} {vs ws : List V} (h1 : ks.length = vs.length) (h2 : ks.length = ws.length) (h : ∀ p ∈ ks.zip vs, ∀ q ∈ ks.zip ws, p.1 = q.1 → p.2 = q.2) : vs = ws := by
  induction ks generalizing vs ws with
  | nil => exact (List.length_eq_zero_iff.1 h1.symm).trans (List.length_eq_zero_iff.1 h2.symm).symm
  | cons k ks ih =>
    cases vs with
    | nil => simp at h1
    | cons v vs =>
      cases ws with
      | nil => simp at h2
      | cons w ws =>
        have e : v = w := h (k, v) (by simp) (k, w) (by simp) rfl
        have e' : vs = ws := ih (by simpa using h1) (by simpa using h2) fun p hp q hq => h p (by simp [hp]) q (by simp [hq])
        rw [e, e']

/-- **C45.** In a well-formed graph a name has at most one value. -/
theorem C45_unique {nodes : List (Node V)} {inputNames : List String} (hw : WellFormed nodes inputNames) (asTuple : V → Option (List V)) (args : List V) {k : String} {v w : V}
    (hv : Evaluates (· ∈ nodes) asTuple (inputNames.zip args) k v) (hw' : Evaluates (· ∈ nodes) asTuple (inputNames.zip args) k w) : v = w := by
  induction hv generalizing w with
  | @input k v h =>
    cases hw' with
    | input h' => exact lookup_unique hw.inputs_nodup h h'
    | @single nd _ hnd => exact absurd (List.of_mem_zip h).1 (hw.disjoint _ hnd)
    | @tuple nd _ outs _ _ _ hnd hout hone =>
      rcases hw.single nd hnd with e | e <;> rw [e] at hout
      · cases hout
      · cases hout; exact absurd rfl hone
  | @single nd vs hnd hout hlen hin ih =>
    generalize hk : nd.name = k at hw'
    cases hw' with
    | input h' => exact absurd (hk ▸ (List.of_mem_zip h').1) (hw.disjoint nd hnd)
    | @single nd' vs' hnd' hout' hlen' hin' =>
      have e := fst_eq_of_nodup hw.names_nodup hnd hnd' hk
      subst e
      congr 1
      refine zip_ext hlen hlen' fun p hp q hq e => ?_
      have := hin' q hq
      rw [← e] at this
      exact ih p hp this
    | @tuple nd' _ outs _ _ _ hnd' hout' hone =>
      rcases hw.single nd' hnd' with e | e <;> rw [e] at hout'
      · cases hout'
      · cases hout'; exact absurd rfl hone
  | @tuple nd vs outs rs k v hnd hout hone =>
    rcases hw.single nd hnd with e | e <;> rw [e] at hout
    · cases hout
    · cases hout; exact absurd rfl hone

private theorem evaluates_mono {m m' : Node V → Prop} (hm : ∀ nd, m nd → m' nd) {asTuple : V → Option (List V)} {inputs : List (String × V)} {k : String} {v : V}
    (h : Evaluates m asTuple inputs k v) : Evaluates m' asTuple inputs k v := by
  induction h with
  | input h => exact .input h
  | single h hout hlen _ ih => exact .single (hm _ h) hout hlen ih
  | tuple h hout hone hlen _ htup hlen' hk ih => exact .tuple (hm _ h) hout hone hlen ih htup hlen' hk

/-! ## A well-formed graph with one output succeeds -/

private structure Inv (nodes : List (Node V)) (inputNames : List String) (s : St V) : Prop where
  flag : ∀ nd ∈ nodes, s.computed nd.name = some true ∨ s.computed nd.name = some false
  inputs : ∀ k ∈ inputNames, s.computed k = some true
  avail : ∀ nd ∈ nodes, s.available nd.name = nd.inputs.map fun k => decide (s.computed k = some true)
  vals : ∀ k, s.computed k = some true → (∃ nd ∈ nodes, s.computed nd.name = some false ∧ k ∈ nd.inputs) → ∃ v, s.values k = some v

private theorem find_node {nodes : List (Node V)} (h : (nodes.map Node.name).Nodup) {nd : Node V} (hnd : nd ∈ nodes) : nodes.find? (fun x => x.name = nd.name) = some nd := by
  cases hf : nodes.find? (fun x => x.name = nd.name) with
  | none => exact absurd (List.find?_eq_none.1 hf nd hnd) (by simp)
  | some x =>
    have h1 : x.name = nd.name := by simpa using List.find?_some hf
    rw [fst_eq_of_nodup h (List.mem_of_find?_eq_some hf) hnd h1]

private theorem mark_avail {nodes : List (Node V)} {inputNames : List String} (hw : WellFormed nodes inputNames) {s : St V} (name : String) {nd : Node V} (hnd : nd ∈ nodes)
    (h : s.available nd.name = nd.inputs.map fun k => decide (s.computed k = some true)) :
    (markAsComputed nodes name s).available nd.name = nd.inputs.map fun k => decide ((markAsComputed nodes name s).computed k = some true) := by
  have hn := hw.once nd hnd
  unfold markAsComputed
  dsimp only
  rw [find_node hw.names_nodup hnd]
  dsimp only
  rw [h]
  split
  · next hmem =>
    refine List.ext_getElem (by simp) fun i h1 h2 => ?_
    rw [List.getElem_set]
    simp only [List.getElem_map]
    simp only [List.length_set, List.length_map] at h1
    by_cases hi : nd.inputs.idxOf name = i
    · have : nd.inputs[i] = name := by subst hi; exact List.getElem_idxOf (List.idxOf_lt_length_iff.2 hmem)
      simp [hi, this]
    · have : nd.inputs[i] ≠ name := fun e => hi (by rw [← e]; exact hn.idxOf_getElem i h1)
      simp [hi, this]
  · next hmem =>
    refine List.map_congr_left fun k hk => ?_
    have : k ≠ name := fun e => hmem (by rw [← e]; exact hk)
    simp [this]

private theorem inv_store {nodes : List (Node V)} {inputNames : List String} (hw : WellFormed nodes inputNames) {s : St V} (h : Inv nodes inputNames s) (nd : Node V) (v : V) :
    Inv nodes inputNames (store nodes s (nd.name, v)) where
  flag x hx := by
    show (if x.name = nd.name then some true else s.computed x.name) = some true ∨ (if x.name = nd.name then some true else s.computed x.name) = some false
    split
    · exact .inl rfl
    · exact h.flag x hx
  inputs k hk := by
    show (if k = nd.name then some true else s.computed k) = some true
    split
    · rfl
    · exact h.inputs k hk
  avail x hx := mark_avail hw (s := { s with values := fun k => if k = nd.name then some v else s.values k }) nd.name hx (h.avail x hx)
  vals k hk := by
    rintro ⟨x, hx, h1, h2⟩
    have h1' : (if x.name = nd.name then some true else s.computed x.name) = some false := h1
    have hk' : (if k = nd.name then some true else s.computed k) = some true := hk
    show ∃ w, (if k = nd.name then some v else s.values k) = some w
    by_cases hkn : k = nd.name
    · exact ⟨v, if_pos hkn⟩
    · rw [if_neg hkn] at hk'
      rw [if_neg hkn]
      split at h1'
      · cases h1'
      · exact h.vals k hk' ⟨x, hx, h1', h2⟩

private theorem inv_clear {nodes : List (Node V)} {inputNames : List String} {s : St V} (h : Inv nodes inputNames s) : Inv nodes inputNames (clearUnused nodes s) where
  flag := h.flag
  inputs := h.inputs
  avail := h.avail
  vals k hk hn := by
    obtain ⟨v, hv⟩ := h.vals k hk hn
    obtain ⟨x, hx, h1, h2⟩ := hn
    have h1' : s.computed x.name = some false := h1
    refine ⟨v, ?_⟩
    unfold clearUnused
    dsimp only
    rw [if_pos, hv]
    rw [List.any_eq_true]
    exact ⟨x, hx, by simp [h1', h2]⟩

private theorem fetch_some {s : St V} : ∀ {ks : List String}, (∀ k ∈ ks, ∃ v, s.values k = some v) → ∃ vs, fetch s ks = .ok vs
  | [], _ => ⟨[], rfl⟩
  | k :: ks, h => by
    obtain ⟨v, hv⟩ := h k (by simp)
    obtain ⟨vs, hvs⟩ := fetch_some (ks := ks) fun k' hk' => h k' (by simp [hk'])
    exact ⟨v :: vs, by unfold fetch; rw [hv]; dsimp only; rw [hvs]⟩

private theorem find_computable_spec {nodes : List (Node V)} {inputNames : List String} {s : St V} (h : Inv nodes inputNames s) {nd : Node V} (hf : findComputable nodes s = some nd) :
    nd ∈ nodes ∧ s.computed nd.name = some false ∧ ∀ k ∈ nd.inputs, s.computed k = some true := by
  have h1 := List.mem_of_find?_eq_some hf
  have h2 := List.find?_some hf
  rw [Bool.and_eq_true, h.avail nd h1, List.all_eq_true, decide_eq_true_eq] at h2
  refine ⟨h1, h2.2, fun k hk => ?_⟩
  have := h2.1 _ (List.mem_map_of_mem hk)
  simpa using this

private theorem find_computable_exists {nodes : List (Node V)} {inputNames : List String} (hw : WellFormed nodes inputNames) {s : St V} (h : Inv nodes inputNames s) {nd : Node V} (hnd : nd ∈ nodes)
    (hc : s.computed nd.name = some false) : ∃ nd', findComputable nodes s = some nd' := by
  obtain ⟨rank, hr⟩ := hw.acyclic
  have key : ∀ r, ∀ nd ∈ nodes, s.computed nd.name = some false → rank nd.name ≤ r → ∃ nd' ∈ nodes, s.computed nd'.name = some false ∧ ∀ k ∈ nd'.inputs, s.computed k = some true := by
    intro r
    induction r with
    | zero =>
      intro nd hnd hc h0
      refine ⟨nd, hnd, hc, fun k hk => ?_⟩
      rcases hw.closed nd hnd k hk with hk' | ⟨x, hx, rfl⟩
      · exact h.inputs k hk'
      · have := hr nd hnd x hx hk; omega
    | succ r ih =>
      intro nd hnd hc h0
      by_cases hall : ∀ k ∈ nd.inputs, s.computed k = some true
      · exact ⟨nd, hnd, hc, hall⟩
      · push Not at hall
        obtain ⟨k, hk, hkc⟩ := hall
        rcases hw.closed nd hnd k hk with hk' | ⟨x, hx, rfl⟩
        · exact absurd (h.inputs k hk') hkc
        · have := hr nd hnd x hx hk
          exact ih x hx ((h.flag x hx).resolve_left hkc) (by omega)
  obtain ⟨x, hx, hxc, hxi⟩ := key _ nd hnd hc le_rfl
  cases hf : findComputable nodes s with
  | some nd' => exact ⟨nd', rfl⟩
  | none =>
    have := List.find?_eq_none.1 hf x hx
    rw [h.avail x hx] at this
    simp only [hxc, decide_true, Bool.and_true, List.all_eq_true, List.mem_map, not_forall] at this
    obtain ⟨b, ⟨k, hk, rfl⟩, hb⟩ := this
    simp [hxi k hk] at hb

private theorem loop_succeeds {nodes : List (Node V)} {inputNames : List String} (hw : WellFormed nodes inputNames) (asTuple : V → Option (List V)) (out : String) : ∀ (fuel : ℕ) (s : St V),
    Inv nodes inputNames s → (∃ nd ∈ nodes, nd.name = out) → s.computed out = some false → (nodes.countP fun nd => decide (s.computed nd.name = some false)) ≤ fuel →
    ∀ s', (s' = s ∨ s' = clearUnused nodes s) → ∃ v, loop nodes asTuple [out] fuel s' (findComputable nodes s) = .ok [v] := by
  intro fuel
  induction fuel with
  | zero =>
    rintro s _ ⟨nd, hnd, rfl⟩ hc hle
    rw [Nat.le_zero, List.countP_eq_zero] at hle
    exact absurd (by simpa using hc) (hle nd hnd)
  | succ fuel ih =>
    rintro s hs ⟨ndo, hndo, rfl⟩ hc hle s' hs'
    have hinv' : Inv nodes inputNames s' := by rcases hs' with rfl | rfl; exacts [hs, inv_clear hs]
    have hcomp : s'.computed = s.computed := by rcases hs' with rfl | rfl <;> rfl
    have havail : s'.available = s.available := by rcases hs' with rfl | rfl <;> rfl
    have hfind : findComputable nodes s' = findComputable nodes s := by unfold findComputable; rw [hcomp, havail]
    obtain ⟨nd, hf⟩ := find_computable_exists hw hs hndo hc
    rw [hf]
    rw [hf] at hfind
    obtain ⟨h1, h2, h3⟩ := find_computable_spec hinv' hfind
    obtain ⟨ins, hins⟩ := fetch_some (s := s') (ks := nd.inputs) fun k hk => hinv'.vals k (h3 k hk) ⟨nd, h1, h2, hk⟩
    have hcompute : computeNode nodes asTuple s' nd = .ok (store nodes s' (nd.name, nd.run ins)) := by
      unfold computeNode
      rw [hins]
      dsimp only
      rcases hw.single nd h1 with e | e <;> rw [e]
      simp
    unfold loop
    rw [hcompute]
    dsimp only
    have hst := inv_store hw hinv' nd (nd.run ins)
    by_cases ho : nd.name = ndo.name
    · have e1 : allComputed (store nodes s' (nd.name, nd.run ins)) [ndo.name] = .ok true := by
        unfold allComputed
        rw [show (store nodes s' (nd.name, nd.run ins)).computed ndo.name = some true from if_pos ho.symm]
        rfl
      rw [e1]
      dsimp only
      refine ⟨nd.run ins, ?_⟩
      unfold fetch
      rw [show (store nodes s' (nd.name, nd.run ins)).values ndo.name = some (nd.run ins) from if_pos ho.symm]
      rfl
    · have e0 : (store nodes s' (nd.name, nd.run ins)).computed ndo.name = some false :=
        (if_neg (fun h => ho h.symm)).trans (by rw [hcomp]; exact hc)
      have e1 : allComputed (store nodes s' (nd.name, nd.run ins)) [ndo.name] = .ok false := by
        unfold allComputed
        rw [e0]
      rw [e1]
      dsimp only
      refine ih (store nodes s' (nd.name, nd.run ins)) hst ⟨ndo, hndo, rfl⟩ e0 ?_ _ (.inr rfl)
      have hlt : nodes.countP (fun x => decide ((store nodes s' (nd.name, nd.run ins)).computed x.name = some false)) < nodes.countP fun x => decide (s.computed x.name = some false) := by
        have hsub : ∀ x : Node V, decide ((store nodes s' (nd.name, nd.run ins)).computed x.name = some false) = true → decide (s.computed x.name = some false) = true := by
          intro x hx
          rw [decide_eq_true_eq] at hx ⊢
          have hx' : (if x.name = nd.name then some true else s'.computed x.name) = some false := hx
          split at hx'
          · cases hx'
          · rw [← hcomp]; exact hx'
        have hnd1 : decide ((store nodes s' (nd.name, nd.run ins)).computed nd.name = some false) = false := by
          rw [decide_eq_false_iff_not]
          rw [show (store nodes s' (nd.name, nd.run ins)).computed nd.name = some true from if_pos rfl]
          simp
        have hnd2 : decide (s.computed nd.name = some false) = true := by rw [decide_eq_true_eq, ← hcomp]; exact h2
        clear hle hf hfind e0 e1 hst hndo
        clear hinv' hs
        have gen : ∀ (p q : Node V → Bool), (∀ x, p x = true → q x = true) → p nd = false → q nd = true → ∀ l : List (Node V), nd ∈ l → l.countP p < l.countP q := by
          intro p q hpq hp hq l hl
          induction l with
          | nil => simp at hl
          | cons a l ih =>
            rw [List.countP_cons, List.countP_cons]
            have hle := List.countP_mono_left (l := l) fun x _ => hpq x
            by_cases han : a = nd
            · subst han; simp [hp, hq]; omega
            · have := ih ((List.mem_cons.1 hl).resolve_left fun e => han e.symm)
              by_cases hpa : p a = true
              · simp [hpa, hpq a hpa]; omega
              · simp only [hpa, Bool.false_eq_true, if_false]; split <;> omega
        exact gen _ _ hsub hnd1 hnd2 nodes h1
      omega

private theorem foldl_mark_computed (nodes : List (Node V)) : ∀ (l : List String) (s : St V) (k : String),
    (l.foldl (fun s k => markAsComputed nodes k s) s).computed k = if k ∈ l then some true else s.computed k
  | [], _, _ => by simp
  | a :: l, s, k => by
    rw [List.foldl_cons, foldl_mark_computed nodes l]
    show (if k ∈ l then some true else if k = a then some true else s.computed k) = _
    by_cases h1 : k ∈ l <;> by_cases h2 : k = a <;> simp [h1, h2]

private theorem foldl_mark_avail {nodes : List (Node V)} {inputNames : List String} (hw : WellFormed nodes inputNames) {nd : Node V} (hnd : nd ∈ nodes) : ∀ (l : List String) (s : St V),
    (s.available nd.name = nd.inputs.map fun k => decide (s.computed k = some true)) →
    (l.foldl (fun s k => markAsComputed nodes k s) s).available nd.name = nd.inputs.map fun k => decide ((l.foldl (fun s k => markAsComputed nodes k s) s).computed k = some true)
  | [], _, h => h
  | a :: l, s, h => by
    rw [List.foldl_cons]
    exact foldl_mark_avail hw hnd l _ (mark_avail hw a hnd h)

private theorem initial_inv {nodes : List (Node V)} {inputNames : List String} (hw : WellFormed nodes inputNames) (args : List V) (hlen : args.length = inputNames.length) :
    Inv nodes inputNames (inputNames.foldl (fun s k => markAsComputed nodes k s) (initial nodes inputNames args)) where
  flag nd hnd := by
    rw [foldl_mark_computed, if_neg (hw.disjoint nd hnd)]
    refine .inr ?_
    unfold initial
    dsimp only
    rw [if_pos]
    rw [List.any_eq_true]
    exact ⟨nd, hnd, by simp⟩
  inputs k hk := by rw [foldl_mark_computed, if_pos hk]
  avail nd hnd := by
    refine foldl_mark_avail hw hnd inputNames _ ?_
    unfold initial
    dsimp only
    rw [find_node hw.names_nodup hnd]
    dsimp only
    refine List.map_congr_left fun k _ => ?_
    split <;> simp
  vals k hk _ := by
    rw [foldl_mark_computed] at hk
    rw [foldl_mark_values]
    have hmem : k ∈ inputNames := by
      by_contra hn
      rw [if_neg hn] at hk
      unfold initial at hk
      dsimp only at hk
      split at hk <;> cases hk
    unfold initial
    dsimp only
    have : ∃ p, (inputNames.zip args).reverse.find? (fun p => decide (p.1 = k)) = some p := by
      cases hf : (inputNames.zip args).reverse.find? (fun p => decide (p.1 = k)) with
      | some p => exact ⟨p, rfl⟩
      | none =>
        obtain ⟨i, hi, rfl⟩ := List.getElem_of_mem hmem
        have hz : (inputNames[i], args[i]'(by omega)) ∈ (inputNames.zip args).reverse := by
          rw [List.mem_reverse, List.mem_iff_getElem]
          exact ⟨i, by rw [List.length_zip]; omega, by rw [List.getElem_zip]⟩
        exact absurd (List.find?_eq_none.1 hf _ hz) (by simp)
    obtain ⟨p, hp⟩ := this
    exact ⟨p.2, by rw [hp]; rfl⟩

/-- **C45**, one output: `forward` on a well-formed graph returns the value of the named output, after at most as many rounds as there are modules. -/
theorem C45_forward_partial {nodes : List (Node V)} {inputNames : List String} (hw : WellFormed nodes inputNames) (asTuple : V → Option (List V)) (out : String) (hout : ∃ nd ∈ nodes, nd.name = out)
    (args : List V) (hlen : args.length = inputNames.length) (fuel : ℕ) (hfuel : nodes.length ≤ fuel) :
    ∃ v, forward nodes asTuple inputNames [out] fuel args = .ok [v] ∧ Evaluates (· ∈ nodes) asTuple (inputNames.zip args) out v := by
  have hrun : ∃ v, forward nodes asTuple inputNames [out] fuel args = .ok [v] := by
    unfold forward
    rw [if_pos hlen]
    refine loop_succeeds hw asTuple out fuel _ (initial_inv hw args hlen) hout ?_ (le_trans List.countP_le_length hfuel) _ (.inl rfl)
    obtain ⟨nd, hnd, rfl⟩ := hout
    rw [foldl_mark_computed, if_neg (hw.disjoint nd hnd)]
    unfold initial
    dsimp only
    rw [if_pos]
    rw [List.any_eq_true]
    exact ⟨nd, hnd, by simp⟩
  obtain ⟨v, hv⟩ := hrun
  exact ⟨v, hv, (C45_sound nodes asTuple inputNames [out] fuel args [v] hv).2 (out, v) (by simp)⟩

/-- **C45**, one output: the result does not depend on the order in which the modules were added. -/
theorem C45_order_partial {nodes nodes' : List (Node V)} (hp : nodes.Perm nodes') {inputNames : List String} (hw : WellFormed nodes inputNames) (asTuple : V → Option (List V)) (out : String)
    (hout : ∃ nd ∈ nodes, nd.name = out) (args : List V) (hlen : args.length = inputNames.length) (fuel : ℕ) (hfuel : nodes.length ≤ fuel) :
    forward nodes' asTuple inputNames [out] fuel args = forward nodes asTuple inputNames [out] fuel args := by
  have hw' : WellFormed nodes' inputNames := by
    refine ⟨fun nd h => hw.single nd (hp.mem_iff.2 h), (hp.map _).nodup_iff.1 hw.names_nodup, hw.inputs_nodup, fun nd h => hw.disjoint nd (hp.mem_iff.2 h), fun nd h k hk => ?_,
      fun nd h => hw.once nd (hp.mem_iff.2 h), ?_⟩
    · rcases hw.closed nd (hp.mem_iff.2 h) k hk with h1 | ⟨x, hx, e⟩
      exacts [.inl h1, .inr ⟨x, hp.mem_iff.1 hx, e⟩]
    · obtain ⟨rank, hr⟩ := hw.acyclic
      exact ⟨rank, fun nd h nd' h' => hr nd (hp.mem_iff.2 h) nd' (hp.mem_iff.2 h')⟩
  obtain ⟨v, hv, ev⟩ := C45_forward_partial hw asTuple out hout args hlen fuel hfuel
  obtain ⟨nd, hnd, e⟩ := hout
  obtain ⟨w, hw1, ew⟩ := C45_forward_partial hw' asTuple out ⟨nd, hp.mem_iff.1 hnd, e⟩ args hlen fuel (by rw [← hp.length_eq]; exact hfuel)
  rw [hv, hw1, C45_unique hw asTuple args ev (evaluates_mono (fun x hx => hp.mem_iff.2 hx) ew)]

/-! ## A chain of modules: `Sequential` -/

/-- **C45.** A sequential model computes the composition of its modules, for any number of modules. -/
theorem C45_sequential (name : ℕ → String) (input : String) (hinj : ∀ i j, name i = name j → i = j) (hne : ∀ i, name i ≠ input) (asTuple : V → Option (List V)) (fs : List (V → V)) (hfs : fs ≠ [])
    (default x : V) : forward (chain name input fs default) asTuple [input] [name (fs.length - 1)] fs.length [x] = .ok [fs.foldl (fun v f => f v) x] := by
  have hmem : ∀ nd ∈ chain name input fs default, ∃ i, ∃ h : i < fs.length, nd = ⟨name i, [if i = 0 then input else name (i - 1)], none, fun vs => fs[i] (vs.headD default)⟩ := by
    intro nd h
    unfold chain at h
    rw [List.mem_mapIdx] at h
    obtain ⟨i, h, rfl⟩ := h
    exact ⟨i, h, rfl⟩
  have hin : ∀ i (h : i < fs.length), (⟨name i, [if i = 0 then input else name (i - 1)], none, fun vs => fs[i] (vs.headD default)⟩ : Node V) ∈ chain name input fs default := by
    intro i h
    unfold chain
    rw [List.mem_mapIdx]
    exact ⟨i, h, rfl⟩
  have hw : WellFormed (chain name input fs default) [input] := by
    refine ⟨fun nd h => ?_, ?_, by simp, fun nd h => ?_, fun nd h k hk => ?_, fun nd h => ?_, ?_⟩
    · obtain ⟨i, hi, rfl⟩ := hmem nd h; exact .inl rfl
    · unfold chain
      rw [List.nodup_iff_injective_getElem]
      rintro ⟨i, hi⟩ ⟨j, hj⟩ e
      simp only [List.getElem_map, List.getElem_mapIdx] at e
      exact Fin.ext (hinj i j e)
    · obtain ⟨i, hi, rfl⟩ := hmem nd h
      simpa using hne i
    · obtain ⟨i, hi, rfl⟩ := hmem nd h
      simp only [List.mem_singleton] at hk
      subst hk
      by_cases h0 : i = 0
      · left; simp [h0]
      · right
        rw [if_neg h0]
        exact ⟨_, hin (i - 1) (by omega), rfl⟩
    · obtain ⟨i, hi, rfl⟩ := hmem nd h; simp
    · classical
      refine ⟨fun k => if h : ∃ i, name i = k then Classical.choose h + 1 else 0, ?_⟩
      have hr : ∀ i, (if h : ∃ j, name j = name i then Classical.choose h + 1 else 0) = i + 1 := by
        intro i
        have hex : ∃ j, name j = name i := ⟨i, rfl⟩
        rw [dif_pos hex, hinj _ _ (Classical.choose_spec hex)]
      intro nd h nd' h' hk
      obtain ⟨i, hi, rfl⟩ := hmem nd h
      obtain ⟨j, hj, rfl⟩ := hmem nd' h'
      dsimp only at hk ⊢
      rw [hr, hr]
      rw [List.mem_singleton] at hk
      by_cases h0 : i = 0
      · rw [if_pos h0] at hk; exact absurd hk (hne j)
      · rw [if_neg h0] at hk
        have := hinj _ _ hk
        omega
  have hpos : 0 < fs.length := List.length_pos_iff.2 hfs
  obtain ⟨v, hv, ev⟩ := C45_forward_partial hw asTuple (name (fs.length - 1)) ⟨_, hin (fs.length - 1) (by omega), rfl⟩ [x] rfl fs.length (by unfold chain; simp)
  rw [hv]
  have hval : ∀ i, i < fs.length → Evaluates (· ∈ chain name input fs default) asTuple ([input].zip [x]) (name i) ((fs.take (i + 1)).foldl (fun v f => f v) x) := by
    intro i
    induction i with
    | zero =>
      intro h
      have e : (fs.take 1).foldl (fun v f => f v) x = fs[0] ([x].headD default) := by
        match fs, h with
        | f :: fs, _ => rfl
      rw [zero_add, e]
      refine Evaluates.single (nd := ⟨name 0, [if (0 : ℕ) = 0 then input else name (0 - 1)], none, fun vs => fs[0] (vs.headD default)⟩) (vs := [x]) (hin 0 h) (.inl rfl) rfl ?_
      intro p hp
      simp only [if_true, List.zip_cons_cons, List.zip_nil_right, List.mem_singleton] at hp
      subst hp
      exact .input (by simp)
    | succ i ih =>
      intro h
      have e : (fs.take (i + 1 + 1)).foldl (fun v f => f v) x = fs[i + 1] ([(fs.take (i + 1)).foldl (fun v f => f v) x].headD default) := by
        rw [List.take_succ_eq_append_getElem h, List.foldl_append]; rfl
      rw [e]
      refine Evaluates.single (nd := ⟨name (i + 1), [if i + 1 = 0 then input else name (i + 1 - 1)], none, fun vs => fs[i + 1] (vs.headD default)⟩) (vs := [(fs.take (i + 1)).foldl (fun v f => f v) x]) (hin (i + 1) h)
        (.inl rfl) rfl ?_
      intro p hp
      simp only [Nat.succ_ne_zero, if_false, Nat.add_sub_cancel, List.zip_cons_cons, List.zip_nil_right, List.mem_singleton] at hp
      subst hp
      exact ih (by omega)
  have h1 := hval (fs.length - 1) (by omega)
  rw [show fs.length - 1 + 1 = fs.length by omega, List.take_length] at h1
  rw [C45_unique hw asTuple [x] ev h1]

/-- A diamond, added in an unhelpful order, is well-formed. -/
example : WellFormed (V := ℕ) [⟨"out", ["l", "r"], none, List.sum⟩, ⟨"r", ["x"], none, List.sum⟩, ⟨"l", ["x", "y"], some ["l"], List.sum⟩] ["x", "y"] := by
  refine ⟨by simp, by decide, by decide, by simp, by simp, by simp, ⟨fun k => if k = "out" then 1 else 0, ?_⟩⟩
  simp

/-! ## Where it fails -/

/-- **C45 fails** with two outputs: a value that is a result but no further input is cleared before the others are computed, and `forward` raises a KeyError. -/
theorem C45_two_outputs_wrong : ∃ nodes : List (Node ℕ), WellFormed nodes ["x"] ∧ ∀ fuel ≥ 2, forward nodes (fun _ => none) ["x"] ["a", "b"] fuel [5] = .error .keyError := by
  refine ⟨[⟨"a", ["x"], none, List.sum⟩, ⟨"b", ["x"], none, List.sum⟩], ⟨by simp, by decide, by decide, by simp, by simp, by simp, ⟨fun _ => 0, by simp⟩⟩, fun fuel hf => ?_⟩
  obtain ⟨f, rfl⟩ : ∃ f, fuel = f + 2 := ⟨fuel - 2, by omega⟩
  rfl

/-- **C45 fails** for a module that uses the same value twice (`x + x`): only the first occurrence is ever marked as available, and `forward` raises. -/
theorem C45_same_input_twice_wrong : ∀ fuel, forward (V := ℕ) [⟨"sum", ["x", "x"], none, List.sum⟩] (fun _ => none) ["x"] ["sum"] fuel [5] = .error .unconnected := by
  intro fuel
  cases fuel <;> rfl

/-- **C45 fails** when the result is a further output of a module with several outputs and another module comes first: a KeyError. -/
theorem C45_second_output_wrong : ∀ fuel ≥ 1, forward (V := ℕ) [⟨"p", ["x"], none, List.sum⟩, ⟨"a", ["p"], some ["a", "b"], List.sum⟩] (fun v => some [v, v]) ["x"] ["b"] fuel [5] = .error .keyError := by
  intro fuel hf
  obtain ⟨f, rfl⟩ : ∃ f, fuel = f + 1 := ⟨fuel - 1, by omega⟩
  rfl

/-- **C45 fails** when the name of a module with several outputs is not among them: the module is computed again and again, and `forward` never returns. -/
theorem C45_never_returns_wrong : ∀ fuel, forward (V := ℕ) [⟨"split", ["x"], some ["a", "b"], List.sum⟩, ⟨"c", ["a"], none, List.sum⟩] (fun v => some [v, v]) ["x"] ["c"] fuel [5] = .error .stillRunning := by
  obtain ⟨nodes, hnodes⟩ : ∃ nodes : List (Node ℕ), nodes = [⟨"split", ["x"], some ["a", "b"], List.sum⟩, ⟨"c", ["a"], none, List.sum⟩] := ⟨_, rfl⟩
  rw [← hnodes]
  have find : ∀ s : St ℕ, s.available "split" = [true] → s.computed "split" = some false → findComputable nodes s = some ⟨"split", ["x"], some ["a", "b"], List.sum⟩ := by
    intro s h1 h2
    subst hnodes
    simp [findComputable, h1, h2]
  have key : ∀ (fuel : ℕ) (s : St ℕ), s.available "split" = [true] → s.computed "split" = some false → s.computed "c" = some false → s.values "x" = some 5 →
      loop nodes (fun v => some [v, v]) ["c"] fuel s (some ⟨"split", ["x"], some ["a", "b"], List.sum⟩) = .error .stillRunning := by
    intro fuel
    induction fuel with
    | zero => intro s _ _ _ _; rfl
    | succ fuel ih =>
      intro s h1 h2 h3 h4
      have hc : computeNode nodes (fun v => some [v, v]) s ⟨"split", ["x"], some ["a", "b"], List.sum⟩ = .ok (store nodes (store nodes s ("a", 5)) ("b", 5)) := by
        unfold computeNode fetch fetch
        rw [h4]
        rfl
      obtain ⟨t, ht⟩ : ∃ t, store nodes (store nodes s ("a", 5)) ("b", 5) = t := ⟨_, rfl⟩
      have t1 : t.available "split" = [true] := by
        rw [← ht, ← h1]; subst hnodes
        simp [store, markAsComputed]
      have t2 : t.computed "split" = some false := by rw [← ht, ← h2]; simp [store, markAsComputed]
      have t3 : t.computed "c" = some false := by rw [← ht, ← h3]; simp [store, markAsComputed]
      have t4 : t.values "x" = some 5 := by rw [← ht, ← h4]; simp [store, markAsComputed]
      unfold loop
      rw [hc, ht]
      dsimp only
      have ha : allComputed t ["c"] = .ok false := by unfold allComputed; rw [t3]
      rw [ha]
      dsimp only
      rw [find t t1 t2]
      refine ih (clearUnused nodes t) t1 t2 t3 ?_
      have : (nodes.any fun nd => decide (t.computed nd.name = some false) && decide ("x" ∈ nd.inputs)) = true := by subst hnodes; simp [t2]
      show (if _ then _ else _) = _
      rw [if_pos this, t4]
  intro fuel
  unfold forward
  rw [if_pos (show [5].length = ["x"].length from rfl)]
  dsimp only
  obtain ⟨s, hs⟩ : ∃ s, (["x"].foldl (fun s k => markAsComputed nodes k s) (initial nodes ["x"] [5])) = s := ⟨_, rfl⟩
  have s1 : s.available "split" = [true] := by rw [← hs]; subst hnodes; rfl
  have s2 : s.computed "split" = some false := by rw [← hs]; subst hnodes; rfl
  have s3 : s.computed "c" = some false := by rw [← hs]; subst hnodes; rfl
  have s4 : s.values "x" = some 5 := by rw [← hs]; subst hnodes; rfl
  rw [hs, find s s1 s2]
  exact key fuel s s1 s2 s3 s4

end CrypTen.Graph

import Verif.Model.Calls
import Verif.Model.Recording

/-!
# C87: a call means the same whether or not gradients are recorded

Which methods read every call in the same way, and which calls are read in the same way by all of them.
-/

namespace CrypTen.Calls

/-- The call means the same, recorded or not, however it is written. -/
def SameForAllCalls (e : Entry) : Prop := ∀ c : Call, c.WF → e.native c = e.recorded c

/-- Methods for which this holds. -/
def sameNames : List String := ["t", "clone", "flatten", "narrow", "index_select", "gather", "scatter", "roll", "unsqueeze", "__getitem__", "neg", "relu", "dropout", "_feature_dropout", "tanh",
  "erf", "relu6", "__rtruediv__", "polynomial", "square", "sqrt", "exp", "sin", "cos", "cosine_similarity", "abs", "sign", "norm", "cumsum", "trace", "var", "sigmoid", "max_pool2d", "batchnorm",
  "binary_cross_entropy", "binary_cross_entropy_with_logits", "rappor_loss", "cross_entropy"]

/-- A call that tells the two apart. -/
def apart : String → Call
  | "transpose" => ⟨[], [("dim0", .int 0), ("dim1", .int 1)]⟩
  | "permute" | "flip" => ⟨[.int 1, .int 0], []⟩
  | "view" => ⟨[], [("size", .ints [2, 3])]⟩
  | "reshape" => ⟨[], [("shape", .ints [2, 3])]⟩
  | "take" => ⟨[.object 0], [("dimension", .int 0)]⟩
  | "squeeze" => ⟨[], [("axis", .int 0)]⟩
  | "hardtanh" => ⟨[], [("min_value", .int 0), ("max_value", .int 1)]⟩
  | "add" | "sub" | "mul" | "matmul" => ⟨[], [("value", .object 0)]⟩
  | "__rsub__" => ⟨[], [("tensor", .object 0)]⟩
  | "div" | "ger" => ⟨[], [("y", .object 0)]⟩
  | "pow" | "pos_pow" => ⟨[], [("p", .int 2)]⟩
  | "log" | "reciprocal" => ⟨[], [("input_in_01", .bool true)]⟩
  | "dot" => ⟨[.object 0], [("weights", .object 1)]⟩
  | "sum" | "mean" | "min" | "max" => ⟨[.int 0, .bool true], []⟩
  | "softmax" | "log_softmax" => ⟨[.int 0], [("dtype", .object 0)]⟩
  | "pad" => ⟨[.ints [1, 1], .str "constant", .int 5], []⟩
  | "avg_pool2d" => ⟨[.int 2], [("ceil_mode", .bool true)]⟩
  | "conv1d" | "conv2d" => ⟨[.object 0, .int 2], []⟩
  | _ => ⟨[], []⟩

/-- The table has every function that can be recorded. -/
theorem table_names : ∀ name, name ∈ Recording.registry ↔ name ∈ table.map Entry.name ∨ name = "cat" ∨ name = "stack" := by
  intro name
  have h1 : ∀ m ∈ Recording.registry, m ∈ table.map Entry.name ∨ m = "cat" ∨ m = "stack" := by decide +kernel
  have h2 : ∀ m ∈ table.map Entry.name, m ∈ Recording.registry := by decide +kernel
  constructor
  · exact h1 name
  · rintro (h | rfl | rfl)
    · exact h2 name h
    · decide
    · decide

theorem var_same (c : Call) : varNative c = varRecorded c := by
  unfold varNative varRecorded
  rcases c with ⟨pos, kw⟩
  rcases pos with _ | ⟨d, _ | ⟨u, _ | ⟨k, r⟩⟩⟩ <;> simp [kwGet, varNative, List.lookup]

theorem wf_apart (name : String) : (apart name).WF := by
  unfold apart
  split <;> simp [Call.WF]

theorem differ_of (e : Entry) (h : e.native (apart e.name) ≠ e.recorded (apart e.name)) : ¬SameForAllCalls e := fun hs => h (hs _ (wf_apart _))

instance (e : Entry) (c : Call) : Decidable (e.native c ≠ e.recorded c) := inferInstance

/-- Every entry outside the list is told apart by its call. -/
theorem table_apart : ∀ e ∈ table, e.name ∉ sameNames → e.native (apart e.name) ≠ e.recorded (apart e.name) := by
  have : ∀ e ∈ table, (decide (e.name ∉ sameNames → e.native (apart e.name) ≠ e.recorded (apart e.name))) = true := by
    decide +kernel
  intro e he h
  exact (of_decide_eq_true (this e he)) h

theorem both_same (name : String) (ps : List Param) : SameForAllCalls (.both name ps) := fun _ _ => rfl

theorem table_same : ∀ e ∈ table, e.name ∈ sameNames → SameForAllCalls e := by
  unfold table
  simp only [List.forall_mem_cons]
  repeat' constructor
  all_goals intro h
  all_goals first
    | exact both_same _ _
    | exact fun c _ => var_same c
    | exact absurd h (by decide)
    | exact fun he => absurd he List.not_mem_nil

/-- **C87, how calls are read**: of the methods that can be recorded, exactly the listed ones read every call, with any positional and keyword arguments, in the same way. For each of
the others `apart` is a call that is read differently. -/
theorem C87_calls : ∀ e ∈ table, SameForAllCalls e ↔ e.name ∈ sameNames := fun e he =>
  ⟨fun h => by_contra fun hn => differ_of e (table_apart e he hn) h, table_same e he⟩

/-- At most this many positional arguments, and only these keywords; `none` means any number. -/
def plainForm : String → Option ℕ × List String
  | "permute" | "flip" => (some 1, [])
  | "take" => (none, ["index"])
  | "squeeze" => (some 1, [])
  | "log" | "reciprocal" => (some 0, [])
  | "dot" => (some 1, [])
  | "sum" | "mean" | "min" | "max" => (some 1, [])
  | "softmax" | "log_softmax" => (none, ["dim"])
  | "pad" => (some 1, ["mode", "value"])
  | "avg_pool2d" => (some 3, ["kernel_size", "stride", "padding"])
  | "conv1d" | "conv2d" => (some 1, ["stride", "padding", "dilation", "groups"])
  | _ => (none, [])

/-- A call in this form, without `None`. -/
def Plain (name : String) (c : Call) : Prop :=
  (∀ m, (plainForm name).1 = some m → c.pos.length ≤ m) ∧ (∀ k ∈ c.kw, k.1 ∈ (plainForm name).2) ∧ .none ∉ c.pos

theorem lookup_eq_none {kw : List (String × PyVal)} {K : List String} (h : ∀ k ∈ kw, k.1 ∈ K) {a : String} (ha : a ∉ K) : kw.lookup a = none := by
  rw [List.lookup_eq_none_iff]
  intro p hp
  simp only [bne_iff_ne, ne_eq, beq_eq_false_iff_ne]
  intro e
  exact ha (e ▸ h p hp)

theorem known {kw : List (String × PyVal)} {K N : List String} (h : ∀ k ∈ kw, k.1 ∈ K) (hK : ∀ a ∈ K, a ∈ N) : ¬∃ k ∈ kw, k.1 ∉ N := by
  rintro ⟨k, hk, hn⟩
  exact hn (hK _ (h k hk))

/-- Two parameter lists that differ in the names only agree on positional calls, for any number of parameters and arguments. -/
theorem bind_renamed (ps qs : List Param) (e f : Bool) (h : ps.map (fun p => (p.slot, p.default)) = qs.map fun p => (p.slot, p.default)) (pos : List PyVal) :
    Sig.bind ⟨ps, e⟩ ⟨pos, []⟩ = Sig.bind ⟨qs, f⟩ ⟨pos, []⟩ := by
  have hl : ps.length = qs.length := by simpa using congrArg List.length h
  have hb : ∀ i, (fun p : Param => bindParam ⟨pos, []⟩ i p) = fun p => (fun sd : String × Option PyVal => match pos[i]? with | some v => some (sd.1, v) | none => sd.2.map fun v => (sd.1, v)) (p.slot, p.default) := by
    intro i; funext p
    unfold bindParam
    simp only [List.lookup]
    cases pos[i]? <;> rfl
  unfold Sig.bind
  simp only [hl, List.not_mem_nil, false_and, exists_false, and_false, if_false]
  split
  · rfl
  · congr 1
    apply List.ext_getElem
    · simp [hl]
    · intro i h1 h2
      simp only [List.getElem_map, List.getElem_zipIdx]
      have := congrFun (hb (0 + i)) 
      simp only at this
      rw [this, this]
      have hi : i < ps.length := by simpa using h1
      have := congrArg (fun l => l[i]?) h
      simp only [List.getElem?_map] at this
      rw [List.getElem?_eq_getElem hi, List.getElem?_eq_getElem (hl ▸ hi)] at this
      simp only [Option.map_some, Option.some.injEq] at this
      obtain ⟨e1, e2⟩ := Prod.mk.inj this
      rw [e1, e2]

theorem renamed_same (name : String) (slots : List String) (ps qs : List Param) (e f : Bool) (h : ps.map (fun p => (p.slot, p.default)) = qs.map fun p => (p.slot, p.default))
    (hp : (plainForm name).2 = []) (c : Call) (hc : Plain name c) : (Entry.ofSigs name slots ⟨ps, e⟩ ⟨qs, f⟩).native c = (Entry.ofSigs name slots ⟨ps, e⟩ ⟨qs, f⟩).recorded c := by
  obtain ⟨pos, kw⟩ := c
  have : kw = [] := by
    rcases kw with _ | ⟨k, kw⟩
    · rfl
    · have := hc.2.1 k (List.mem_cons_self ..)
      rw [hp] at this; exact absurd this List.not_mem_nil
  subst this
  show inOrder slots _ = inOrder slots _
  rw [bind_renamed ps qs e f h]

theorem binary_same (name a : String) (hp : (plainForm name).2 = []) (c : Call) (hc : Plain name c) : (Entry.binary name a).native c = (Entry.binary name a).recorded c :=
  renamed_same name ["other"] [req a "other"] [req "other" "other"] false false rfl hp c hc

theorem kw_nil {name : String} {c : Call} (hp : (plainForm name).2 = []) (hc : Plain name c) : c.kw = [] := by
  rcases h : c.kw with _ | ⟨k, kw⟩
  · rfl
  · have := hc.2.1 k (by rw [h]; exact List.mem_cons_self ..)
    rw [hp] at this; exact absurd this List.not_mem_nil

theorem pos_le_one {name : String} {c : Call} (hp : (plainForm name).1 = some 1) (hc : Plain name c) : c.pos = [] ∨ ∃ v, c.pos = [v] ∧ v ≠ .none := by
  have := hc.1 1 hp
  rcases h : c.pos with _ | ⟨v, _ | ⟨w, r⟩⟩
  · exact Or.inl rfl
  · exact Or.inr ⟨v, rfl, fun e => hc.2.2 (by rw [h, e]; exact List.mem_cons_self ..)⟩
  · rw [h] at this; simp at this

theorem plain_dims (name : String) (hp : plainForm name = (some 1, [])) (c : Call) (hc : Plain name c) :
    variadic "dims" c = (Sig.bind ⟨[req "dims" "dims"], false⟩ c).bind fun b => variadic "dims" ⟨b.map Prod.snd, []⟩ := by
  have hk := kw_nil (by rw [hp]) hc
  obtain ⟨pos, kw⟩ := c
  simp only at hk; subst hk
  rcases pos_le_one (by rw [hp]) hc with h | ⟨v, h, _⟩ <;> simp only at h <;> subst h
  · rfl
  · rfl

theorem plain_view (name a : String) (hp : (plainForm name).2 = []) (c : Call) (hc : Plain name c) : variadic a c = if c.kw = [] then variadic a c else .none := by
  rw [if_pos (kw_nil hp hc)]

theorem plain_sum (name : String) (hp : plainForm name = (some 1, [])) (c : Call) (hc : Plain name c) : sumNative c = sumRecorded c ∧ squeezeNative c = squeezeRecorded c ∧
    maxNative c = maxRecorded c ∧ maxNative c = minRecorded c := by
  have hk := kw_nil (by rw [hp]) hc
  obtain ⟨pos, kw⟩ := c
  simp only at hk; subst hk
  rcases pos_le_one (by rw [hp]) hc with h | ⟨v, h, hv⟩ <;> simp only at h <;> subst h
  · refine ⟨rfl, rfl, by decide, by decide⟩
  · refine ⟨?_, ?_, ?_, ?_⟩ <;>
      simp [sumNative, sumRecorded, squeezeNative, squeezeRecorded, maxNative, maxRecorded, minRecorded, maxMeans, sumSig, maxSig, Sig.bind, bindParam, dimOf, kwGet, restKw, req, opt, List.lookup, hv]

theorem plain_softmax (name : String) (hp : plainForm name = (none, ["dim"])) (c : Call) (hc : Plain name c) :
    Sig.bind ⟨[req "dim" "dim"], true⟩ c = Sig.bind ⟨[req "dim" "dim"], false⟩ c := by
  have := known (N := [req "dim" "dim"].map Param.name) (hc.2.1) (by rw [hp]; simp [req])
  unfold Sig.bind
  rw [if_neg (c := ¬true = true ∧ _) (by simp), if_neg (c := ¬false = true ∧ _) (fun h => this h.2)]

theorem plain_take (c : Call) (hc : Plain "take" c) :
    Sig.bind ⟨[req "index" "index", opt "dimension" "dim" .none], false⟩ c = Sig.bind ⟨[req "index" "index", opt "dim" "dim" .none], false⟩ c := by
  have hk : ∀ k ∈ c.kw, k.1 ∈ ["index"] := hc.2.1
  have l1 := lookup_eq_none hk (a := "dimension") (by decide)
  have l2 := lookup_eq_none hk (a := "dim") (by decide)
  unfold Sig.bind
  rw [if_neg (c := ¬false = true ∧ _) (fun h => known hk (by simp [req, opt]) h.2), if_neg (c := ¬false = true ∧ _) (fun h => known hk (by simp [req, opt]) h.2)]
  simp [bindParam, req, opt, l1, l2]

theorem plain_pad (c : Call) (hc : Plain "pad" c) :
    inOrder ["pad", "mode", "value"] (Sig.bind ⟨[req "pad" "pad", opt "mode" "mode" (.str "constant"), opt "value" "value" (.int 0)], false⟩ c) =
    inOrder ["pad", "mode", "value"] (Sig.bind ⟨[req "padding" "pad", opt "value" "value" (.int 0), opt "mode" "mode" (.str "constant")], false⟩ c) := by
  have hk : ∀ k ∈ c.kw, k.1 ∈ ["mode", "value"] := hc.2.1
  have l1 := lookup_eq_none hk (a := "pad") (by decide)
  have l2 := lookup_eq_none hk (a := "padding") (by decide)
  unfold Sig.bind
  rw [if_neg (c := ¬false = true ∧ _) (fun h => known hk (by simp [req, opt]) h.2), if_neg (c := ¬false = true ∧ _) (fun h => known hk (by simp [req, opt]) h.2)]
  rcases pos_le_one rfl hc with h | ⟨v, h, hv⟩
  · simp [bindParam, req, opt, l1, l2, h, inOrder]
  · cases h1 : c.kw.lookup "mode" <;> cases h2 : c.kw.lookup "value" <;> simp [bindParam, req, opt, l1, l2, h, h1, h2, inOrder, List.lookup]

theorem plain_conv1d (c : Call) (hc : Plain "conv1d" c) : convNative c = inOrder convSlots (Sig.bind ⟨[req "kernel" "kernel", opt "padding" "padding" (.int 0), opt "stride" "stride" (.int 1),
    opt "dilation" "dilation" (.int 1), opt "groups" "groups" (.int 1)], false⟩ c) := by
  have hk : ∀ k ∈ c.kw, k.1 ∈ ["stride", "padding", "dilation", "groups"] := hc.2.1
  have l1 := lookup_eq_none hk (a := "value") (by decide)
  have l2 := lookup_eq_none hk (a := "kernel") (by decide)
  unfold convNative Sig.bind
  rw [if_neg (c := ¬false = true ∧ _) (fun h => known hk (by simp [req, opt]) h.2), if_neg (c := ¬false = true ∧ _) (fun h => known hk (by simp [req, opt]) h.2)]
  rcases pos_le_one rfl hc with h | ⟨v, h, hv⟩
  · simp [bindParam, req, opt, l1, l2, h, inOrder]
  · cases h1 : c.kw.lookup "stride" <;> cases h2 : c.kw.lookup "padding" <;> cases h3 : c.kw.lookup "dilation" <;> cases h4 : c.kw.lookup "groups" <;>
      simp [bindParam, req, opt, l1, l2, h, h1, h2, h3, h4, inOrder, convSlots, List.lookup]

theorem plain_conv2d (c : Call) (hc : Plain "conv2d" c) : convNative c = inOrder convSlots (Sig.bind ⟨[req "kernel" "kernel", opt "stride" "stride" (.int 1), opt "padding" "padding" (.int 0),
    opt "dilation" "dilation" (.int 1), opt "groups" "groups" (.int 1)], false⟩ c) := by
  have hk : ∀ k ∈ c.kw, k.1 ∈ ["stride", "padding", "dilation", "groups"] := hc.2.1
  have l1 := lookup_eq_none hk (a := "value") (by decide)
  have l2 := lookup_eq_none hk (a := "kernel") (by decide)
  unfold convNative Sig.bind
  rw [if_neg (c := ¬false = true ∧ _) (fun h => known hk (by simp [req, opt]) h.2), if_neg (c := ¬false = true ∧ _) (fun h => known hk (by simp [req, opt]) h.2)]
  rcases pos_le_one rfl hc with h | ⟨v, h, hv⟩
  · simp [bindParam, req, opt, l1, l2, h, inOrder]
  · cases h1 : c.kw.lookup "stride" <;> cases h2 : c.kw.lookup "padding" <;> cases h3 : c.kw.lookup "dilation" <;> cases h4 : c.kw.lookup "groups" <;>
      simp [bindParam, req, opt, l1, l2, h, h1, h2, h3, h4, inOrder, convSlots, List.lookup]

theorem plain_avgPool (c : Call) (hc : Plain "avg_pool2d" c) : avgPoolNative c = avgPoolRecorded c := by
  have hk : ∀ k ∈ c.kw, k.1 ∈ ["kernel_size", "stride", "padding"] := hc.2.1
  have l1 := lookup_eq_none hk (a := "ceil_mode") (by decide)
  have hl : c.pos.length ≤ 3 := hc.1 3 rfl
  unfold avgPoolNative avgPoolRecorded
  cases hb : avgPoolSig.bind c with
  | none => rfl
  | some b =>
    have : b.lookup "ceil_mode" = some (.bool false) := by
      unfold avgPoolSig Sig.bind at hb
      rw [if_neg (c := ¬false = true ∧ _) (fun h => known hk (by simp [req, opt]) h.2)] at hb
      rw [if_neg (by simp; omega)] at hb
      have hp : c.pos[3]? = none := List.getElem?_eq_none hl
      cases h0 : bindParam c 0 (req "kernel_size" "kernel_size") with
      | none => simp [h0] at hb
      | some v0 =>
      cases h1 : bindParam c 1 (opt "stride" "stride" .none) with
      | none => simp [h0, h1] at hb
      | some v1 =>
      cases h2 : bindParam c 2 (opt "padding" "padding" (.int 0)) with
      | none => simp [h0, h1, h2] at hb
      | some v2 =>
      have s0 : v0.1 = "kernel_size" := by
        unfold bindParam at h0; split at h0 <;> simp [req] at h0 <;> simp [← h0]
      have s1 : v1.1 = "stride" := by
        unfold bindParam at h1; split at h1 <;> simp [opt] at h1 <;> simp [← h1]
      have s2 : v2.1 = "padding" := by
        unfold bindParam at h2; split at h2 <;> simp [opt] at h2 <;> simp [← h2]
      have h3 : bindParam c 3 (opt "ceil_mode" "ceil_mode" (.bool false)) = some ("ceil_mode", .bool false) := by
        unfold bindParam; rw [hp]; simp [opt, l1]
      simp [h0, h1, h2, h3] at hb
      obtain ⟨a0, b0⟩ := v0
      obtain ⟨a1, b1⟩ := v1
      obtain ⟨a2, b2⟩ := v2
      simp only at s0 s1 s2
      subst s0 s1 s2
      rw [← hb]
      simp [List.lookup]
    simp [this]

theorem plain_zero (name : String) (hp : plainForm name = (some 0, [])) (c : Call) (hc : Plain name c) :
    in01Sig.bind c = (Sig.bind ⟨[], false⟩ c).bind fun _ => in01Sig.bind ⟨[], []⟩ := by
  have hk := kw_nil (by rw [hp]) hc
  have hl := hc.1 0 (by rw [hp])
  obtain ⟨pos, kw⟩ := c
  simp only at hk hl; subst hk
  obtain rfl : pos = [] := List.length_eq_zero_iff.1 (by omega)
  rfl

theorem plain_dot (c : Call) (hc : Plain "dot" c) :
    inOrder ["other", "weights"] (Sig.bind ⟨[req "y" "other", opt "weights" "weights" .none], false⟩ c) = inOrder ["other", "weights"] (Sig.bind ⟨[req "other" "other"], false⟩ c) := by
  have hk := kw_nil rfl hc
  obtain ⟨pos, kw⟩ := c
  simp only at hk; subst hk
  rcases pos_le_one rfl hc with h | ⟨v, h, _⟩ <;> simp only at h <;> subst h
  · rfl
  · rfl

/-- **C87, calls in their plain form**: positional arguments, for some methods fewer of them, and the keywords that both know under one name, are read in the same way by every method.
Missing: everything else, where the two differ (`C87_calls`). -/
theorem C87_calls_plain_partial : ∀ e ∈ table, ∀ c : Call, c.WF → Plain e.name c → e.native c = e.recorded c := by
  unfold table
  simp only [List.forall_mem_cons]
  repeat' constructor
  all_goals intro c
  all_goals first
    | exact fun _ _ => rfl
    | exact fun _ _ => var_same c
    | exact fun _ hc => renamed_same _ _ _ _ _ _ (by rfl) (by rfl) c hc
    | exact fun _ hc => binary_same _ _ rfl c hc
    | exact fun _ hc => plain_dims _ rfl c hc
    | exact fun _ hc => plain_view _ _ rfl c hc
    | exact fun _ hc => (plain_sum _ rfl c hc).1
    | exact fun _ hc => (plain_sum _ rfl c hc).2.1
    | exact fun _ hc => (plain_sum _ rfl c hc).2.2.1
    | exact fun _ hc => (plain_sum _ rfl c hc).2.2.2
    | exact fun _ hc => congrArg (inOrder _) (plain_softmax _ rfl c hc)
    | exact fun _ hc => congrArg (inOrder _) (plain_take c hc)
    | exact fun _ hc => plain_pad c hc
    | exact fun _ hc => plain_avgPool c hc
    | exact fun _ hc => plain_conv1d c hc
    | exact fun _ hc => plain_conv2d c hc
    | exact fun _ hc => plain_zero _ rfl c hc
    | exact fun _ hc => plain_dot c hc
    | exact fun he => absurd he (by simp)

/-- Calls of the plain form with a meaning: `x.pad([1, 1], value=2)`, `x.sum(0)`, `x.conv2d(w, stride=2)`. -/
example : Plain "pad" ⟨[.ints [1, 1]], [("value", .int 2)]⟩ ∧ Plain "sum" ⟨[.int 0], []⟩ ∧ Plain "conv2d" ⟨[.object 0], [("stride", .int 2)]⟩ ∧
    convNative ⟨[.object 0], [("stride", .int 2)]⟩ = some [("kernel", .object 0), ("stride", .int 2), ("padding", .int 0), ("dilation", .int 1), ("groups", .int 1)] := by
  refine ⟨⟨?_, ?_, ?_⟩, ⟨?_, ?_, ?_⟩, ⟨?_, ?_, ?_⟩, by decide⟩ <;> simp [plainForm]

/-- **C87 for reductions along a dimension**: `sum`, `mean`, `max` and `min` read the dimension, `keepdim` and `one_hot` in the same way, in any order, if only the dimension is positional. -/
theorem C87_calls_dim (d k o : PyVal) (hd : d ≠ .none) (c : Call) (hc : (c.pos = [d] ∧ (c.kw = [("keepdim", k)])) ∨ (c.pos = [] ∧ (c.kw = [("dim", d), ("keepdim", k)] ∨ c.kw = [("keepdim", k), ("dim", d)]))) :
    (∃ r, sumNative c = some r ∧ sumRecorded c = some r) ∧ (∃ r, maxNative c = some r ∧ maxRecorded c = some r ∧ minRecorded c = some r) ∧
    ∀ c' : Call, c'.pos = c.pos → (c'.kw = ("one_hot", o) :: c.kw ∨ c'.kw = c.kw ++ [("one_hot", o)]) → ∃ r, maxNative c' = some r ∧ maxRecorded c' = some r ∧ minRecorded c' = some r := by
  obtain ⟨pos, kw⟩ := c
  simp only at hc
  refine ⟨?_, ?_, ?_⟩
  · rcases hc with ⟨rfl, rfl⟩ | ⟨rfl, rfl | rfl⟩ <;> exact ⟨[("dim", d), ("keepdim", k)], by simp [sumNative, sumSig, Sig.bind, bindParam, req, opt, List.lookup],
      by simp [sumRecorded, dimOf, kwGet, List.lookup, hd]⟩
  · rcases hc with ⟨rfl, rfl⟩ | ⟨rfl, rfl | rfl⟩ <;> exact ⟨[("dim", d), ("keepdim", k), ("one_hot", .bool true)], by simp [maxNative, maxMeans, maxSig, Sig.bind, bindParam, opt, List.lookup, hd],
      by simp [maxRecorded, dimOf, restKw, maxSig, Sig.bind, bindParam, opt, List.lookup, hd], by simp [minRecorded, dimOf, restKw, maxSig, Sig.bind, bindParam, opt, List.lookup, hd]⟩
  · rintro ⟨pos', kw'⟩ hp hkw
    simp only at hp hkw
    subst hp
    rcases hc with ⟨rfl, rfl⟩ | ⟨rfl, rfl | rfl⟩ <;> rcases hkw with rfl | rfl <;> exact ⟨[("dim", d), ("keepdim", k), ("one_hot", o)], by simp [maxNative, maxMeans, maxSig, Sig.bind, bindParam, opt, List.lookup, hd],
      by simp [maxRecorded, dimOf, restKw, maxSig, Sig.bind, bindParam, opt, List.lookup, hd], by simp [minRecorded, dimOf, restKw, maxSig, Sig.bind, bindParam, opt, List.lookup, hd]⟩

/-- **C87 is false**: a keyword that `sum` does not have is an exception without gradients, and with gradients the sum of all entries; `x.sum(0, True)` is an exception with gradients;
`x.pad(p, "constant", 5)` exchanges its last two arguments; `ceil_mode` of `avg_pool2d` is an exception without gradients and ignored with them. -/
theorem C87_calls_wrong :
    (sumNative ⟨[], [("dims", .int 0)]⟩ = none ∧ sumRecorded ⟨[], [("dims", .int 0)]⟩ = some []) ∧
    (sumNative ⟨[.int 0, .bool true], []⟩ = some [("dim", .int 0), ("keepdim", .bool true)] ∧ sumRecorded ⟨[.int 0, .bool true], []⟩ = none) ∧
    (∃ e ∈ table, e.name = "pad" ∧ e.native ⟨[.ints [1, 1], .str "constant", .int 5], []⟩ = some [("pad", .ints [1, 1]), ("mode", .str "constant"), ("value", .int 5)] ∧
      e.recorded ⟨[.ints [1, 1], .str "constant", .int 5], []⟩ = some [("pad", .ints [1, 1]), ("mode", .int 5), ("value", .str "constant")]) ∧
    (avgPoolNative ⟨[.int 2], [("ceil_mode", .bool true)]⟩ = none ∧ avgPoolRecorded ⟨[.int 2], [("ceil_mode", .bool true)]⟩ = some [("kernel_size", .int 2), ("stride", .none), ("padding", .int 0)]) := by
  refine ⟨by decide, by decide, ⟨table[58], ?_, ?_⟩, by decide⟩
  · exact List.getElem_mem _
  · decide

theorem mapM_id_isSome {α : Type} (l : List (Option α)) : (l.mapM id).isSome ↔ ∀ a ∈ l, a.isSome := by
  induction l with
  | nil => simp
  | cons a l ih =>
    rw [List.mapM_cons]
    cases a with
    | none => simp
    | some a =>
      cases h : l.mapM id with
      | none => rw [h] at ih; simp only [Option.isSome_none, Bool.false_eq_true, false_iff] at ih; simp [h]; simpa using ih
      | some b => rw [h] at ih; simp only [Option.isSome_some, true_iff] at ih; simp [h]; simpa using ih

theorem bindParam_isSome (c : Call) (i : Nat) (p : Param) : (bindParam c i p).isSome ↔
    (i < c.pos.length ∧ c.kw.lookup p.name = none) ∨ (c.pos.length ≤ i ∧ ((c.kw.lookup p.name).isSome ∨ p.default.isSome)) := by
  unfold bindParam
  by_cases hi : i < c.pos.length
  · rw [List.getElem?_eq_getElem hi]
    cases c.kw.lookup p.name <;> simp [hi]
  · rw [List.getElem?_eq_none (by omega)]
    cases c.kw.lookup p.name <;> simp [hi] <;> omega

/-- **C87, calls that are errors**: a call to a parameter list is accepted exactly if there are not more positional arguments than parameters, no unknown keyword, no argument that is given
twice, and one for every parameter without default. A dimension that is given by position and by keyword is an exception of every reduction, recorded or not. A keyword that they do not
have is an exception of `max` in both cases and of `min` only without gradients. -/
theorem C87_calls_errors (s : Sig) (c : Call) :
    ((s.bind c).isSome ↔ c.pos.length ≤ s.params.length ∧ (s.extra = false → ∀ k ∈ c.kw, k.1 ∈ s.params.map Param.name) ∧
      ∀ i (h : i < s.params.length), (i < c.pos.length ∧ c.kw.lookup (s.params[i]).name = none) ∨
        (c.pos.length ≤ i ∧ ((c.kw.lookup (s.params[i]).name).isSome ∨ (s.params[i]).default.isSome))) ∧
    (∀ d, c.pos = [d] → (c.kw.lookup "dim").isSome →
      sumNative c = none ∧ sumRecorded c = none ∧ squeezeNative c = none ∧ squeezeRecorded c = none ∧ maxNative c = none ∧ maxRecorded c = none ∧ minRecorded c = none) ∧
    (∀ k v, c.pos = [] → c.kw = [(k, v)] → k ∉ ["dim", "keepdim", "one_hot"] → maxNative c = none ∧ maxRecorded c = none ∧ minRecorded c = some []) := by
  have key : ∀ s : Sig, ((s.bind c).isSome ↔ c.pos.length ≤ s.params.length ∧ (s.extra = false → ∀ k ∈ c.kw, k.1 ∈ s.params.map Param.name) ∧
      ∀ i (h : i < s.params.length), (i < c.pos.length ∧ c.kw.lookup (s.params[i]).name = none) ∨
        (c.pos.length ≤ i ∧ ((c.kw.lookup (s.params[i]).name).isSome ∨ (s.params[i]).default.isSome))) := by
    intro s
    unfold Sig.bind
    split
    · rename_i h; simp only [Option.isSome_none, Bool.false_eq_true, false_iff]; intro hh; omega
    · rename_i h
      split
      · rename_i h2
        simp only [Option.isSome_none, Bool.false_eq_true, false_iff]
        rintro ⟨-, h3, -⟩
        obtain ⟨he, k, hk, hn⟩ := h2
        exact hn (h3 (by simpa using he) k hk)
      · rename_i h2
        rw [mapM_id_isSome]
        constructor
        · intro hall
          refine ⟨by omega, ?_, ?_⟩
          · intro he k hk
            by_contra hn
            exact h2 ⟨by simp [he], k, hk, hn⟩
          · intro i hi
            rw [← bindParam_isSome]
            apply hall
            rw [List.mem_map]
            exact ⟨(s.params[i], i), by rw [List.mem_zipIdx_iff_getElem?]; simp [hi], rfl⟩
        · rintro ⟨-, -, h3⟩ a ha
          rw [List.mem_map] at ha
          obtain ⟨⟨p, i⟩, hp, rfl⟩ := ha
          rw [List.mem_zipIdx_iff_getElem?] at hp
          simp only at hp
          obtain ⟨hi, rfl⟩ := List.getElem?_eq_some_iff.1 hp
          rw [bindParam_isSome]
          exact h3 i hi
  have bad : ∀ d, c.pos = [d] → (c.kw.lookup "dim").isSome → ∀ s : Sig, (s.params.head?.map Param.name = some "dim") → s.bind c = none := by
    intro d hd hk s hs
    rw [← Option.not_isSome_iff_eq_none, key s]
    rintro ⟨-, -, h⟩
    obtain ⟨ps, e⟩ := s
    cases ps with
    | nil => simp at hs
    | cons p ps =>
      have := h 0 (by simp)
      simp only [List.head?_cons, Option.map_some, Option.some.injEq] at hs
      simp only [List.getElem_cons_zero, hs, hd, List.length_cons, List.length_nil] at this
      rcases this with ⟨_, h⟩ | ⟨h, _⟩
      · rw [h] at hk; exact absurd hk (by simp)
      · omega
  refine ⟨key s, ?_, ?_⟩
  · intro d hd hk
    have hdim : dimOf c = none := by unfold dimOf; rw [hd]; simp [hk]
    refine ⟨?_, by simp [sumRecorded, hdim], ?_, by simp [squeezeRecorded, hdim], ?_, by simp [maxRecorded, hdim], by simp [minRecorded, hdim]⟩
    · unfold sumNative; rw [if_neg (by simp [hd])]; exact bad d hd hk _ rfl
    · unfold squeezeNative; rw [if_neg (by simp [hd])]; exact bad d hd hk _ rfl
    · unfold maxNative; rw [bad d hd hk _ rfl]; rfl
  · intro k v hp hkw hk
    obtain ⟨pos, kw⟩ := c
    simp only at hp hkw
    subst hp hkw
    simp only [List.mem_cons, List.not_mem_nil, or_false, not_or] at hk
    obtain ⟨h1, h2, h3⟩ := hk
    have h1' : ("dim" == k) = false := by simpa using Ne.symm h1
    have h3' : ("one_hot" == k) = false := by simpa using Ne.symm h3
    refine ⟨?_, ?_, ?_⟩
    · simp [maxNative, maxMeans, maxSig, Sig.bind, opt, h1, h2, h3]
    · simp [maxRecorded, dimOf, restKw, maxSig, Sig.bind, opt, h1, h2, h3, List.lookup, h1']
    · simp [minRecorded, dimOf, kwGet, List.lookup, h1', h3']

/-- `x.sum(0, dim=1)` is such a call, and `x.max(dtype=…)`. -/
example : (Call.mk [.int 0] [("dim", .int 1)]).pos = [.int 0] ∧ ((Call.mk [.int 0] [("dim", .int 1)]).kw.lookup "dim").isSome ∧ "dtype" ∉ ["dim", "keepdim", "one_hot"] := by decide

end CrypTen.Calls

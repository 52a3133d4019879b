import Verif.Props.Detached
import Verif.Spec.Recording

/-!
# C68: the gradients of a program are the derivatives of its data flow
-/

namespace CrypTen.Recording
open Tape
variable {G : Type} [AddCommGroup G]

/-- Encrypted keyword arguments, or operands of a function that is not recorded, do no harm if they require no gradient or the derivative is zero. -/
def Harmless (h : Heap G) (l : List (Input G)) : Prop := ∀ v J, Input.tensor v (some J) ∈ l → h.requiresGrad v = true → J = 0

/-- No plaintext argument with an entry of its own precedes an encrypted argument. -/
def Aligned : List (Input G) → Prop
  | [] => True
  | .plain _ :: l => ∀ v J, Input.tensor v (some J) ∉ l
  | _ :: l => Aligned l

/-- All tensors in a list of arguments exist. -/
def Exist (h : Heap G) (l : List (Input G)) : Prop := ∀ v J, Input.tensor v J ∈ l → v < h.length

/-- The conditions under which a call is recorded faithfully; each is needed, see the counterexamples below. -/
def Supported (enabled : Bool) (h : Heap G) : Instr G → Prop
  | .leaf _ => True
  | .call args kwargs _ => Exist h (flat args ++ flat kwargs) ∧ (enabled = true →
      Aligned (flat args) ∧ Harmless h (flat kwargs)
      ∧ (∀ v, Input.tensor v none ∈ flat args ++ flat kwargs → h.children v = [] ∧ ∀ J, Input.tensor v (some J) ∉ flat args))
  | .native args => Exist h (flat args) ∧ (enabled = true → Harmless h (flat args))
  | .cloned v others => v < h.length ∧ Exist h (flat others) ∧ (enabled = true → Harmless h (flat others))
  | .inPlace v J args kwargs => v < h.length ∧ h.requiresGrad v = false ∧ Exist h (flat args ++ flat kwargs)
      ∧ (enabled = true → ∀ w J, Input.tensor w J ∈ flat args ++ flat kwargs → h.requiresGrad w = false)
  | .setItem v J value => v < h.length ∧ h.requiresGrad v = false ∧ Exist h (flat [value]) ∧ (enabled = true → Harmless h (flat [value]))
  | .aliased v _ => v < h.length ∧ h.requiresGrad v = false
  | .detach v => v < h.length ∧ (enabled = true → h.children v = [])

/-- Every call of the program is supported in the state in which it is made. -/
def SupportedRun (h : Heap G) : Program G → Prop
  | [] => True
  | (enabled, i) :: p => Supported enabled h i ∧ ∀ h', step enabled h i = some h' → SupportedRun h' p

/-! ## Sums over paths -/

section paths
variable {E E' : ℕ → List (ℕ × Option (G →+ G))}

private theorem sop_fuel (hE : ∀ v, ∀ c ∈ E v, c.1 < v) (w : ℕ) : ∀ (f : ℕ) (v : ℕ) (g : G), v < f → sumOverPaths E w f v g = sumOverPaths E w (v + 1) v g := by
  intro f
  induction f using Nat.strong_induction_on with
  | _ f ih =>
    intro v g hv
    obtain ⟨f, rfl⟩ : ∃ k, f = k + 1 := ⟨f - 1, by omega⟩
    simp only [sumOverPaths]
    split
    · rfl
    · congr 1
      refine List.map_congr_left fun c hc => ?_
      have := hE v c hc
      split
      · by_cases hvf : v = f
        · subst hvf; rfl
        · rw [ih f (by omega) c.1 _ (by omega), ih v (by omega) c.1 _ (by omega)]
      · rfl

/-- the derivative of `v` with respect to `w` -/
private def T (E : ℕ → List (ℕ × Option (G →+ G))) (w v : ℕ) (g : G) : G := sumOverPaths E w (v + 1) v g

private theorem T_eq (hE : ∀ v, ∀ c ∈ E v, c.1 < v) (w v : ℕ) (g : G) :
    T E w v g = if v = w then g else ((E v).map fun c => match c.2 with
      | some J => T E w c.1 (J g)
      | none => 0).sum := by
  unfold T
  rw [sumOverPaths]
  split
  · rfl
  · congr 1
    refine List.map_congr_left fun c hc => ?_
    have := hE v c hc
    rcases c with ⟨c, _ | J⟩
    · rfl
    · exact sop_fuel hE w v c _ this

private theorem T_congr (hE : ∀ v, ∀ c ∈ E v, c.1 < v) (hE' : ∀ v, ∀ c ∈ E' v, c.1 < v) (w : ℕ) :
    ∀ (v : ℕ), (∀ u ≤ v, E u = E' u) → ∀ g, T E w v g = T E' w v g := by
  intro v
  induction v using Nat.strong_induction_on with
  | _ v ih =>
    intro h g
    rw [T_eq hE, T_eq hE', h v (le_refl v)]
    split
    · rfl
    · congr 1
      refine List.map_congr_left fun c hc => ?_
      have := hE' v c hc
      split
      · exact ih c.1 this (fun u hu => h u (by omega)) _
      · rfl

private theorem T_lt (hE : ∀ v, ∀ c ∈ E v, c.1 < v) (w : ℕ) : ∀ (v : ℕ), v < w → ∀ g, T E w v g = 0 := by
  intro v
  induction v using Nat.strong_induction_on with
  | _ v ih =>
    intro h g
    rw [T_eq hE, if_neg (by omega)]
    refine List.sum_eq_zero fun x hx => ?_
    rw [List.mem_map] at hx
    obtain ⟨c, hc, rfl⟩ := hx
    have := hE v c hc
    split
    · exact ih c.1 this (by omega) _
    · rfl

private theorem T_leaf (hE : ∀ v, ∀ c ∈ E v, c.1 < v) (w v : ℕ) (hv : E v = []) (g : G) : T E w v g = if v = w then g else 0 := by
  rw [T_eq hE, hv]; simp

private theorem T_zero (hE : ∀ v, ∀ c ∈ E v, c.1 < v) (w : ℕ) : ∀ (v : ℕ), T E w v 0 = 0 := by
  intro v
  induction v using Nat.strong_induction_on with
  | _ v ih =>
    rw [T_eq hE]
    split
    · rfl
    · refine List.sum_eq_zero fun x hx => ?_
      rw [List.mem_map] at hx
      obtain ⟨c, hc, rfl⟩ := hx
      have := hE v c hc
      split
      · rw [map_zero]; exact ih c.1 this
      · rfl

end paths

/-! ## Arguments -/

private theorem tensorsOf_marked (marked : List ℕ) (l : List (Input G)) (hal : ∀ v J, Input.tensor v (some J) ∉ l) (hn : ∀ v, Input.tensor v none ∈ l → v ∈ marked) :
    ∀ v ∈ tensorsOf l, v ∈ marked := by
  induction l with
  | nil => simp [tensorsOf]
  | cons y l ih =>
    cases y with
    | tensor v J =>
      cases J with
      | none =>
        intro u hu
        rw [tensorsOf, List.mem_cons] at hu
        rcases hu with rfl | hu
        · exact hn u (by simp)
        · exact ih (fun v J hv => hal v J (by simp [hv])) (fun v hv => hn v (by simp [hv])) u hu
      | some J => exact absurd (List.mem_cons_self) (hal v J)
    | _ => exact ih (fun v J hv => hal v J (by simp [hv])) (fun v hv => hn v (by simp [hv]))

private theorem assign_aligned (marked : List ℕ) (more : List (G →+ G)) : ∀ (l : List (Input G)), Aligned l → (∀ x ∈ l, ∀ k, x ≠ .seq k) →
    (∀ v, Input.tensor v none ∈ l → v ∈ marked) → (∀ v J, Input.tensor v (some J) ∈ l → v ∉ marked) →
    ∀ (F : ℕ → (G →+ G) → G),
    ((assign marked (tensorsOf l) (entries l ++ more)).map fun c => match c.2 with
      | some J => F c.1 J
      | none => 0).sum = (l.map fun x => match x with
      | .tensor v (some J) => F v J
      | _ => 0).sum := by
  intro l
  induction l with
  | nil => intros; rfl
  | cons x l ih =>
    intro hal hseq hn hs F
    cases x with
    | config => simpa [tensorsOf, entries] using ih hal (fun x hx => hseq x (by simp [hx])) (fun v hv => hn v (by simp [hv])) (fun v J hv => hs v J (by simp [hv])) F
    | plain J =>
      have hno := tensorsOf_marked marked l hal fun v hv => hn v (by simp [hv])
      have hz : ∀ (vs : List ℕ) (es : List (G →+ G)), (∀ v ∈ vs, v ∈ marked) → ((assign marked vs es).map fun c => match c.2 with
          | some J => F c.1 J
          | none => 0).sum = 0 := by
        intro vs
        induction vs with
        | nil => intros; rfl
        | cons v vs ih => intro es h; rw [assign, if_pos (h v (by simp))]; simpa using ih es (fun u hu => h u (by simp [hu]))
      rw [tensorsOf, hz _ _ hno]
      symm
      refine List.sum_eq_zero fun y hy => ?_
      rw [List.mem_map] at hy
      obtain ⟨z, hz, rfl⟩ := hy
      rw [List.mem_cons] at hz
      rcases hz with rfl | hz
      · rfl
      · split
        · exact absurd hz (hal _ _)
        · rfl
      all_goals simp
    | tensor v J =>
      have ih' := ih hal (fun x hx => hseq x (by simp [hx])) (fun v hv => hn v (by simp [hv])) (fun v J hv => hs v J (by simp [hv])) F
      cases J with
      | none =>
        rw [tensorsOf, assign, if_pos (hn v (by simp))]
        simpa [entries] using ih'
      | some J =>
        rw [tensorsOf, assign, if_neg (hs v J (by simp))]
        simpa [entries] using ih'
    | seq k => exact absurd rfl (hseq _ (by simp) k)

private theorem assign_fst (marked : List ℕ) : ∀ (vs : List ℕ) (es : List (G →+ G)), (assign marked vs es).map Prod.fst = vs := by
  intro vs
  induction vs with
  | nil => intro es; rfl
  | cons v vs ih =>
    intro es
    rw [assign]
    split <;> simp [ih]

private theorem assign_none (marked : List ℕ) (more : List (G →+ G)) : ∀ (l : List (Input G)), Aligned l → (∀ x ∈ l, ∀ k, x ≠ .seq k) →
    (∀ v, Input.tensor v none ∈ l → v ∈ marked) → (∀ v J, Input.tensor v (some J) ∈ l → v ∉ marked) →
    ∀ c ∈ assign marked (tensorsOf l) (entries l ++ more), c.2 = none → c.1 ∈ marked := by
  intro l
  induction l with
  | nil => intro _ _ _ _ c hc; simp [tensorsOf, assign] at hc
  | cons x l ih =>
    intro hal hseq hn hs
    cases x with
    | config => exact ih hal (fun x hx => hseq x (by simp [hx])) (fun v hv => hn v (by simp [hv])) (fun v J hv => hs v J (by simp [hv]))
    | plain J =>
      have hno := tensorsOf_marked marked l hal fun v hv => hn v (by simp [hv])
      intro c hc _
      have : c.1 ∈ (assign marked (tensorsOf (.plain J :: l)) (entries (.plain J :: l) ++ more)).map Prod.fst := List.mem_map_of_mem hc
      rw [assign_fst] at this
      exact hno _ this
    | tensor v J =>
      have ih' := ih hal (fun x hx => hseq x (by simp [hx])) (fun v hv => hn v (by simp [hv])) (fun v J hv => hs v J (by simp [hv]))
      intro c hc h0
      cases J with
      | none =>
        rw [tensorsOf, assign, if_pos (hn v (by simp)), List.mem_cons] at hc
        rcases hc with rfl | hc
        · exact hn v (by simp)
        · exact ih' c hc h0
      | some J =>
        rw [tensorsOf, assign, if_neg (hs v J (by simp)), List.mem_cons] at hc
        rcases hc with rfl | hc
        · simp [entries] at h0
        · exact ih' c hc h0
    | seq k => exact absurd rfl (hseq _ (by simp) k)

mutual
private theorem flat1_noSeq : ∀ (y : Input G), ∀ x ∈ flat1 y, ∀ k, x ≠ .seq k
  | .config, x, hx, k => by simp only [flat1, List.mem_singleton] at hx; subst hx; simp
  | .plain J, x, hx, k => by simp only [flat1, List.mem_singleton] at hx; subst hx; simp
  | .tensor v J, x, hx, k => by simp only [flat1, List.mem_singleton] at hx; subst hx; simp
  | .seq m, x, hx, k => flat_noSeq m x (by simpa [flat1] using hx) k

private theorem flat_noSeq : ∀ (l : List (Input G)), ∀ x ∈ flat l, ∀ k, x ≠ .seq k
  | [], x, hx, k => by simp [flat] at hx
  | y :: l, x, hx, k => by
    rw [flat, List.mem_append] at hx
    rcases hx with hx | hx
    · exact flat1_noSeq y x hx k
    · exact flat_noSeq l x hx k
end

private theorem operands_sum (f : Flow G) (F : ℕ → (G →+ G) → G) : ∀ (l : List (Input G)),
    ((f.operands l).map fun c => F c.1 c.2).sum = (l.map fun x => match x with
      | .tensor v (some J) => F (f.value v) J
      | _ => 0).sum
  | [] => rfl
  | .config :: l => by simpa [Flow.operands] using operands_sum f F l
  | .plain _ :: l => by simpa [Flow.operands] using operands_sum f F l
  | .seq _ :: l => by simpa [Flow.operands] using operands_sum f F l
  | .tensor v none :: l => by simpa [Flow.operands] using operands_sum f F l
  | .tensor v (some J) :: l => by simp [Flow.operands, operands_sum f F l]

private theorem operands_mem (f : Flow G) : ∀ (l : List (Input G)), ∀ c ∈ f.operands l, ∃ v, Input.tensor v (some c.2) ∈ l ∧ c.1 = f.value v
  | [], c, hc => by simp [Flow.operands] at hc
  | .config :: l, c, hc => by
    obtain ⟨v, h, e⟩ := operands_mem f l c hc
    exact ⟨v, by simp [h], e⟩
  | .plain _ :: l, c, hc => by
    obtain ⟨v, h, e⟩ := operands_mem f l c hc
    exact ⟨v, by simp [h], e⟩
  | .seq _ :: l, c, hc => by
    obtain ⟨v, h, e⟩ := operands_mem f l c hc
    exact ⟨v, by simp [h], e⟩
  | .tensor v none :: l, c, hc => by
    obtain ⟨v, h, e⟩ := operands_mem f l c hc
    exact ⟨v, by simp [h], e⟩
  | .tensor v (some J) :: l, c, hc => by
    rw [Flow.operands, List.mem_cons] at hc
    rcases hc with rfl | hc
    · exact ⟨v, by simp, rfl⟩
    · obtain ⟨v, h, e⟩ := operands_mem f l c hc
      exact ⟨v, by simp [h], e⟩

private theorem mem_tensorsOf : ∀ (l : List (Input G)) (v : ℕ), v ∈ tensorsOf l → ∃ J, Input.tensor v J ∈ l
  | [], v, hv => by simp [tensorsOf] at hv
  | .config :: l, v, hv => by
    obtain ⟨J, h⟩ := mem_tensorsOf l v hv
    exact ⟨J, by simp [h]⟩
  | .plain _ :: l, v, hv => by
    obtain ⟨J, h⟩ := mem_tensorsOf l v hv
    exact ⟨J, by simp [h]⟩
  | .seq _ :: l, v, hv => by
    obtain ⟨J, h⟩ := mem_tensorsOf l v hv
    exact ⟨J, by simp [h]⟩
  | .tensor u K :: l, v, hv => by
    rw [tensorsOf, List.mem_cons] at hv
    rcases hv with rfl | hv
    · exact ⟨K, by simp⟩
    · obtain ⟨J, h⟩ := mem_tensorsOf l v hv
      exact ⟨J, by simp [h]⟩

private theorem mem_nonDiff : ∀ (l : List (Input G)) (v : ℕ), v ∈ nonDiff l ↔ Input.tensor v none ∈ l
  | [], v => by simp [nonDiff]
  | .config :: l, v => by simp [nonDiff, mem_nonDiff l v]
  | .plain _ :: l, v => by simp [nonDiff, mem_nonDiff l v]
  | .seq _ :: l, v => by simp [nonDiff, mem_nonDiff l v]
  | .tensor u none :: l, v => by simp [nonDiff, mem_nonDiff l v]
  | .tensor u (some J) :: l, v => by simp [nonDiff, mem_nonDiff l v]

private theorem tensorsOf_mem : ∀ (l : List (Input G)) (v : ℕ) J, Input.tensor v J ∈ l → v ∈ tensorsOf l
  | [], v, J, h => by simp at h
  | .config :: l, v, J, h => by simpa [tensorsOf] using tensorsOf_mem l v J (by simpa using h)
  | .plain _ :: l, v, J, h => by simpa [tensorsOf] using tensorsOf_mem l v J (by simpa using h)
  | .seq _ :: l, v, J, h => by simpa [tensorsOf] using tensorsOf_mem l v J (by simpa using h)
  | .tensor u K :: l, v, J, h => by
    rw [List.mem_cons] at h
    rcases h with h | h
    · simp only [Input.tensor.injEq] at h
      simp [tensorsOf, h.1]
    · simp [tensorsOf, tensorsOf_mem l v J h]

private theorem entries_append : ∀ (l m : List (Input G)), entries (l ++ m) = entries l ++ entries m
  | [], m => rfl
  | .config :: l, m => by simp [entries, entries_append l m]
  | .plain _ :: l, m => by simp [entries, entries_append l m]
  | .seq _ :: l, m => by simp [entries, entries_append l m]
  | .tensor u none :: l, m => by simp [entries, entries_append l m]
  | .tensor u (some J) :: l, m => by simp [entries, entries_append l m]

/-! ## The invariant -/

private structure Inv (h : Heap G) (f : Flow G) : Prop where
  len : f.val.length = h.length
  valid : ∀ v < h.length, f.value v < f.deps.length
  older : ∀ n, ∀ c ∈ f.graph n, c.1 < n
  recorded : Recorded h.requiresGrad (cut h.requiresGrad h.children)
  detached : ∀ v, h.requiresGrad v = false → ∀ c ∈ h.children v, c.1 < v ∧ h.children c.1 = []
  sem : ∀ w < h.length, h.requiresGrad w = true → h.children w = [] → ∀ v < h.length, ∀ g, T f.graph (f.value w) (f.value v) g = T (cut h.requiresGrad h.children) w v g

private theorem rg_old (h : Heap G) (x : Cell G) {v : ℕ} (hv : v < h.length) : Heap.requiresGrad (h ++ [x]) v = h.requiresGrad v := by
  unfold Heap.requiresGrad; rw [List.getElem?_append_left hv]

private theorem ch_old (h : Heap G) (x : Cell G) {v : ℕ} (hv : v < h.length) : Heap.children (h ++ [x]) v = h.children v := by
  unfold Heap.children; rw [List.getElem?_append_left hv]

private theorem rg_new (h : Heap G) (x : Cell G) : Heap.requiresGrad (h ++ [x]) h.length = x.requiresGrad := by
  unfold Heap.requiresGrad; simp

private theorem ch_new (h : Heap G) (x : Cell G) : Heap.children (h ++ [x]) h.length = x.children := by
  unfold Heap.children; simp

private theorem rg_out (h : Heap G) {v : ℕ} (hv : h.length ≤ v) : h.requiresGrad v = false := by
  unfold Heap.requiresGrad; rw [List.getElem?_eq_none hv]; rfl

private theorem ch_out (h : Heap G) {v : ℕ} (hv : h.length ≤ v) : h.children v = [] := by
  unfold Heap.children; rw [List.getElem?_eq_none hv]; rfl

private theorem graph_old (f : Flow G) (val : List ℕ) (d : List (ℕ × (G →+ G))) {n : ℕ} (hn : n < f.deps.length) :
    (⟨val, f.deps ++ [d]⟩ : Flow G).graph n = f.graph n := by
  unfold Flow.graph
  simp only [List.getD_eq_getElem?_getD]
  rw [List.getElem?_append_left hn]

private theorem graph_new (f : Flow G) (val : List ℕ) (d : List (ℕ × (G →+ G))) :
    (⟨val, f.deps ++ [d]⟩ : Flow G).graph f.deps.length = d.map fun c => (c.1, some c.2) := by
  unfold Flow.graph
  simp [List.getD_eq_getElem?_getD]

private theorem graph_out (f : Flow G) {n : ℕ} (hn : f.deps.length ≤ n) : f.graph n = [] := by
  unfold Flow.graph
  rw [List.getD_eq_getElem?_getD, List.getElem?_eq_none hn]; rfl

private theorem older_append {f : Flow G} (ho : ∀ n, ∀ c ∈ f.graph n, c.1 < n) (val : List ℕ) {d : List (ℕ × (G →+ G))} (hd : ∀ c ∈ d, c.1 < f.deps.length) :
    ∀ n, ∀ c ∈ (⟨val, f.deps ++ [d]⟩ : Flow G).graph n, c.1 < n := by
  intro n c hc
  rcases Nat.lt_trichotomy n f.deps.length with h | h | h
  · rw [graph_old f val d h] at hc; exact ho n c hc
  · subst h
    rw [graph_new f val d, List.mem_map] at hc
    obtain ⟨a, ha, rfl⟩ := hc
    exact hd a ha
  · rw [graph_out _ (by simp; omega)] at hc; cases hc

private theorem T_append {f : Flow G} (ho : ∀ n, ∀ c ∈ f.graph n, c.1 < n) (val : List ℕ) {d : List (ℕ × (G →+ G))} (hd : ∀ c ∈ d, c.1 < f.deps.length)
    (w : ℕ) {n : ℕ} (hn : n < f.deps.length) (g : G) : T (⟨val, f.deps ++ [d]⟩ : Flow G).graph w n g = T f.graph w n g :=
  T_congr (older_append ho val hd) ho w n (fun u hu => graph_old f val d (by omega)) g

private theorem T_append_new {f : Flow G} (ho : ∀ n, ∀ c ∈ f.graph n, c.1 < n) (val : List ℕ) {d : List (ℕ × (G →+ G))} (hd : ∀ c ∈ d, c.1 < f.deps.length)
    (w : ℕ) (g : G) : T (⟨val, f.deps ++ [d]⟩ : Flow G).graph w f.deps.length g
      = if f.deps.length = w then g else (d.map fun c => T f.graph w c.1 (c.2 g)).sum := by
  rw [T_eq (older_append ho val hd), graph_new, List.map_map]
  split
  · rfl
  · congr 1
    refine List.map_congr_left fun c hc => ?_
    exact T_append ho val hd w (hd c hc) _

private theorem inv_new {h : Heap G} {f : Flow G} (hi : Inv h f) (x : Cell G) (d : List (ℕ × (G →+ G))) (hd : ∀ c ∈ d, c.1 < f.deps.length)
    (hx : ∀ c ∈ x.children, c.1 < h.length ∧ (c.2 = none → h.children c.1 = [])) (hdet : x.requiresGrad = false → ∀ c ∈ x.children, h.children c.1 = [])
    (hsem : ∀ w < h.length, h.requiresGrad w = true → h.children w = [] → ∀ g, (d.map fun c => T f.graph (f.value w) c.1 (c.2 g)).sum =
      if x.requiresGrad then (x.children.map fun c => match c.2 with
        | some J => T (cut h.requiresGrad h.children) w c.1 (J g)
        | none => 0).sum else 0) :
    Inv (h ++ [x]) (f.new d) := by
  have hcut : ∀ v < h.length, cut (Heap.requiresGrad (h ++ [x])) (Heap.children (h ++ [x])) v = cut h.requiresGrad h.children v := by
    intro v hv; unfold cut; rw [rg_old h x hv, ch_old h x hv]
  have hcutn : cut (Heap.requiresGrad (h ++ [x])) (Heap.children (h ++ [x])) h.length = if x.requiresGrad then x.children else [] := by
    unfold cut; rw [rg_new, ch_new]
  have hout : ∀ v, h.length < v → Heap.children (h ++ [x]) v = [] := fun v hv => ch_out _ (by simp; omega)
  have hcutout : ∀ v, h.length < v → cut (Heap.requiresGrad (h ++ [x])) (Heap.children (h ++ [x])) v = [] := fun v hv => by
    unfold cut; rw [hout v hv]; simp
  have hold : ∀ v, ∀ c ∈ cut (Heap.requiresGrad (h ++ [x])) (Heap.children (h ++ [x])) v, c.1 < v := by
    intro v c hc
    rcases Nat.lt_trichotomy v h.length with e | e | e
    · rw [hcut v e] at hc; exact hi.recorded.older v c hc
    · subst e
      rw [hcutn] at hc
      split at hc
      · exact (hx c hc).1
      · cases hc
    · rw [hcutout v e] at hc; cases hc
  have hvalold : ∀ v < h.length, (f.new d).value v = f.value v := fun v hv => by
    unfold Flow.value Flow.new
    simp only [List.getD_eq_getElem?_getD]
    rw [List.getElem?_append_left (by rw [hi.len]; exact hv)]
  have hvalnew : (f.new d).value h.length = f.deps.length := by
    unfold Flow.value Flow.new
    rw [← hi.len]
    simp [List.getD_eq_getElem?_getD]
  have hTold : ∀ w v, v < h.length → ∀ g, T (cut (Heap.requiresGrad (h ++ [x])) (Heap.children (h ++ [x]))) w v g = T (cut h.requiresGrad h.children) w v g :=
    fun w v hv g => T_congr hold hi.recorded.older w v (fun u hu => hcut u (by omega)) g
  have hchold : ∀ v, h.children v = [] → v < h.length → Heap.children (h ++ [x]) v = [] := fun v hv hl => by rw [ch_old h x hl]; exact hv
  refine ⟨?_, ?_, older_append hi.older _ hd, ⟨hold, fun v hv => ?_, fun v c hc h0 => ?_⟩, fun v hv c hc => ?_, fun w hw hr hch v hv g => ?_⟩
  · simp [Flow.new, hi.len]
  · intro v hv
    rw [List.length_append, List.length_singleton] at hv
    rcases Nat.lt_or_ge v h.length with e | e
    · rw [hvalold v e]
      have := hi.valid v e
      simp [Flow.new]; omega
    · obtain rfl : v = h.length := by omega
      rw [hvalnew]; simp [Flow.new]
  · unfold cut at hv
    by_contra hne
    exact hv (if_neg hne)
  · rcases Nat.lt_trichotomy v h.length with e | e | e
    · rw [hcut v e] at hc
      have := hi.recorded.older v c hc
      rw [hcut c.1 (by omega)]
      exact hi.recorded.leaf v c hc h0
    · subst e
      rw [hcutn] at hc
      split at hc
      · rw [hcut c.1 (hx c hc).1]
        unfold cut; rw [(hx c hc).2 h0]; simp
      · cases hc
    · rw [hcutout v e] at hc; cases hc
  · rcases Nat.lt_trichotomy v h.length with e | e | e
    · rw [rg_old h x e] at hv
      rw [ch_old h x e] at hc
      have := hi.detached v hv c hc
      exact ⟨this.1, hchold _ this.2 (by omega)⟩
    · subst e
      rw [rg_new] at hv
      rw [ch_new] at hc
      exact ⟨(hx c hc).1, hchold _ (hdet hv c hc) (hx c hc).1⟩
    · rw [hout v e] at hc; cases hc
  · rw [List.length_append, List.length_singleton] at hw hv
    rcases Nat.lt_or_ge w h.length with ew | ew
    · rw [rg_old h x ew] at hr
      rw [ch_old h x ew] at hch
      rw [hvalold w ew]
      rcases Nat.lt_or_ge v h.length with ev | ev
      · rw [hvalold v ev, hTold w v ev, ← hi.sem w ew hr hch v ev g]
        exact T_append hi.older _ hd _ (hi.valid v ev) g
      · obtain rfl : v = h.length := by omega
        rw [hvalnew]
        have e1 : T (f.new d).graph (f.value w) f.deps.length g = _ := T_append_new hi.older _ hd _ g
        have hvw := hi.valid w ew
        rw [e1, if_neg (by omega), T_eq hold, if_neg (by omega), hcutn, hsem w ew hr hch g]
        split
        · congr 1
          refine List.map_congr_left fun c hc => ?_
          rcases c with ⟨c, _ | J⟩
          · rfl
          · exact (hTold w c (hx _ hc).1 _).symm
        · rfl
    · obtain rfl : w = h.length := by omega
      rw [rg_new] at hr
      rw [ch_new] at hch
      rw [hvalnew]
      rcases Nat.lt_or_ge v h.length with ev | ev
      · rw [hvalold v ev, T_lt hold _ v ev]
        exact T_lt (older_append hi.older _ hd) _ _ (hi.valid v ev) g
      · obtain rfl : v = h.length := by omega
        rw [hvalnew, T_eq hold, if_pos rfl]
        have e1 : T (f.new d).graph f.deps.length f.deps.length g = _ := T_append_new hi.older _ hd _ g
        rw [e1, if_pos rfl]

private theorem inv_val {h : Heap G} {f : Flow G} (hi : Inv h f) (v n : ℕ) (hv : v < h.length) (hr : h.requiresGrad v = false) (hn : n < f.deps.length)
    (hz : ∀ w < h.length, h.requiresGrad w = true → h.children w = [] → ∀ g, T f.graph (f.value w) n g = 0) : Inv h ⟨f.val.set v n, f.deps⟩ := by
  have hval : ∀ u, u ≠ v → (⟨f.val.set v n, f.deps⟩ : Flow G).value u = f.value u := fun u hu => by
    unfold Flow.value
    simp only [List.getD_eq_getElem?_getD]
    rw [List.getElem?_set_ne (Ne.symm hu)]
  have hvalv : (⟨f.val.set v n, f.deps⟩ : Flow G).value v = n := by
    unfold Flow.value
    simp only [List.getD_eq_getElem?_getD]
    rw [List.getElem?_set_self (by rw [hi.len]; exact hv)]; rfl
  refine ⟨by simp [hi.len], fun u hu => ?_, hi.older, hi.recorded, hi.detached, fun w hw hwr hwc u hu g => ?_⟩
  · by_cases e : u = v
    · subst e; rw [hvalv]; exact hn
    · rw [hval u e]; exact hi.valid u hu
  · have hwv : w ≠ v := fun e => by rw [e, hr] at hwr; cases hwr
    rw [hval w hwv]
    by_cases e : u = v
    · subst e
      rw [hvalv, T_leaf hi.recorded.older w u (by simp [cut, hr]), if_neg (Ne.symm hwv)]
      exact hz w hw hwr hwc g
    · rw [hval u e]; exact hi.sem w hw hwr hwc u hu g

private theorem inv_node {h : Heap G} {f : Flow G} (hi : Inv h f) (d : List (ℕ × (G →+ G))) (hd : ∀ c ∈ d, c.1 < f.deps.length) : Inv h ⟨f.val, f.deps ++ [d]⟩ := by
  refine ⟨hi.len, fun v hv => ?_, older_append hi.older _ hd, hi.recorded, hi.detached, fun w hw hr hc v hv g => ?_⟩
  · have := hi.valid v hv
    simp only [List.length_append, List.length_singleton]
    exact Nat.lt_succ_of_lt this
  · rw [← hi.sem w hw hr hc v hv g]
    exact T_append hi.older _ hd _ (hi.valid v hv) g

private theorem inv_assign {h : Heap G} {f : Flow G} (hi : Inv h f) (v : ℕ) (hv : v < h.length) (hr : h.requiresGrad v = false) (d : List (ℕ × (G →+ G)))
    (hd : ∀ c ∈ d, c.1 < f.deps.length)
    (hz : ∀ w < h.length, h.requiresGrad w = true → h.children w = [] → ∀ g, (d.map fun c => T f.graph (f.value w) c.1 (c.2 g)).sum = 0) : Inv h (f.assign v d) := by
  refine inv_val (inv_node hi d hd) v f.deps.length hv hr (by simp) fun w hw hwr hwc g => ?_
  have := hi.valid w hw
  have e : T (⟨f.val, f.deps ++ [d]⟩ : Flow G).graph (f.value w) f.deps.length g = _ := T_append_new hi.older _ hd _ g
  rw [if_neg (by omega), hz w hw hwr hwc g] at e
  exact e

/-- a tensor that requires no gradient has derivative zero -/
private theorem T_const {h : Heap G} {f : Flow G} (hi : Inv h f) {w v : ℕ} (hw : w < h.length) (hr : h.requiresGrad w = true) (hc : h.children w = []) (hv : v < h.length)
    (hvr : h.requiresGrad v = false) (g : G) : T f.graph (f.value w) (f.value v) g = 0 := by
  rw [hi.sem w hw hr hc v hv g, T_leaf hi.recorded.older w v (by simp [cut, hvr]), if_neg]
  rintro rfl
  rw [hvr] at hr; cases hr

private theorem operands_valid {h : Heap G} {f : Flow G} (hi : Inv h f) {l : List (Input G)} (hl : Exist h l) : ∀ c ∈ f.operands l, c.1 < f.deps.length := by
  intro c hc
  obtain ⟨v, hv, e⟩ := operands_mem f l c hc
  rw [e]
  exact hi.valid v (hl v _ hv)

private theorem operands_harmless {h : Heap G} {f : Flow G} (hi : Inv h f) {l : List (Input G)} (hl : Exist h l) (hh : Harmless h l) {w : ℕ} (hw : w < h.length)
    (hr : h.requiresGrad w = true) (hc : h.children w = []) (g : G) : ((f.operands l).map fun c => T f.graph (f.value w) c.1 (c.2 g)).sum = 0 := by
  refine List.sum_eq_zero fun x hx => ?_
  rw [List.mem_map] at hx
  obtain ⟨c, hcm, rfl⟩ := hx
  obtain ⟨v, hv, e⟩ := operands_mem f l c hcm
  rw [e]
  cases hvr : h.requiresGrad v with
  | false => exact T_const hi hw hr hc (hl v _ hv) hvr _
  | true =>
    rw [hh v _ hv hvr]
    exact T_zero hi.older _ _

private theorem operands_append (f : Flow G) (l m : List (Input G)) : f.operands (l ++ m) = f.operands l ++ f.operands m := by
  induction l with
  | nil => rfl
  | cons x l ih =>
    cases x with
    | tensor v J => cases J <;> simp [Flow.operands, ih]
    | _ => simp [Flow.operands, ih]

/-- the heart: what is recorded for a supported call has the derivative of the flow -/
private theorem inv_call {h : Heap G} {f : Flow G} (hi : Inv h f) (enabled : Bool) (args kwargs : List (Input G)) (hs : Supported enabled h (.call args kwargs 0)) :
    Inv (h ++ [record enabled h args kwargs]) (f.new (if enabled then f.operands (flat args ++ flat kwargs) else [])) := by
  obtain ⟨hex, hsup⟩ := hs
  cases enabled with
  | false =>
    refine inv_new hi _ _ (by simp) (by simp [record, fresh]) (by simp [record, fresh]) ?_
    intro w _ _ _ g
    simp [record, fresh]
  | true =>
    obtain ⟨hal, hkw, hnd⟩ := hsup rfl
    have hexa : Exist h (flat args) := fun v J hv => hex v J (by simp [hv])
    have hexk : Exist h (flat kwargs) := fun v J hv => hex v J (by simp [hv])
    have hval := operands_valid hi hex
    rw [if_pos rfl]
    have hsum : ∀ w < h.length, h.requiresGrad w = true → h.children w = [] → ∀ g,
        ((f.operands (flat args ++ flat kwargs)).map fun c => T f.graph (f.value w) c.1 (c.2 g)).sum = ((flat args).map fun x => match x with
          | .tensor v (some J) => T f.graph (f.value w) (f.value v) (J g)
          | _ => 0).sum := by
      intro w hw hr hc g
      rw [operands_append, List.map_append, List.sum_append, operands_harmless hi hexk hkw hw hr hc g, add_zero]
      exact operands_sum f (fun n J => T f.graph (f.value w) n (J g)) (flat args)
    cases hany : (tensorsOf (flat args)).any h.requiresGrad with
    | false =>
      have hrec : record true h args kwargs = fresh := by simp [record, hany]
      rw [hrec]
      refine inv_new hi _ _ hval (by simp [fresh]) (by simp [fresh]) fun w hw hr hc g => ?_
      rw [hsum w hw hr hc g]
      simp only [fresh]
      refine List.sum_eq_zero fun x hx => ?_
      rw [List.mem_map] at hx
      obtain ⟨y, hy, rfl⟩ := hx
      split
      · rename_i v J
        have hvr : h.requiresGrad v = false := by
          rw [List.any_eq_false] at hany
          simpa using hany v (tensorsOf_mem _ v _ hy)
        exact T_const hi hw hr hc (hexa v _ hy) hvr _
      · rfl
    | true =>
      have hrec : record true h args kwargs = ⟨true, assign (nonDiff (flat args ++ flat kwargs)) (tensorsOf (flat args)) (entries (flat args ++ flat kwargs))⟩ := by
        simp [record, hany]
      rw [hrec]
      have hn : ∀ v, Input.tensor v none ∈ flat args → v ∈ nonDiff (flat args ++ flat kwargs) := fun v hv => (mem_nonDiff _ v).2 (by simp [hv])
      have hsm : ∀ v J, Input.tensor v (some J) ∈ flat args → v ∉ nonDiff (flat args ++ flat kwargs) := fun v J hv hm =>
        (hnd v ((mem_nonDiff _ v).1 hm)).2 J hv
      rw [entries_append]
      refine inv_new hi _ _ hval (fun c hc => ⟨?_, fun h0 => ?_⟩) (by simp) fun w hw hr hc g => ?_
      · have hm := List.mem_map_of_mem (f := Prod.fst) hc
        rw [assign_fst] at hm
        obtain ⟨J, hJ⟩ := mem_tensorsOf _ _ hm
        exact hexa _ J hJ
      · exact (hnd _ ((mem_nonDiff _ _).1 (assign_none _ _ _ hal (flat_noSeq args) hn hsm c hc h0))).1
      · rw [hsum w hw hr hc g, if_pos rfl,
          assign_aligned _ _ (flat args) hal (flat_noSeq args) hn hsm (fun v J => T (cut h.requiresGrad h.children) w v (J g))]
        congr 1
        refine List.map_congr_left fun x hx => ?_
        split
        · rename_i v J
          exact hi.sem w hw hr hc v (hexa v _ hx) _
        · rfl

private theorem inv_constants : ∀ (k : ℕ) (h : Heap G) (f : Flow G), Inv h f → Inv (h ++ List.replicate k fresh) (f.constants k)
  | 0, h, f, hi => by simpa [Flow.constants] using hi
  | k + 1, h, f, hi => by
    have h1 : Inv (h ++ [fresh]) (f.new []) := inv_new hi fresh [] (by simp) (by simp [fresh]) (by simp [fresh]) (fun w _ _ _ g => by simp [fresh])
    have := inv_constants k _ _ h1
    rw [List.append_assoc] at this
    simpa [Flow.constants, List.replicate_succ] using this

private theorem flat_single (v : ℕ) (J : Option (G →+ G)) (l : List (Input G)) : flat (.tensor v J :: l) = .tensor v J :: flat l := by rw [flat, flat1]; rfl

private theorem inv_step {h h' : Heap G} {f : Flow G} (hi : Inv h f) (enabled : Bool) (i : Instr G) (hs : Supported enabled h i) (hst : step enabled h i = some h') :
    Inv h' (f.step enabled i) := by
  cases i with
  | leaf r =>
    simp only [step, Option.some.injEq] at hst
    subst hst
    exact inv_new hi _ [] (by simp) (by simp) (by simp) (fun w _ _ _ g => by simp)
  | call args kwargs extra =>
    simp only [step, Option.some.injEq] at hst
    subst hst
    have h1 := inv_constants extra _ _ (inv_call hi enabled args kwargs hs)
    rw [List.append_assoc] at h1
    exact h1
  | native args =>
    simp only [step, Option.some.injEq] at hst
    subst hst
    obtain ⟨hex, hh⟩ := hs
    cases enabled with
    | false => exact inv_new hi _ [] (by simp) (by simp [fresh]) (by simp [fresh]) (fun w _ _ _ g => by simp [fresh])
    | true =>
      refine inv_new hi _ _ (operands_valid hi hex) (by simp [fresh]) (by simp [fresh]) fun w hw hr hc g => ?_
      rw [if_pos rfl, operands_harmless hi hex (hh rfl) hw hr hc g]; simp [fresh]
  | cloned v others =>
    simp only [step, Option.some.injEq] at hst
    subst hst
    obtain ⟨hv, hex, hh⟩ := hs
    cases enabled with
    | false => exact inv_new hi _ [] (by simp) (by simp [record, fresh]) (by simp [record, fresh]) (fun w _ _ _ g => by simp [record, fresh])
    | true =>
      have hd : ∀ c ∈ (f.value v, AddMonoidHom.id G) :: f.operands (flat others), c.1 < f.deps.length := by
        intro c hc
        rw [List.mem_cons] at hc
        rcases hc with rfl | hc
        · exact hi.valid v hv
        · exact operands_valid hi hex c hc
      cases hvr : h.requiresGrad v with
      | false =>
        have hrec : record true h [.tensor v (some (AddMonoidHom.id G))] [] = fresh := by simp [record, flat, flat1, tensorsOf, hvr]
        rw [hrec]
        refine inv_new hi _ _ hd (by simp [fresh]) (by simp [fresh]) fun w hw hr hc g => ?_
        rw [if_pos rfl, List.map_cons, List.sum_cons, operands_harmless hi hex (hh rfl) hw hr hc g, T_const hi hw hr hc hv hvr]
        simp [fresh]
      | true =>
        have hrec : record true h [.tensor v (some (AddMonoidHom.id G))] [] = ⟨true, [(v, some (AddMonoidHom.id G))]⟩ := by
          simp [record, flat, flat1, tensorsOf, hvr, nonDiff, entries, assign]
        rw [hrec]
        refine inv_new hi _ _ hd (by simpa using hv) (by simp) fun w hw hr hc g => ?_
        rw [if_pos rfl, List.map_cons, List.sum_cons, operands_harmless hi hex (hh rfl) hw hr hc g, hi.sem w hw hr hc v hv]
        simp
  | inPlace v J args kwargs =>
    obtain ⟨hv, hvr, hex, hh⟩ := hs
    simp only [step, hvr, Bool.and_false, Bool.false_eq_true, if_false, Option.some.injEq] at hst
    subst hst
    have hex' : Exist h (flat (.tensor v (some J) :: args) ++ flat kwargs) := by
      intro u K hu
      rw [flat_single, List.cons_append, List.mem_cons] at hu
      rcases hu with hu | hu
      · simp only [Input.tensor.injEq] at hu; rw [hu.1]; exact hv
      · exact hex u K hu
    have hrg : enabled = true → ∀ u K, Input.tensor u K ∈ flat (.tensor v (some J) :: args) ++ flat kwargs → h.requiresGrad u = false := by
      intro he u K hu
      rw [flat_single, List.cons_append, List.mem_cons] at hu
      rcases hu with hu | hu
      · simp only [Input.tensor.injEq] at hu; rw [hu.1]; exact hvr
      · exact hh he u K hu
    have hrec : record enabled h (.tensor v (some J) :: args) kwargs = fresh := by
      cases enabled with
      | false => simp [record]
      | true =>
        have : (tensorsOf (flat (.tensor v (some J) :: args))).any h.requiresGrad = false := by
          rw [List.any_eq_false]
          intro u hu
          obtain ⟨K, hK⟩ := mem_tensorsOf _ _ hu
          rw [hrg rfl u K (by simp [hK])]; simp
        simp [record, this]
    rw [hrec]
    obtain ⟨d, hdef⟩ : ∃ d, (if enabled then f.operands (flat (.tensor v (some J) :: args) ++ flat kwargs) else []) = d := ⟨_, rfl⟩
    have hd : ∀ c ∈ d, c.1 < f.deps.length := by
      rw [← hdef]
      split
      · exact operands_valid hi hex'
      · simp
    have hz : ∀ w < h.length, h.requiresGrad w = true → h.children w = [] → ∀ g, (d.map fun c => T f.graph (f.value w) c.1 (c.2 g)).sum = 0 := by
      intro w hw hr hc g
      rw [← hdef]
      split
      · rename_i he
        exact operands_harmless hi hex' (fun u K hu hur => by rw [hrg he u _ hu] at hur; cases hur) hw hr hc g
      · simp
    have h1 : Inv (h ++ [fresh]) (f.new d) := inv_new hi fresh d hd (by simp [fresh]) (by simp [fresh]) (fun w hw hr hc g => by rw [hz w hw hr hc g]; simp [fresh])
    have h2 := inv_val h1 v f.deps.length (by simp; omega) (by rw [rg_old h fresh hv]; exact hvr) (by simp [Flow.new]) (by
      intro w hw hr hc g
      rw [List.length_append, List.length_singleton] at hw
      rcases Nat.lt_or_ge w h.length with e | e
      · rw [rg_old h fresh e] at hr
        rw [ch_old h fresh e] at hc
        have hval : (f.new d).value w = f.value w := by
          unfold Flow.value Flow.new
          simp only [List.getD_eq_getElem?_getD]
          rw [List.getElem?_append_left (by rw [hi.len]; exact e)]
        have hvw := hi.valid w e
        have e1 : T (f.new d).graph (f.value w) f.deps.length g = _ := T_append_new hi.older _ hd _ g
        rw [hval, e1, if_neg (by omega), hz w e hr hc g]
      · obtain rfl : w = h.length := by omega
        rw [rg_new] at hr; cases hr)
    have e : f.step enabled (.inPlace v J args kwargs) = ⟨(f.new d).val.set v f.deps.length, (f.new d).deps⟩ := by
      simp only [Flow.step, hdef]
      simp [Flow.new]
    rw [e]
    exact h2
  | setItem v J value =>
    simp only [step, Option.some.injEq] at hst
    subst hst
    obtain ⟨hv, hvr, hex, hh⟩ := hs
    cases enabled with
    | false => exact inv_assign hi v hv hvr [] (by simp) (fun w _ _ _ g => by simp)
    | true =>
      have hex' : Exist h (flat [.tensor v (some J), value]) := by
        intro u K hu
        rw [flat_single, List.mem_cons] at hu
        rcases hu with hu | hu
        · simp only [Input.tensor.injEq] at hu; rw [hu.1]; exact hv
        · exact hex u K hu
      refine inv_assign hi v hv hvr _ (operands_valid hi hex') fun w hw hr hc g => ?_
      rw [if_pos rfl]
      refine operands_harmless hi hex' (fun u K hu hur => ?_) hw hr hc g
      rw [flat_single, List.mem_cons] at hu
      rcases hu with hu | hu
      · simp only [Input.tensor.injEq] at hu
        rw [hu.1, hvr] at hur; cases hur
      · exact hh rfl u K hu hur
  | aliased v J =>
    obtain ⟨hv, hvr⟩ := hs
    simp only [step, hvr, Bool.and_false, Bool.false_eq_true, if_false, Option.some.injEq] at hst
    subst hst
    cases enabled with
    | false => exact inv_assign hi v hv hvr [] (by simp) (fun w _ _ _ g => by simp)
    | true =>
      refine inv_assign hi v hv hvr [(f.value v, J)] (by simpa using hi.valid v hv) fun w hw hr hc g => ?_
      simpa using T_const hi hw hr hc hv hvr _
  | detach v =>
    obtain ⟨hv, hc⟩ := hs
    simp only [step, Option.some.injEq] at hst
    subst hst
    split
    · rename_i he
      rw [Bool.and_eq_true] at he
      exact inv_new hi _ [] (by simp) (by simpa using hv) (by simpa using hc he.1) (fun w _ _ _ g => by simp)
    · exact inv_new hi _ [] (by simp) (by simp [fresh]) (by simp [fresh]) (fun w _ _ _ g => by simp [fresh])

private theorem inv_run : ∀ (p : Program G) (h h' : Heap G) (f : Flow G), Inv h f → SupportedRun h p → run h p = some h' → Inv h' (f.run p)
  | [], h, h', f, hi, _, hr => by
    simp only [run, Option.some.injEq] at hr
    subst hr; exact hi
  | (enabled, i) :: p, h, h', f, hi, hs, hr => by
    rw [run, Option.bind_eq_some_iff] at hr
    obtain ⟨h1, e1, e2⟩ := hr
    exact inv_run p h1 h' _ (inv_step hi enabled i hs.1 e1) (hs.2 h1 e1) e2

private theorem inv_init : Inv ([] : Heap G) ⟨[], []⟩ := by
  refine ⟨rfl, by simp, ?_, ⟨?_, ?_, ?_⟩, ?_, by simp⟩
  · intro n c hc
    rw [graph_out _ (by simp)] at hc; cases hc
  all_goals intro v; simp [cut, rg_out, ch_out]

/-- **C68, partial** (the counterexamples below show what is missing). Run any program of tensor operations in which every call is supported, with autograd switched on and off at will, and call `t.backward(g)` on any
tensor that requires a gradient. Then every leaf that requires a gradient receives the derivative of `t` with respect to it, as given by the flow of data through the program. -/
theorem C68_program_partial (p : Program G) (h : Heap G) (hs : SupportedRun [] p) (hr : run [] p = some h) (t w : ℕ) (ht : h.requiresGrad t = true)
    (hw : h.requiresGrad w = true) (hc : h.children w = []) (g : G) : ((backward h.requiresGrad h.tape t g).grad w).getD 0 = derivative p t w g := by
  have hi := inv_run p [] h _ inv_init hs hr
  have hlt : ∀ v, h.requiresGrad v = true → v < h.length := fun v hv => by
    by_contra hne
    rw [rg_out h (by omega)] at hv; cases hv
  rw [C42_detached_leaf_partial h.tape hi.recorded (fun v hv c hc => (hi.detached v hv c hc).2) (fun v _ => ⟨rfl, rfl, rfl⟩) rfl t ht g w hc hw]
  have := hi.sem w (hlt w hw) hw hc t (hlt t ht) g
  unfold T at this
  unfold derivative flowOf
  rw [this]
  show 0 + _ = _
  rw [zero_add]
  rfl

/-- A supported program never raises an exception. -/
theorem C68_no_exception (p : Program G) (h : Heap G) (hs : SupportedRun h p) : ∃ h', run h p = some h' := by
  induction p generalizing h with
  | nil => exact ⟨h, rfl⟩
  | cons x p ih =>
    obtain ⟨enabled, i⟩ := x
    obtain ⟨h1, e⟩ : ∃ h1, step enabled h i = some h1 := by
      cases i with
      | inPlace v J args kwargs =>
        obtain ⟨_, hvr, _⟩ := hs.1
        simp [step, hvr]
      | aliased v J =>
        obtain ⟨_, hvr⟩ := hs.1
        simp [step, hvr]
      | _ => exact ⟨_, rfl⟩
    obtain ⟨h2, e2⟩ := ih h1 (hs.2 h1 e)
    exact ⟨h2, by rw [run, e]; exact e2⟩

/-- **C68.** In a supported program nothing is lost silently: a tensor that does not require a gradient has derivative zero with respect to every leaf that does. -/
theorem C68_not_required (p : Program G) (h : Heap G) (hs : SupportedRun [] p) (hr : run [] p = some h) (t w : ℕ) (hl : t < h.length) (ht : h.requiresGrad t = false)
    (hw : h.requiresGrad w = true) (hc : h.children w = []) (g : G) : derivative p t w g = 0 := by
  have hi := inv_run p [] h _ inv_init hs hr
  have hlt : w < h.length := by
    by_contra hne
    rw [rg_out h (by omega)] at hw; cases hw
  exact T_const hi hlt hw hc hl ht g

/-- An in-place operation on a tensor that requires a gradient is rejected, whatever its name and arguments. -/
theorem C68_in_place_rejected (h : Heap G) (v : ℕ) (hv : h.requiresGrad v = true) (J : G →+ G) (args kwargs : List (Input G)) :
    step true h (.inPlace v J args kwargs) = none := by
  simp [step, hv]

/-! ## Examples -/

/-- multiplication by `k` as local derivative -/
def times (k : ℤ) : ℤ →+ ℤ := k • AddMonoidHom.id ℤ

/-- the gradient of leaf `w` after `t.backward(1)` -/
def gradOf (p : Program ℤ) (t w : ℕ) : Option ℤ := (run [] p).bind fun h => (backward h.requiresGrad h.tape t 1).grad w

/-- `x`, `c` (no gradient), `y = x * c` at `c = 3`, `d = x.detach()` , `m, argmax = y.max(0)`, `z = cat([y, m, d])`, a comparison `b = z < 0`, under `no_grad` another `n = y + z`,
an update of `c` in place, and `w = z + y` (all derivatives as numbers). -/
def sampleProgram : Program ℤ :=
  [(true, .leaf true), (true, .leaf false), (true, .call [.tensor 0 (some (times 3)), .tensor 1 (some (times 2))] [] 0), (true, .detach 0),
   (true, .call [.tensor 2 (some (times 5)), .config] [] 1), (true, .call [.seq [.tensor 2 (some (times 1)), .tensor 4 (some (times 1)), .tensor 3 (some (times 1))], .config] [] 0),
   (true, .native [.tensor 6 (some 0)]), (false, .call [.tensor 2 (some (times 1)), .tensor 6 (some (times 1))] [] 0),
   (true, .inPlace 1 (times 1) [.plain (times 1)] []), (true, .call [.tensor 6 (some (times 1)), .tensor 2 (some (times 1)), .plain (times 4)] [] 0)]

example : gradOf sampleProgram 10 0 = some 21 ∧ derivative sampleProgram 10 0 1 = 21 := ⟨by decide, by decide⟩

example : SupportedRun [] sampleProgram := by
  simp [sampleProgram, SupportedRun, step, Supported, Exist, Harmless, Aligned, flat, flat1, record, tensorsOf, nonDiff, entries, assign, Heap.requiresGrad, Heap.children, fresh]
  refine ⟨?_, ?_, ?_, ?_⟩ <;> intro v J h <;> omega

/-- **C68 fails for keyword arguments.** `z = x.mul(other=y)`: the gradient of `y` is missing; if `x` requires none, `z` requires none either. -/
theorem C68_keyword_wrong :
    let p : Program ℤ := [(true, .leaf true), (true, .leaf true), (true, .call [.tensor 0 (some (times 3))] [.tensor 1 (some (times 2))] 0)]
    let q : Program ℤ := [(true, .leaf false), (true, .leaf true), (true, .call [.tensor 0 (some (times 3))] [.tensor 1 (some (times 2))] 0)]
    gradOf p 2 0 = some 3 ∧ gradOf p 2 1 = none ∧ derivative p 2 1 1 = 2
      ∧ (run [] q).map (·.requiresGrad 2) = some false ∧ gradOf q 2 1 = none ∧ derivative q 2 1 1 = 2 := by
  refine ⟨by decide, by decide, by decide, by decide, by decide, by decide⟩

/-- **C68 fails for a plaintext argument before an encrypted one.** `x.batchnorm(weight, bias)` with plaintext weight: the bias receives the gradient of the weight. -/
theorem C68_alignment_wrong :
    let p : Program ℤ := [(true, .leaf true), (true, .leaf true), (true, .call [.tensor 0 (some (times 3)), .plain (times 7), .tensor 1 (some (times 1))] [] 0)]
    gradOf p 2 1 = some 7 ∧ derivative p 2 1 1 = 1 := by
  refine ⟨by decide, by decide⟩

/-- The functions of `regular.py` that return tensors and have no `AutogradFunction`, a complete list: no call of these is recorded. `index_add` and `scatter_add` record the clone that
they start from; `prod` records its clone, and drops it at its first `split`; the others are `native`. -/
theorem C68_unrecorded_functions :
    (regularFunctions.filter fun n => !propertyFunctions.contains n && !registry.contains n)
      = ["__setitem__", "expand", "index_add", "prod", "repeat", "scatter_add", "split", "unbind", "unfold"] := by
  decide +kernel

/-- **C68 fails for functions without gradient.** `split`, `unbind`, `expand`, `repeat`, `unfold`, `conv_transpose1d` and `conv_transpose2d` return tensors that require no
gradient, without an exception. -/
theorem C68_native_wrong :
    let p : Program ℤ := [(true, .leaf true), (true, .native [.tensor 0 (some (times 1))])]
    (run [] p).map (·.requiresGrad 1) = some false ∧ gradOf p 1 0 = none ∧ derivative p 1 0 1 = 1 := by
  refine ⟨by decide, by decide, by decide⟩

/-- **C68 fails for `prod`** (regular.py:202-225) over two elements `a`, `b` of `x`: `result = self.clone()`, `result.split`, `x.mul_(y)`, `cat`, `squeeze`. The result requires no
gradient. (The derivative with respect to the two halves is given as the numbers 3 and 2.) -/
theorem C68_prod_wrong :
    let p : Program ℤ := [(true, .leaf true), (true, .call [.tensor 0 (some (times 1))] [] 0), (true, .native [.tensor 1 (some (times 1))]), (true, .native [.tensor 1 (some (times 1))]),
      (true, .native [.tensor 1 (some 0)]), (true, .inPlace 2 (times 3) [.tensor 3 (some (times 2))] []),
      (true, .call [.seq [.tensor 2 (some (times 1)), .tensor 4 (some (times 1))], .config] [] 0), (true, .call [.tensor 6 (some (times 1)), .config] [] 0)]
    (run [] p).map (·.requiresGrad 7) = some false ∧ gradOf p 7 0 = none ∧ derivative p 7 0 1 = 5 := by
  refine ⟨by decide, by decide, by decide⟩

/-- **C68 fails for the added tensor of `index_add` and `scatter_add`**, which receives no gradient. -/
theorem C68_index_add_wrong :
    let p : Program ℤ := [(true, .leaf true), (true, .leaf true), (true, .cloned 0 [.config, .config, .tensor 1 (some (times 1))])]
    gradOf p 2 0 = some 1 ∧ gradOf p 2 1 = none ∧ derivative p 2 1 1 = 1 := by
  refine ⟨by decide, by decide, by decide⟩

/-- **C68 fails for accumulation in place.** `total += y` where `y` requires a gradient and `total` does not: `total` still requires none, and the gradient of `y` is lost. -/
theorem C68_in_place_wrong :
    let p : Program ℤ := [(true, .leaf false), (true, .leaf true), (true, .inPlace 0 (times 1) [.tensor 1 (some (times 1))] [])]
    (run [] p).map (·.requiresGrad 0) = some false ∧ gradOf p 0 1 = none ∧ derivative p 0 1 1 = 1 := by
  refine ⟨by decide, by decide, by decide⟩

/-- **C68 fails for assignment to an index.** `y = 5 * x`, `y[0] = v`, `y.backward()`: `v` receives no gradient, and `x` receives the gradient of the values that were overwritten. -/
theorem C68_set_item_wrong :
    let p : Program ℤ := [(true, .leaf true), (true, .leaf true), (true, .call [.tensor 0 (some (times 5))] [] 0), (true, .setItem 2 0 (.tensor 1 (some (times 1))))]
    gradOf p 2 0 = some 5 ∧ derivative p 2 0 1 = 0 ∧ gradOf p 2 1 = none ∧ derivative p 2 1 1 = 1 := by
  refine ⟨by decide, by decide, by decide, by decide⟩

/-- **C68 fails for `dropout(inplace=True)`.** `y = 3 * x`, `y.dropout(inplace=True)`, `z = y + 0`: the tensor `y` becomes its own child and waits for itself; `x` receives no
gradient. -/
theorem C68_dropout_wrong :
    let p : Program ℤ := [(true, .leaf true), (true, .call [.tensor 0 (some (times 3))] [] 0), (true, .aliased 1 (times 2)), (true, .call [.tensor 1 (some (times 1))] [] 0)]
    gradOf p 2 0 = none ∧ derivative p 2 0 1 = 6 := by
  refine ⟨by decide, by decide⟩

/-- **C68 fails for `detach()` of a computed tensor.** `y = 3 * x`, `z = y * y.detach()`: the detached copy still has `y` as its child, `y` waits for a gradient that never comes,
and `x` receives none. -/
theorem C68_detach_wrong :
    let p : Program ℤ := [(true, .leaf true), (true, .call [.tensor 0 (some (times 3))] [] 0), (true, .detach 1), (true, .call [.tensor 1 (some (times 2)), .tensor 2 (some (times 2))] [] 0)]
    gradOf p 3 0 = none ∧ derivative p 3 0 1 = 6 := by
  refine ⟨by decide, by decide⟩

/-- **C68 fails for a tensor that is its own target.** `x.binary_cross_entropy(x)`: marking the target marks the prediction as well. -/
theorem C68_own_target_wrong :
    let p : Program ℤ := [(true, .leaf true), (true, .call [.tensor 0 (some (times 3)), .tensor 0 none] [] 0)]
    gradOf p 1 0 = none ∧ derivative p 1 0 1 = 3 := by
  refine ⟨by decide, by decide⟩

end CrypTen.Recording

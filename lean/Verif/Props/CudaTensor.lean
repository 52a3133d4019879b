import Verif.Spec.CudaTensor
import Verif.Props.BinaryTensor

/-!
# C90: operators of CUDALongTensor
-/

namespace CrypTen.CudaT
open NdTensor Onnx OnnxSpec BinT
variable {R S T : Type} {junk : BinOp → I64 → I64 → I64}

/-! ## torch does not look outside of the tensors -/

theorem same_refl (x : NdTensor R) : Same x x := ⟨rfl, fun _ _ => rfl⟩

theorem same_broadcast {x y : NdTensor R} (h : Same x y) {s : List ℕ} (hf : Onnx.Fits x.shape s) : Same (x.broadcast s) (y.broadcast s) := by
  refine ⟨rfl, fun idx hi => ?_⟩
  show x.data _ = y.data _
  rw [← h.1]
  exact h.2 _ (stretch_valid hf hi)

theorem zip_eq {k : R → S → T} {x : NdTensor R} {y : NdTensor S} {s : List ℕ} (h : IsCommonShape [x.shape, y.shape] s) :
    Onnx.zip k x y = some { shape := s, data := fun idx => k ((x.broadcast s).data idx) ((y.broadcast s).data idx) } := by
  obtain ⟨f1, f2⟩ := commonShape_fits h
  rw [Onnx.zip, commonShape_some.2 h, Option.bind_some, expand_of_fits f1, Option.bind_some, expand_of_fits f2]
  rfl

theorem rel_expand {x y : NdTensor R} (h : Same x y) (s : List ℕ) : Option.Rel Same (x.expand s) (y.expand s) := by
  rcases expand_cases x s with ⟨hf, e⟩ | ⟨hf, e⟩
  · rw [e, expand_of_fits (h.1 ▸ hf)]
    exact .some (same_broadcast h hf)
  · rcases expand_cases y s with ⟨hf', _⟩ | ⟨_, e'⟩
    · exact absurd (h.1.symm ▸ hf') hf
    · rw [e, e']; exact .none

theorem rel_expand' {x y : NdTensor R} (h : Same x y) (s : List ℕ) : Option.Rel (fun a b => Same a b ∧ a.shape = s) (x.expand s) (y.expand s) := by
  have := rel_expand h s
  rcases expand_cases x s with ⟨hf, e⟩ | ⟨hf, e⟩
  · rw [e] at this ⊢
    cases h' : y.expand s with
    | none => rw [h'] at this; cases this
    | some u =>
      rw [h'] at this
      cases this with
      | some hs => exact .some ⟨hs, rfl⟩
  · rw [e] at this ⊢
    cases h' : y.expand s with
    | none => exact .none
    | some u => rw [h'] at this; cases this

theorem rel_zip {k : R → S → T} {x x' : NdTensor R} {y y' : NdTensor S} (hx : Same x x') (hy : Same y y') : Option.Rel Same (Onnx.zip k x y) (Onnx.zip k x' y') := by
  by_cases h : ∃ s, IsCommonShape [x.shape, y.shape] s
  · obtain ⟨s, hs⟩ := h
    rw [zip_eq hs, zip_eq (s := s) (by rw [← hx.1, ← hy.1]; exact hs)]
    obtain ⟨f1, f2⟩ := commonShape_fits hs
    refine .some ⟨rfl, fun idx hi => ?_⟩
    show k _ _ = k _ _
    rw [(same_broadcast hx f1).2 idx hi, (same_broadcast hy f2).2 idx hi]
  · rw [zip_none h, zip_none (by rw [← hx.1, ← hy.1]; exact h)]
    exact .none

theorem same_map {k : R → S} {x x' : NdTensor R} (hx : Same x x') : Same (mapEntries k x) (mapEntries k x') :=
  ⟨hx.1, fun idx hi => congrArg k (hx.2 idx hi)⟩

/-- Operands with the same entries. -/
inductive SameArg : TArg → TArg → Prop
  | ten {x y} : Same x y → SameArg (.ten x) (.ten y)
  | int (z) : SameArg (.int z) (.int z)

theorem rel_map {α α' β β' : Type} {r : α → α' → Prop} {q : β → β' → Prop} {f : α → β} {g : α' → β'} {a : Option α} {b : Option α'} (h : Option.Rel r a b) (hf : ∀ x y, r x y → q (f x) (g y)) :
    Option.Rel q (a.map f) (b.map g) := by
  cases h with
  | none => exact .none
  | some h => exact .some (hf _ _ h)

theorem rel_bind {α α' β β' : Type} {r : α → α' → Prop} {q : β → β' → Prop} {f : α → Option β} {g : α' → Option β'} {a : Option α} {b : Option α'} (h : Option.Rel r a b) (hf : ∀ x y, r x y → Option.Rel q (f x) (g y)) :
    Option.Rel q (a.bind f) (b.bind g) := by
  cases h with
  | none => exact .none
  | some h => exact hf _ _ h

theorem rel_eq {α : Type} (a : Option α) : Option.Rel Eq a a := by cases a <;> constructor; rfl

theorem rel_torchZip {k : I64 → I64 → I64} {a a' b b' : TArg} (ha : SameArg a a') (hb : SameArg b b') : Option.Rel Same (torchZip k a b) (torchZip k a' b') := by
  cases ha with
  | ten hx =>
    cases hb with
    | ten hy => exact rel_zip hx hy
    | int z => exact rel_map (rel_eq (toWord z)) fun w w' e => e ▸ same_map hx
  | int z =>
    cases hb with
    | ten hy => exact rel_map (rel_eq (toWord z)) fun w w' e => e ▸ same_map hy
    | int z => exact .none

theorem rel_torchIn {k : I64 → I64 → I64} {x x' : NdTensor I64} {b b' : TArg} (hx : Same x x') (hb : SameArg b b') : Option.Rel Same (torchIn k x b) (torchIn k x' b') := by
  cases hb with
  | ten hy =>
    rename_i y y'
    unfold torchIn
    simp only [← hx.1]
    rcases expand_cases y x.shape with ⟨hf, e⟩ | ⟨hf, e⟩
    · rw [e, expand_of_fits (t := y') (by rw [← hy.1]; exact hf)]
      refine .some ⟨rfl, fun idx hi => ?_⟩
      show k _ _ = k _ _
      rw [(same_broadcast hy hf).2 idx hi, hx.2 idx hi]
    · rcases expand_cases y' x.shape with ⟨hf', _⟩ | ⟨_, e'⟩
      · exact absurd (by rw [hy.1]; exact hf') hf
      · rw [e, e']; exact .none
  | int z => exact rel_map (rel_eq (toWord z)) fun w w' e => e ▸ same_map hx

theorem rel_torchBin {op : BinOp} {a a' b b' : TArg} (ha : SameArg a a') (hb : SameArg b b') : Option.Rel Same (torchBin junk op a b) (torchBin junk op a' b') := by
  have := rel_torchZip (k := word junk op) ha hb
  cases hb with
  | ten hy => exact this
  | int z =>
    unfold torchBin
    dsimp only
    split
    · exact this
    · exact .none

theorem rel_torchInBin {op : BinOp} {x x' : NdTensor I64} {b b' : TArg} (hx : Same x x') (hb : SameArg b b') : Option.Rel Same (torchInBin junk op x b) (torchInBin junk op x' b') := by
  have := rel_torchIn (k := word junk op) hx hb
  cases hb with
  | ten hy => exact this
  | int z =>
    unfold torchInBin
    dsimp only
    split
    · exact this
    · exact .none

theorem rel_torchMethodI {m : MethodI} {x x' : NdTensor I64} {b b' : TArg} (hx : Same x x') (hb : SameArg b b') : Option.Rel Same (torchMethodI m x b) (torchMethodI m x' b') := by
  have := rel_torchIn (k := m.word) hx hb
  cases m <;> cases hb <;> first | exact this | exact .none

theorem dropOnes_length (s : List ℕ) : (dropOnes s).length ≤ s.length ∧ s = List.replicate (s.length - (dropOnes s).length) 1 ++ dropOnes s := by
  induction s with
  | nil => simp [dropOnes]
  | cons n s ih =>
    by_cases h : n = 1
    · subst h
      obtain ⟨h1, h2⟩ := ih
      refine ⟨by simp only [dropOnes, List.length_cons]; omega, ?_⟩
      simp only [dropOnes, List.length_cons]
      rw [show s.length + 1 - (dropOnes s).length = (s.length - (dropOnes s).length) + 1 by omega, List.replicate_succ, List.cons_append, ← h2]
    · have : dropOnes (n :: s) = n :: s := by
        unfold dropOnes; split
        · rename_i h'; simp at h'; omega
        · rfl
      simp [this]

theorem same_stripped {y y' : NdTensor I64} (h : Same y y') : Same (stripped y) (stripped y') := by
  refine ⟨congrArg dropOnes h.1, fun idx hi => ?_⟩
  show y.data _ = y'.data _
  rw [← h.1]
  refine h.2 _ ?_
  have hd := (dropOnes_length y.shape).2
  have hi' : ValidIdx (dropOnes y.shape) idx := hi
  generalize y.shape.length - (dropOnes y.shape).length = m at hd ⊢
  rw [hd]
  clear hd
  induction m with
  | zero => exact hi'
  | succ m ih => rw [List.replicate_succ, List.replicate_succ]; exact .cons (by omega) ih

theorem rel_torchSet {x x' : NdTensor I64} {i : ℤ} {b b' : TArg} (hx : Same x x') (hb : SameArg b b') : Option.Rel Same (torchSet x i b) (torchSet x' i b') := by
  obtain ⟨sx, dx⟩ := x
  obtain ⟨sx', dx'⟩ := x'
  obtain ⟨h1, h2⟩ := hx
  dsimp only at h1 h2
  subst h1
  cases hb with
  | ten hy =>
    cases sx with
    | nil => exact .none
    | cons n s =>
      refine rel_bind (rel_eq (normDim n i)) fun k k' e => ?_
      subst e
      refine rel_map (rel_expand' (same_stripped hy) s) fun u u' hu => ⟨rfl, fun idx hi => ?_⟩
      dsimp only
      split
      · cases hi with
        | cons _ ht => exact hu.1.2 _ (by rw [hu.2]; exact ht)
      · exact h2 idx hi
  | int z =>
    cases sx with
    | nil => exact .none
    | cons n s =>
      refine rel_bind (rel_eq (normDim n i)) fun k k' e => ?_
      subst e
      refine rel_map (rel_eq (toWord z)) fun w w' e => ?_
      subst e
      refine ⟨rfl, fun idx hi => ?_⟩
      dsimp only
      split
      · rfl
      · exact h2 idx hi

/-! ## A changed clone is the result of the operation -/

theorem stretchIdx_self {a idx : List ℕ} (h : ValidIdx a idx) : stretchIdx a idx = idx := by
  induction h with
  | nil => rfl
  | cons hi _ ih =>
    show (if _ then _ else _) :: _ = _
    unfold stretchIdx at ih
    rw [ih]
    split
    · congr 1; omega
    · rfl

theorem broadcast_own (x : NdTensor R) : Same (x.broadcast x.shape) x := by
  refine ⟨rfl, fun idx hi => ?_⟩
  show x.data _ = _
  rw [Nat.sub_self, List.drop_zero, stretchIdx_self (show ValidIdx x.shape idx from hi)]

/-- Operands are broadcast to the shape of the left one, and nothing else is. -/
theorem in_zip {k : I64 → I64 → I64} {x y : NdTensor I64} (h : IsCommonShape [x.shape, y.shape] x.shape) :
    ∃ r r', torchIn k x (.ten y) = some r ∧ torchZip k (.ten x) (.ten y) = some r' ∧ Same r r' := by
  have f2 := (commonShape_fits h).2
  refine ⟨{ shape := x.shape, data := fun idx => k (x.data idx) ((y.broadcast x.shape).data idx) }, _, ?_, zip_eq h, rfl, fun idx hi => ?_⟩
  · unfold torchIn; dsimp only; rw [expand_of_fits f2]; rfl
  · show k _ _ = k _ _
    rw [(broadcast_own x).2 idx hi]

theorem in_iff {k : I64 → I64 → I64} {x y : NdTensor I64} : (torchIn k x (.ten y)).isSome ↔ IsCommonShape [x.shape, y.shape] x.shape := by
  constructor
  · intro h
    unfold torchIn at h
    dsimp only at h
    rcases expand_cases y x.shape with ⟨hf, e⟩ | ⟨hf, e⟩
    · exact common_left hf
    · rw [e] at h; cases h
  · intro h
    obtain ⟨r, _, e, _⟩ := in_zip (k := k) h
    rw [e]; rfl

theorem inBin_sound {op : BinOp} {x r : NdTensor I64} {y : TArg} (h : torchInBin junk op x y = some r) : ∃ r', torchBin junk op (.ten x) y = some r' ∧ Same r r' := by
  cases y with
  | ten y =>
    change torchIn (word junk op) x (.ten y) = some r at h
    obtain ⟨r1, r', e1, e2, hs⟩ := in_zip (k := word junk op) (in_iff.1 (by rw [h]; rfl))
    rw [h, Option.some.injEq] at e1
    exact ⟨r', e2, e1 ▸ hs⟩
  | int z => exact ⟨r, h, same_refl r⟩

theorem mirror_word (c : Cmp) (a b : I64) : cmpWord c.mirror b a = cmpWord c a b := by
  cases c <;> simp [Cmp.mirror, cmpWord, eq_comm]

theorem compare_eq (c : Cmp) (a b : TArg) : compare c a b = torchZip (cmpWord c) a b := by
  unfold compare
  split
  · rename_i z y
    unfold torchZip
    simp only [mirror_word]
  · rfl

theorem same_trans {x y z : NdTensor R} (h : Same x y) (h' : Same y z) : Same x z :=
  ⟨h.1.trans h'.1, fun idx hi => (h.2 idx hi).trans (h'.2 idx (h.1 ▸ hi))⟩

/-! ## States -/

theorem rel_cell {st : State} {pl : Plain} (h : Rel st pl) (c : ℕ) : Option.Rel Same st.heap[c]? pl.heap[c]? := by
  have hl := h.2.length_eq
  by_cases hc : c < st.heap.length
  · rw [List.getElem?_eq_getElem hc, List.getElem?_eq_getElem (hl ▸ hc)]
    exact .some (h.2.get hc (hl ▸ hc))
  · rw [List.getElem?_eq_none (by omega), List.getElem?_eq_none (by omega)]
    exact .none

theorem rel_ten {st : State} {pl : Plain} (h : Rel st pl) (v : ℕ) : Option.Rel (fun (a : Var × NdTensor I64) (b : ℕ × NdTensor I64) => a.1.cell = b.1 ∧ Same a.2 b.2) (st.ten v) (pl.ten v) := by
  unfold State.ten Plain.ten
  rw [← h.1, List.getElem?_map]
  cases st.vars[v]? with
  | none => exact .none
  | some x => exact rel_map (rel_cell h x.cell) fun a b hab => ⟨rfl, hab⟩

theorem rel_arg {st : State} {pl : Plain} (h : Rel st pl) (o : Operand) : Option.Rel (fun (a : Bool × TArg) (b : TArg) => SameArg a.2 b) (st.arg o) (pl.arg o) := by
  cases o with
  | int z => exact .some (.int z)
  | var v =>
    have := rel_ten h v
    unfold State.ten at this
    unfold State.arg Plain.arg
    dsimp only
    cases hv : st.vars[v]? with
    | none =>
      rw [hv, Option.bind_none] at this
      cases hp : pl.ten v with
      | none => exact .none
      | some q => rw [hp] at this; cases this
    | some x =>
      rw [hv, Option.bind_some] at this
      rw [Option.bind_some]
      cases hc : st.heap[x.cell]? with
      | none =>
        rw [hc, Option.map_none] at this
        cases hp : pl.ten v with
        | none => exact .none
        | some q => rw [hp] at this; cases this
      | some t =>
        rw [hc, Option.map_some] at this
        cases hp : pl.ten v with
        | none => rw [hp] at this; cases this
        | some q =>
          rw [hp] at this
          cases this with
          | some hh => exact .some (.ten hh.2)

theorem rel_push {st : State} {pl : Plain} (h : Rel st pl) (w : Bool) {t u : NdTensor I64} (ht : Same t u) : Rel (st.push w t) (pl.push u) := by
  refine ⟨?_, ?_⟩
  · show (st.vars ++ [_]).map Var.cell = _
    rw [List.map_append, h.1, List.map_cons, List.map_nil, h.2.length_eq]
    rfl
  · exact List.rel_append h.2 (.cons ht .nil)

theorem forall₂_set {α β : Type} {r : α → β → Prop} {l : List α} {m : List β} (h : List.Forall₂ r l m) (i : ℕ) {a : α} {b : β} (hab : r a b) : List.Forall₂ r (l.set i a) (m.set i b) := by
  induction h generalizing i with
  | nil => exact .nil
  | cons hx _ ih =>
    cases i with
    | zero => exact .cons hab (by assumption)
    | succ i => exact .cons hx (ih i)

theorem ten_var {st : State} {v : ℕ} {x : Var × NdTensor I64} (h : st.ten v = some x) : st.vars[v]? = some x.1 ∧ st.heap[x.1.cell]? = some x.2 := by
  unfold State.ten at h
  cases hv : st.vars[v]? with
  | none => rw [hv] at h; cases h
  | some y =>
    rw [hv, Option.bind_some] at h
    cases hc : st.heap[y.cell]? with
    | none => rw [hc] at h; cases h
    | some t =>
      rw [hc, Option.map_some, Option.some.injEq] at h
      subst h
      exact ⟨rfl, hc⟩

theorem rel_write {st : State} {pl : Plain} (h : Rel st pl) {v : ℕ} {x : Var × NdTensor I64} (hx : st.ten v = some x) (w : Bool) {t u : NdTensor I64} (ht : Same t u) :
    Rel (st.write v x.1 w t) (pl.write x.1.cell u) := by
  refine ⟨?_, forall₂_set h.2 _ ht⟩
  show (st.vars.set v _).map Var.cell = pl.vars
  rw [List.map_set, h.1, ← h.1]
  have := (ten_var hx).1
  apply List.ext_getElem?
  intro j
  rw [List.getElem?_set]
  split
  · rename_i e
    subst e
    split
    · rw [List.getElem?_map, this]; rfl
    · rename_i hn
      simp only [List.length_map] at hn
      rw [List.getElem?_eq_none (by omega)] at this
      cases this
  · rfl

/-! ## One statement -/

/-- What the wrapped program does, the plain program does. -/
def Sim (a : Option State) (b : Option Plain) : Prop := ∀ st', a = some st' → ∃ pl', b = some pl' ∧ Rel st' pl'

theorem sim_of_rel {a : Option State} {b : Option Plain} (h : Option.Rel Rel a b) : Sim a b := by
  rintro st' rfl
  cases h with
  | some h => exact ⟨_, rfl, h⟩

theorem dunder_sound {op : BinOp} {x r : NdTensor I64} {y : TArg} (hf : op ≠ .floordiv) (h : dunder junk op x y = some r) : ∃ r', torchBin junk op (.ten x) y = some r' ∧ Same r r' := by
  cases op with
  | floordiv => exact absurd rfl hf
  | or => cases h
  | lshift =>
    cases y with
    | int z => exact inBin_sound h
    | ten y => cases h
  | rshift =>
    cases y with
    | int z => exact inBin_sound h
    | ten y => cases h
  | _ => exact inBin_sound h

theorem torchBin_comm {op : BinOp} (ho : op = .add ∨ op = .mul) (z : ℤ) (y : NdTensor I64) : torchBin junk op (.ten y) (.int z) = torchBin junk op (.int z) (.ten y) := by
  rcases ho with rfl | rfl
  · show (toWord z).map _ = (toWord z).map _
    congr 1
    funext w
    simp only [word, BitVec.add_comm]
  · show (toWord z).map _ = (toWord z).map _
    congr 1
    funext w
    simp only [word, BitVec.mul_comm]

theorem reflected_sound {op : BinOp} {z : ℤ} {y r : NdTensor I64} (hp : op ≠ .pow) (h : reflected junk op z y = some r) : ∃ r', torchBin junk op (.int z) (.ten y) = some r' ∧ Same r r' := by
  cases op with
  | add =>
    obtain ⟨r', e, hs⟩ := dunder_sound (by decide) (show dunder junk .add y (.int z) = some r from h)
    exact ⟨r', by rw [← torchBin_comm (.inl rfl)]; exact e, hs⟩
  | mul =>
    obtain ⟨r', e, hs⟩ := dunder_sound (by decide) (show dunder junk .mul y (.int z) = some r from h)
    exact ⟨r', by rw [← torchBin_comm (.inr rfl)]; exact e, hs⟩
  | sub => exact ⟨r, h, same_refl r⟩
  | pow => exact absurd rfl hp
  | _ => cases h

theorem binary_sound {op : BinOp} {a b : Bool × TArg} {r : Bool × NdTensor I64} (hf : op ≠ .floordiv) (hp : op = .pow → ∀ z, a.2 ≠ .int z) (h : binary junk op a b = some r) :
    ∃ r', torchBin junk op a.2 b.2 = some r' ∧ Same r.2 r' := by
  obtain ⟨w, x⟩ := a
  obtain ⟨w', y⟩ := b
  cases x with
  | int z =>
    have plain : ∀ {q : TArg}, (torchBin junk op (.int z) q).map (w', ·) = some r → ∃ r', torchBin junk op (.int z) q = some r' ∧ Same r.2 r' := by
      intro q hq
      obtain ⟨t, ht, rfl⟩ := Option.map_eq_some_iff.1 hq
      exact ⟨t, ht, same_refl t⟩
    cases w' with
    | false => cases w <;> cases y <;> exact plain h
    | true =>
      cases y with
      | int z' => cases w <;> exact plain h
      | ten y =>
        have h : (reflected junk op z y).map (true, ·) = some r := by cases w <;> exact h
        obtain ⟨t, ht, rfl⟩ := Option.map_eq_some_iff.1 h
        exact reflected_sound (fun e => hp e z rfl) ht
  | ten x =>
    cases w with
    | true =>
      obtain ⟨t, ht, rfl⟩ := Option.map_eq_some_iff.1 (show (dunder junk op x y).map (true, ·) = some r from h)
      exact dunder_sound hf ht
    | false =>
      obtain ⟨t, ht, rfl⟩ := Option.map_eq_some_iff.1 (show (torchBin junk op (.ten x) y).map (w', ·) = some r by cases w' <;> cases y <;> exact h)
      exact ⟨t, ht, same_refl t⟩

theorem sim_binary {st : State} {pl : Plain} (h : Rel st pl) (op : BinOp) (a b : Operand) (hs : (Instr.bin op a b).Sound) : Sim (step junk st (.bin op a b)) (pl.step junk (.bin op a b)) := by
  have ra := rel_arg h a
  have rb := rel_arg h b
  intro st' hst
  unfold step at hst
  unfold Plain.step
  dsimp only at hst ⊢
  cases ea : st.arg a with
  | none => rw [ea] at hst; cases hst
  | some wa =>
  cases eb : st.arg b with
  | none => rw [ea, eb] at hst; cases hst
  | some wb =>
  rw [ea, eb] at hst
  rw [ea] at ra
  rw [eb] at rb
  cases fa : pl.arg a with
  | none => rw [fa] at ra; cases ra
  | some ta =>
  cases fb : pl.arg b with
  | none => rw [fb] at rb; cases rb
  | some tb =>
  rw [fa] at ra
  rw [fb] at rb
  obtain ra := Option.rel_some_some.1 ra
  obtain rb := Option.rel_some_some.1 rb
  simp only [Option.bind_some] at hst ⊢
  cases er : binary junk op wa wb with
  | none => rw [er] at hst; cases hst
  | some r =>
  rw [er, Option.map_some, Option.some.injEq] at hst
  subst hst
  obtain ⟨r', e', hr⟩ := binary_sound hs.1 (fun e z hz => by
    cases a with
    | int z' => exact hs.2 e z' rfl
    | var v =>
      unfold State.arg at ea
      dsimp only at ea
      cases hv : st.vars[v]? with
      | none => rw [hv] at ea; cases ea
      | some x =>
        rw [hv] at ea
        cases hc : st.heap[x.cell]? with
        | none => simp [hc] at ea
        | some t => simp [hc] at ea; rw [← ea] at hz; cases hz) er
  have := rel_torchBin (junk := junk) (op := op) ra rb
  rw [e'] at this
  cases h2 : torchBin junk op ta tb with
  | none => rw [h2] at this; cases this
  | some r2 =>
    rw [h2] at this
    exact ⟨_, rfl, rel_push h r.1 (same_trans hr (Option.rel_some_some.1 this))⟩

theorem aug_form {st st' : State} {op : BinOp} {v : ℕ} {b : Operand} (hf : op ≠ .floordiv) (h : augmented junk st op v b = some st') :
    ∃ xt wb r w, st.ten v = some xt ∧ st.arg b = some wb ∧ torchInBin junk op xt.2 wb.2 = some r ∧ st' = st.write v xt.1 w r := by
  unfold augmented at h
  obtain ⟨xt, hx, h⟩ := Option.bind_eq_some_iff.1 h
  obtain ⟨wb, hb, h⟩ := Option.bind_eq_some_iff.1 h
  have fin : ∀ w, (torchInBin junk op xt.2 wb.2).map (st.write v xt.1 w) = some st' →
      ∃ xt wb r w, st.ten v = some xt ∧ st.arg b = some wb ∧ torchInBin junk op xt.2 wb.2 = some r ∧ st' = st.write v xt.1 w r := by
    intro w hw
    obtain ⟨r, hr, e⟩ := Option.map_eq_some_iff.1 hw
    exact ⟨xt, wb, r, w, hx, hb, hr, e.symm⟩
  split at h
  · cases op with
    | floordiv => exact absurd rfl hf
    | or => cases h
    | lshift =>
      dsimp only at h
      split at h
      · exact fin _ h
      · cases h
    | rshift =>
      dsimp only at h
      split at h
      · exact fin _ h
      · cases h
    | _ => exact fin _ h
  · exact fin _ h

theorem set_form {st st' : State} {v : ℕ} {i : ℤ} {b : Operand} (h : setItem st v i b = some st') :
    ∃ xt wb r w, st.ten v = some xt ∧ st.arg b = some wb ∧ torchSet xt.2 i wb.2 = some r ∧ st' = st.write v xt.1 w r := by
  unfold setItem at h
  obtain ⟨xt, hx, h⟩ := Option.bind_eq_some_iff.1 h
  obtain ⟨wb, hb, h⟩ := Option.bind_eq_some_iff.1 h
  split at h
  · cases h
  · obtain ⟨r, hr, e⟩ := Option.map_eq_some_iff.1 h
    exact ⟨xt, wb, r, _, hx, hb, hr, e.symm⟩

theorem rel_some_left {α β : Type} {r : α → β → Prop} {a : α} {b : Option β} (h : Option.Rel r (some a) b) : ∃ b', b = some b' ∧ r a b' := by
  cases h with
  | some h => exact ⟨_, rfl, h⟩

theorem rel_some_right {α β : Type} {r : α → β → Prop} {a : Option α} {b : β} (h : Option.Rel r a (some b)) : ∃ a', a = some a' ∧ r a' b := by
  cases h with
  | some h => exact ⟨_, rfl, h⟩

theorem rel_methodI {st : State} {pl : Plain} (h : Rel st pl) (m : MethodI) (v : ℕ) (b : Operand) : Option.Rel Rel (step junk st (.methodI m v b)) (pl.step junk (.methodI m v b)) := by
  have hv := rel_ten h v
  simp only [step, Plain.step]
  cases hx : st.ten v with
  | none =>
    rw [hx] at hv
    cases hq : pl.ten v with
    | none => exact .none
    | some q => rw [hq] at hv; cases hv
  | some xt =>
    obtain ⟨q, eq, hq⟩ := rel_some_left (hx ▸ hv)
    rw [eq]
    simp only [Option.bind_some]
    exact rel_bind (rel_arg h b) fun y y' hy => rel_map (rel_torchMethodI hq.2 hy) fun r r' hr => hq.1 ▸ rel_write h hx _ hr

/-- Whatever a statement does on wrapped tensors, torch does on plain ones. -/
theorem step_sound {st : State} {pl : Plain} (h : Rel st pl) (i : Instr) (hs : i.Sound) : Sim (step junk st i) (pl.step junk i) := by
  cases i with
  | bin op a b => exact sim_binary h op a b hs
  | iop op v b =>
    intro st' hst
    obtain ⟨xt, wb, r, w, hx, hb, hr, rfl⟩ := aug_form hs (show augmented junk st op v b = some st' from hst)
    obtain ⟨q, eq, hq⟩ := rel_some_left (hx ▸ rel_ten h v)
    obtain ⟨tb, etb, htb⟩ := rel_some_left (hb ▸ rel_arg h b)
    obtain ⟨r', er', hr'⟩ := rel_some_left (hr ▸ rel_torchInBin (junk := junk) (op := op) hq.2 htb)
    refine ⟨pl.write q.1 r', ?_, hq.1 ▸ rel_write h hx w hr'⟩
    simp only [Plain.step, eq, etb, Option.bind_some, er', Option.map_some]
  | setitem v i b =>
    intro st' hst
    obtain ⟨xt, wb, r, w, hx, hb, hr, rfl⟩ := set_form (show setItem st v i b = some st' from hst)
    obtain ⟨q, eq, hq⟩ := rel_some_left (hx ▸ rel_ten h v)
    obtain ⟨tb, etb, htb⟩ := rel_some_left (hb ▸ rel_arg h b)
    obtain ⟨r', er', hr'⟩ := rel_some_left (hr ▸ rel_torchSet (i := i) hq.2 htb)
    refine ⟨pl.write q.1 r', ?_, hq.1 ▸ rel_write h hx w hr'⟩
    simp only [Plain.step, eq, etb, Option.bind_some, er', Option.map_some]
  | cmp c a b =>
    refine sim_of_rel (rel_bind (rel_arg h a) fun x x' hx => rel_bind (rel_arg h b) fun y y' hy => ?_)
    rw [compare_eq]
    exact rel_map (rel_torchZip hx hy) fun r r' hr => rel_push h _ hr
  | method m v b =>
    exact sim_of_rel (rel_bind (rel_ten h v) fun x x' hx => rel_bind (rel_arg h b) fun y y' hy => rel_map (rel_torchBin (.ten hx.2) hy) fun r r' hr => rel_push h _ hr)
  | func m v b =>
    exact sim_of_rel (rel_bind (rel_ten h v) fun x x' hx => rel_bind (rel_arg h b) fun y y' hy => rel_map (rel_torchBin (.ten hx.2) hy) fun r r' hr => rel_push h _ hr)
  | methodI m v b => exact sim_of_rel (rel_methodI h m v b)
  | neg v => exact sim_of_rel (rel_map (rel_ten h v) fun x x' hx => rel_push h _ (same_map hx.2))
  | clone v => exact sim_of_rel (rel_map (rel_ten h v) fun x x' hx => rel_push h _ hx.2)
  | wrap v => exact sim_of_rel (rel_map (rel_ten h v) fun x x' hx => ⟨by simp [h.1, hx.1], h.2⟩)

/-! ## Which statements are accepted -/

theorem torchIn_int {k : I64 → I64 → I64} (x : NdTensor I64) (z : ℤ) : torchIn k x (.int z) = torchZip k (.ten x) (.int z) := rfl

theorem inBin_int {op : BinOp} (x : NdTensor I64) (z : ℤ) : torchInBin junk op x (.int z) = torchBin junk op (.ten x) (.int z) := rfl

/-- The condition of `Accepts` for an operator, on values. -/
def AcceptsBin (op : BinOp) : Bool × TArg → Bool × TArg → Prop
  | (true, .ten x), (_, .ten y) => op ≠ .or ∧ op ≠ .lshift ∧ op ≠ .rshift ∧ (op = .floordiv ∨ IsCommonShape [x.shape, y.shape] x.shape)
  | (true, .ten _), (_, .int _) => op ≠ .or
  | (_, .int z), (true, .ten _) => op = .add ∨ op = .sub ∨ op = .mul ∨ (op = .pow ∧ 0 ≤ z)
  | _, _ => True

theorem torchZip_isSome {k k' : I64 → I64 → I64} (a b : TArg) : (torchZip k a b).isSome = (torchZip k' a b).isSome := by
  cases a with
  | ten x =>
    cases b with
    | ten y =>
      show (Onnx.zip k x y).isSome = (Onnx.zip k' x y).isSome
      by_cases h : ∃ s, IsCommonShape [x.shape, y.shape] s
      · obtain ⟨s, hs⟩ := h
        rw [zip_eq hs, zip_eq hs]; rfl
      · rw [zip_none h, zip_none h]
    | int z => show (Option.map _ _).isSome = (Option.map _ _).isSome; rw [Option.isSome_map, Option.isSome_map]
  | int z =>
    cases b with
    | ten y => show (Option.map _ _).isSome = (Option.map _ _).isSome; rw [Option.isSome_map, Option.isSome_map]
    | int z => rfl

theorem word_isSome {z : ℤ} {y : NdTensor I64} {op : BinOp} (h : (torchBin junk op (.int z) (.ten y)).isSome) : (toWord z).isSome := by
  have : (Option.map _ (toWord z)).isSome := h
  rwa [Option.isSome_map] at this

theorem binary_accepts {op : BinOp} {a b : Bool × TArg} (h : (torchBin junk op a.2 b.2).isSome) : (binary junk op a b).isSome ↔ AcceptsBin op a b := by
  obtain ⟨w, x⟩ := a
  obtain ⟨w', y⟩ := b
  cases x with
  | int z =>
    cases y with
    | int z' => cases w <;> cases w' <;> (simp only [binary, AcceptsBin, Option.isSome_map, iff_true]; exact h)
    | ten y =>
      cases w' with
      | false => cases w <;> (simp only [binary, AcceptsBin, Option.isSome_map, iff_true]; exact h)
      | true =>
        have hb : (binary junk op (w, .int z) (true, .ten y)) = (reflected junk op z y).map (true, ·) := by cases w <;> rfl
        have ha : AcceptsBin op (w, .int z) (true, .ten y) ↔ (op = .add ∨ op = .sub ∨ op = .mul ∨ (op = .pow ∧ 0 ≤ z)) := by cases w <;> rfl
        rw [hb, ha, Option.isSome_map]
        have hw := word_isSome h
        cases op with
        | add => simpa [reflected, dunder, torchInBin, powerOk, torchIn] using hw
        | mul => simpa [reflected, dunder, torchInBin, powerOk, torchIn] using hw
        | sub => simp only [reflected, true_or, or_true, iff_true]; exact h
        | pow =>
          simp only [reflected, dunder, torchInBin, powerOk, torchIn]
          by_cases hz : 0 ≤ z
          · simpa [hz] using hw
          · simp [hz]
        | _ => simp [reflected]
  | ten x =>
    cases w with
    | false => cases w' <;> cases y <;> (simp only [binary, AcceptsBin, Option.isSome_map, iff_true]; exact h)
    | true =>
      have hb : (binary junk op (true, .ten x) (w', y)) = (dunder junk op x y).map (true, ·) := rfl
      rw [hb, Option.isSome_map]
      cases y with
      | int z =>
        show _ ↔ op ≠ .or
        cases op with
        | or => simp [dunder]
        | floordiv =>
          simp only [dunder, ne_eq, reduceCtorEq, not_false_eq_true, iff_true]
          rw [torchZip_isSome (k' := word junk .floordiv)]
          exact h
        | _ => simp only [ne_eq, reduceCtorEq, not_false_eq_true, iff_true]; exact h
      | ten y =>
        show _ ↔ op ≠ .or ∧ op ≠ .lshift ∧ op ≠ .rshift ∧ (op = .floordiv ∨ IsCommonShape [x.shape, y.shape] x.shape)
        cases op with
        | floordiv =>
          simp only [dunder, ne_eq, reduceCtorEq, not_false_eq_true, true_or, and_self, iff_true]
          rw [torchZip_isSome (k' := word junk .floordiv)]
          exact h
        | or => simp [dunder]
        | lshift => simp [dunder]
        | rshift => simp [dunder]
        | _ =>
          simp only [ne_eq, reduceCtorEq, not_false_eq_true, true_and, false_or]
          exact in_iff

theorem inBin_isSome {op op' : BinOp} {x y : NdTensor I64} (h : (torchInBin junk op x (.ten y)).isSome) : (torchInBin junk op' x (.ten y)).isSome :=
  in_iff.2 (in_iff.1 h)

/-- **C90, which statements are accepted**: of the statements that torch executes on plain tensors, those on wrapped ones are executed that `Accepts` describes; all others raise. -/
theorem C90_accepts (st : State) (pl : Plain) (h : Rel st pl) (i : Instr) (hi : (pl.step junk i).isSome) : (step junk st i).isSome ↔ Accepts st i := by
  obtain ⟨pl', hpl⟩ := Option.isSome_iff_exists.1 hi
  have always : ∀ {a : Option State}, Option.Rel Rel a (some pl') → a.isSome := by
    intro a ha
    obtain ⟨s, e, _⟩ := rel_some_right ha
    rw [e]; rfl
  cases i with
  | bin op a b =>
    obtain ⟨ta, eta, hpl⟩ := Option.bind_eq_some_iff.1 (show (pl.arg a).bind _ = some pl' from hpl)
    obtain ⟨tb, etb, hpl⟩ := Option.bind_eq_some_iff.1 hpl
    obtain ⟨r, er, -⟩ := Option.map_eq_some_iff.1 hpl
    obtain ⟨wa, ewa, ha⟩ := rel_some_right (eta ▸ rel_arg h a)
    obtain ⟨wb, ewb, hb⟩ := rel_some_right (etb ▸ rel_arg h b)
    obtain ⟨r', er', -⟩ := rel_some_right (er ▸ rel_torchBin (junk := junk) (op := op) ha hb)
    have key := binary_accepts (junk := junk) (op := op) (a := wa) (b := wb) (by rw [er']; rfl)
    have e1 : (step junk st (.bin op a b)).isSome = (binary junk op wa wb).isSome := by
      simp only [step, ewa, ewb, Option.bind_some, Option.isSome_map]
    have e2 : Accepts st (.bin op a b) ↔ AcceptsBin op wa wb := by
      simp only [Accepts, ewa, ewb]
      obtain ⟨w, x⟩ := wa
      obtain ⟨w', y⟩ := wb
      cases w <;> cases x <;> cases w' <;> cases y <;> rfl
    rw [e1, e2, key]
  | iop op v b =>
    obtain ⟨q, eq, hpl⟩ := Option.bind_eq_some_iff.1 (show (pl.ten v).bind _ = some pl' from hpl)
    obtain ⟨tb, etb, hpl⟩ := Option.bind_eq_some_iff.1 hpl
    obtain ⟨r, er, -⟩ := Option.map_eq_some_iff.1 hpl
    obtain ⟨xt, ext, hx⟩ := rel_some_right (eq ▸ rel_ten h v)
    obtain ⟨wb, ewb, hb⟩ := rel_some_right (etb ▸ rel_arg h b)
    obtain ⟨r', er', -⟩ := rel_some_right (er ▸ rel_torchInBin (junk := junk) (op := op) hx.2 hb)
    obtain ⟨⟨w, c⟩, t⟩ := xt
    obtain ⟨w', y⟩ := wb
    simp only [step, augmented, Accepts, ext, ewb, Option.bind_some]
    cases w with
    | false => cases y <;> simp [er'] <;> exact Option.isSome_iff_exists.2 ⟨r', er'⟩
    | true =>
      cases y with
      | int z =>
        cases op with
        | or => simp
        | floordiv =>
          simp only [ne_eq, reduceCtorEq, not_false_eq_true, iff_true, if_true, Option.isSome_map]
          rw [torchZip_isSome (k' := word junk .floordiv)]
          exact Option.isSome_iff_exists.2 ⟨r', er'⟩
        | _ => simp only [er', Option.map_some, Option.isSome_some, if_true, ne_eq, reduceCtorEq, not_false_eq_true]
      | ten y =>
        cases op with
        | or => simp
        | lshift => simp
        | rshift => simp
        | floordiv =>
          simp only [ne_eq, reduceCtorEq, not_false_eq_true, iff_true, if_true, Option.isSome_map, and_self]
          obtain ⟨_, r2, _, e2, _⟩ := in_zip (k := truncWord junk) ((in_iff (k := word junk .floordiv)).1 (Option.isSome_iff_exists.2 ⟨r', er'⟩))
          rw [e2]; rfl
        | _ => simp only [er', Option.map_some, Option.isSome_some, if_true, ne_eq, reduceCtorEq, not_false_eq_true, and_self]
  | setitem v i b =>
    obtain ⟨q, eq, hpl⟩ := Option.bind_eq_some_iff.1 (show (pl.ten v).bind _ = some pl' from hpl)
    obtain ⟨tb, etb, hpl⟩ := Option.bind_eq_some_iff.1 hpl
    obtain ⟨r, er, -⟩ := Option.map_eq_some_iff.1 hpl
    obtain ⟨xt, ext, hx⟩ := rel_some_right (eq ▸ rel_ten h v)
    obtain ⟨wb, ewb, hb⟩ := rel_some_right (etb ▸ rel_arg h b)
    obtain ⟨r', er', -⟩ := rel_some_right (er ▸ rel_torchSet (i := i) hx.2 hb)
    obtain ⟨⟨w, c⟩, t⟩ := xt
    obtain ⟨w', y⟩ := wb
    simp only [step, setItem, Accepts, ext, ewb, Option.bind_some]
    cases w <;> cases y <;> simp_all
  | cmp c a b =>
    refine iff_of_true (always ?_) trivial
    rw [← hpl]
    refine rel_bind (rel_arg h a) fun x x' hx => rel_bind (rel_arg h b) fun y y' hy => ?_
    rw [compare_eq]
    exact rel_map (rel_torchZip hx hy) fun r r' hr => rel_push h _ hr
  | method m v b =>
    refine iff_of_true (always ?_) trivial
    rw [← hpl]
    exact rel_bind (rel_ten h v) fun x x' hx => rel_bind (rel_arg h b) fun y y' hy => rel_map (rel_torchBin (.ten hx.2) hy) fun r r' hr => rel_push h _ hr
  | func m v b =>
    refine iff_of_true (always ?_) trivial
    rw [← hpl]
    exact rel_bind (rel_ten h v) fun x x' hx => rel_bind (rel_arg h b) fun y y' hy => rel_map (rel_torchBin (.ten hx.2) hy) fun r r' hr => rel_push h _ hr
  | methodI m v b => exact iff_of_true (always (hpl ▸ rel_methodI h m v b)) trivial
  | neg v =>
    refine iff_of_true (always ?_) trivial
    rw [← hpl]
    exact rel_map (rel_ten h v) fun x x' hx => rel_push h _ (same_map hx.2)
  | clone v =>
    refine iff_of_true (always ?_) trivial
    rw [← hpl]
    exact rel_map (rel_ten h v) fun x x' hx => rel_push h _ hx.2
  | wrap v =>
    refine iff_of_true (always ?_) trivial
    rw [← hpl]
    exact rel_map (rel_ten h v) fun x x' hx => ⟨by simp [h.1, hx.1], h.2⟩

/-- Every statement is accepted when it is reached. -/
def AcceptsAll (junk : BinOp → I64 → I64 → I64) (st : State) : List Instr → Prop
  | [] => True
  | i :: p => Accepts st i ∧ ∀ st', step junk st i = some st' → AcceptsAll junk st' p

/-- **C90, programs**: a program without floor division by operators and without `number ** x` computes on wrapped tensors what it computes on torch's own integer tensors, with the same
variables sharing storage, or raises. It does not raise if torch does not and all its statements are accepted.
Missing: `//`, `//=` and `number ** x`, where the results differ (`C90_wrong`). -/
theorem C90_program_partial (p : List Instr) (hp : ∀ i ∈ p, i.Sound) (st : State) (pl : Plain) (h : Rel st pl) :
    (∀ st', run junk st p = some st' → ∃ pl', pl.run junk p = some pl' ∧ Rel st' pl') ∧
    (∀ pl', pl.run junk p = some pl' → AcceptsAll junk st p → ∃ st', run junk st p = some st' ∧ Rel st' pl') := by
  induction p generalizing st pl with
  | nil =>
    refine ⟨fun st' e => ?_, fun pl' e _ => ?_⟩
    · cases e; exact ⟨pl, rfl, h⟩
    · cases e; exact ⟨st, rfl, h⟩
  | cons i p ih =>
    have hs := step_sound (junk := junk) h i (hp i (List.mem_cons_self ..))
    have ih := fun st pl h => ih (fun j hj => hp j (List.mem_cons_of_mem _ hj)) st pl h
    refine ⟨fun st' e => ?_, fun pl' e ha => ?_⟩
    · obtain ⟨st1, e1, e⟩ := Option.bind_eq_some_iff.1 (show (step junk st i).bind _ = some st' from e)
      obtain ⟨pl1, f1, h1⟩ := hs st1 e1
      obtain ⟨pl', f, h'⟩ := (ih st1 pl1 h1).1 st' e
      exact ⟨pl', by simp only [Plain.run, f1, Option.bind_some, f], h'⟩
    · obtain ⟨pl1, f1, e⟩ := Option.bind_eq_some_iff.1 (show (pl.step junk i).bind _ = some pl' from e)
      obtain ⟨st1, e1⟩ := Option.isSome_iff_exists.1 ((C90_accepts st pl h i (by rw [f1]; rfl)).2 ha.1)
      obtain ⟨pl1', f1', h1⟩ := hs st1 e1
      rw [f1, Option.some.injEq] at f1'
      subst f1'
      obtain ⟨st', e', h'⟩ := (ih st1 pl1 h1).2 pl' e (ha.2 st1 e1)
      exact ⟨st', by simp only [run, e1, Option.bind_some, e'], h'⟩

/-! ## Concrete programs -/

/-- Shapes and entries of all storage, and the places of the variables. -/
def State.look (st : State) : List ℕ × List (List ℕ × List ℤ) := (st.vars.map Var.cell, st.heap.map fun t => (t.shape, (allIdx t.shape).map fun i => (t.data i).toInt))

/-- The same. -/
def Plain.look (pl : Plain) : List ℕ × List (List ℕ × List ℤ) := (pl.vars, pl.heap.map fun t => (t.shape, (allIdx t.shape).map fun i => (t.data i).toInt))

/-- A vector. -/
def vec (l : List ℤ) : NdTensor I64 := { shape := [l.length], data := fun i => BitVec.ofInt 64 (l.getD (i.headD 0) 0) }

/-- Unspecified results are zero. -/
def zeroJunk : BinOp → I64 → I64 → I64 := fun _ _ _ => 0

/-- A wrapped tensor, a plain one and a wrapped number. -/
def exState : State := { vars := [⟨true, 0⟩, ⟨false, 1⟩, ⟨true, 2⟩], heap := [vec [-7, 5], vec [2, 3], vec [4]] }

/-- The same as plain tensors. -/
def exPlain : Plain := { vars := [0, 1, 2], heap := [vec [-7, 5], vec [2, 3], vec [4]] }

/-- `r = x - y; z = CUDALongTensor(x); z *= y; y += x; c = 3 < y; x[-1] = k; r <<= 2` is a program of the theorem. -/
def exProgram : List Instr :=
  [.bin .sub (.var 0) (.var 1), .wrap 0, .iop .mul 4 (.var 1), .iop .add 1 (.var 0), .cmp .lt (.int 3) (.var 1), .setitem 0 (-1) (.var 2), .iop .lshift 3 (.int 2)]

example : Rel exState exPlain ∧ (∀ i ∈ exProgram, i.Sound) ∧ (run zeroJunk exState exProgram).map State.look = (exPlain.run zeroJunk exProgram).map Plain.look ∧
    (run zeroJunk exState exProgram).map State.look = some ([0, 1, 2, 3, 0, 4], [([2], [-14, 4]), ([2], [-12, 18]), ([1], [4]), ([2], [-36, 8]), ([2], [0, 1])]) := by
  refine ⟨⟨rfl, .cons (same_refl _) (.cons (same_refl _) (.cons (same_refl _) .nil))⟩, ?_, by decide +kernel, by decide +kernel⟩
  simp [exProgram, Instr.Sound]

/-- **C90 is false**: torch executes all these statements. `k + y` raises if `k` is smaller; `3 ** k` is `k ** 3`; `x // 2` rounds to zero; after `z = CUDALongTensor(k)`, `k //= 2` does not
change `z`; `x[0] = 1`, `x | k` and `5 & x` raise; the sum of two results of `x.eq(y)` is their disjunction, unlike that of two results of `x == y`. -/
theorem C90_wrong :
    ((exPlain.step zeroJunk (.bin .add (.var 2) (.var 1))).map Plain.look = some ([0, 1, 2, 3], [([2], [-7, 5]), ([2], [2, 3]), ([1], [4]), ([2], [6, 7])]) ∧
      (step zeroJunk exState (.bin .add (.var 2) (.var 1))).map State.look = none) ∧
    ((exPlain.step zeroJunk (.bin .pow (.int 3) (.var 2))).map (fun pl => pl.look.2.getLast?) = some (some ([1], [81])) ∧
      (step zeroJunk exState (.bin .pow (.int 3) (.var 2))).map (fun st => st.look.2.getLast?) = some (some ([1], [64]))) ∧
    ((exPlain.step zeroJunk (.bin .floordiv (.var 0) (.int 2))).map (fun pl => pl.look.2.getLast?) = some (some ([2], [-4, 2])) ∧
      (step zeroJunk exState (.bin .floordiv (.var 0) (.int 2))).map (fun st => st.look.2.getLast?) = some (some ([2], [-3, 2]))) ∧
    ((exPlain.run zeroJunk [.wrap 2, .iop .floordiv 2 (.int 2)]).map Plain.look = some ([0, 1, 2, 2], [([2], [-7, 5]), ([2], [2, 3]), ([1], [2])]) ∧
      (run zeroJunk exState [.wrap 2, .iop .floordiv 2 (.int 2)]).map State.look = some ([0, 1, 3, 2], [([2], [-7, 5]), ([2], [2, 3]), ([1], [4]), ([1], [2])])) ∧
    ((exPlain.step zeroJunk (.setitem 0 0 (.int 1))).isSome ∧ (step zeroJunk exState (.setitem 0 0 (.int 1))).isSome = false) ∧
    ((exPlain.step zeroJunk (.bin .or (.var 0) (.var 2))).isSome ∧ (step zeroJunk exState (.bin .or (.var 0) (.var 2))).isSome = false) ∧
    ((exPlain.step zeroJunk (.bin .and (.int 5) (.var 0))).isSome ∧ (step zeroJunk exState (.bin .and (.int 5) (.var 0))).isSome = false) ∧
    (∀ a b : I64, addTyped (eqOperator a a) (eqOperator b b) = (.long, 2) ∧ addTyped (eqMethod a a) (eqMethod b b) = (.bool, 1)) := by
  refine ⟨?_, ?_, ?_, ?_, ?_, ?_, ?_, fun a b => ?_⟩
  · decide +kernel
  · decide +kernel
  · decide +kernel
  · decide +kernel
  · decide +kernel
  · decide +kernel
  · decide +kernel
  · simp [addTyped, eqOperator, eqMethod, cmpWord]

/-! ## Floor division -/

theorem trunc_floor {a b : I64} (ha : 0 ≤ a.toInt) (hb : 0 < b.toInt) : truncWord junk a b = word junk .floordiv a b := by
  show (if b = 0 then _ else _) = if b = 0 then _ else _
  split
  · rfl
  · rw [Int.fdiv_eq_ediv_of_nonneg _ hb.le, Int.tdiv_eq_ediv_of_nonneg ha]

/-- **C90, floor division**: `x // y` of a wrapped tensor is that of torch, with broadcasting of both, if no entry of `x` is negative and all of `y` are positive.
Missing: other entries, where the result is rounded towards zero (`C90_wrong`). -/
theorem C90_floordiv_partial (x y : NdTensor I64) (hx : ∀ idx, ValidIdx x.shape idx → 0 ≤ (x.data idx).toInt) (hy : ∀ idx, ValidIdx y.shape idx → 0 < (y.data idx).toInt) :
    Option.Rel Same (dunder junk .floordiv x (.ten y)) (torchBin junk .floordiv (.ten x) (.ten y)) := by
  show Option.Rel Same (Onnx.zip _ x y) (Onnx.zip _ x y)
  by_cases h : ∃ s, IsCommonShape [x.shape, y.shape] s
  · obtain ⟨s, hs⟩ := h
    obtain ⟨f1, f2⟩ := commonShape_fits hs
    rw [zip_eq hs, zip_eq hs]
    exact .some ⟨rfl, fun idx hi => trunc_floor (hx _ (stretch_valid f1 hi)) (hy _ (stretch_valid f2 hi))⟩
  · rw [zip_none h, zip_none h]
    exact .none

example : ∃ x y : NdTensor I64, x.shape = [2] ∧ (∀ idx, ValidIdx x.shape idx → 0 ≤ (x.data idx).toInt) ∧ (∀ idx, ValidIdx y.shape idx → 0 < (y.data idx).toInt) ∧
    (dunder zeroJunk .floordiv x (.ten y)).map (fun t => (allIdx t.shape).map t.data) = some [3, 2] :=
  ⟨⟨[2], fun i => if i = [0] then 7 else 5⟩, ⟨[], fun _ => 2⟩, rfl, fun idx _ => by dsimp only; split <;> decide, fun _ _ => (by decide : 0 < (2 : I64).toInt), by decide +kernel⟩

/-! ## Functions of torch -/

theorem overloadedAny_iff (l : List Arg) : overloadedAny l = true ↔ ∃ a ∈ l, a.overloaded = true := by
  induction l with
  | nil => simp [overloadedAny]
  | cons a l ih => simp [overloadedAny, ih]

/-- A wrapped tensor inside of a list argument, or in a keyword argument. -/
def Hidden (args : List Arg) (kwargs : List (String × Arg)) : Prop := (∃ l, Arg.list l ∈ args ∧ overloadedAny l = true) ∨ ∃ k ∈ kwargs, k.2.overloaded = true

theorem hidden_unwrap {args : List Arg} {kwargs : List (String × Arg)} (h : Hidden args kwargs) : Hidden (args.map unwrap) kwargs := by
  rcases h with ⟨l, hl, ho⟩ | h
  · exact .inl ⟨l, List.mem_map.2 ⟨_, hl, rfl⟩, ho⟩
  · exact .inr h

theorem hidden_overloaded {args : List Arg} {kwargs : List (String × Arg)} (h : Hidden args kwargs) : (overloadedAny args || overloadedAny (kwargs.map Prod.snd)) = true := by
  rw [Bool.or_eq_true, overloadedAny_iff, overloadedAny_iff]
  rcases h with ⟨l, hl, ho⟩ | ⟨k, hk, ho⟩
  · exact .inl ⟨_, hl, by simpa [Arg.overloaded] using ho⟩
  · exact .inr ⟨_, List.mem_map.2 ⟨k, hk, rfl⟩, ho⟩

theorem not_hidden {args : List Arg} {kwargs : List (String × Arg)} (h : ¬Hidden args kwargs) : (overloadedAny (args.map unwrap) || overloadedAny (kwargs.map Prod.snd)) = false := by
  rw [Bool.or_eq_false_iff, ← Bool.not_eq_true, ← Bool.not_eq_true, overloadedAny_iff, overloadedAny_iff]
  refine ⟨?_, ?_⟩
  · rintro ⟨a, ha, ho⟩
    obtain ⟨b, hb, rfl⟩ := List.mem_map.1 ha
    cases b with
    | list l => exact h (.inl ⟨l, hb, by simpa [unwrap, Arg.overloaded] using ho⟩)
    | _ => simp [unwrap, Arg.overloaded] at ho
  · rintro ⟨a, ha, ho⟩
    obtain ⟨k, hk, rfl⟩ := List.mem_map.1 ha
    exact h (.inr ⟨k, hk, ho⟩)

theorem ten_wrapped {st : State} {v : ℕ} {x : Var × NdTensor I64} (h : st.ten v = some x) : st.vars[v]? = some x.1 ∧ st.isWrapped (.var v) = x.1.wrapped := by
  unfold State.ten at h
  obtain ⟨y, e1, e2⟩ := Option.bind_eq_some_iff.1 h
  obtain ⟨t, -, e3⟩ := Option.map_eq_some_iff.1 e2
  subst e3
  exact ⟨e1, by simp [State.isWrapped, e1]⟩

theorem arg_wrapped {st : State} {a : Operand} {w : Bool × TArg} (h : st.arg a = some w) : st.isWrapped a = w.1 ∧ (∀ z, w.2 = .int z → w.1 = false) := by
  cases a with
  | var v =>
    unfold State.arg at h
    obtain ⟨y, e1, e2⟩ := Option.bind_eq_some_iff.1 h
    obtain ⟨t, -, e3⟩ := Option.map_eq_some_iff.1 e2
    subst e3
    exact ⟨by simp [State.isWrapped, e1], fun z hz => by cases hz⟩
  | int z =>
    cases h
    exact ⟨rfl, fun _ _ => rfl⟩

theorem push_wrapped (st : State) (w : Bool) (t : NdTensor I64) : (st.push w t).vars.map Var.wrapped = st.vars.map Var.wrapped ++ [w] := by simp [State.push]

theorem write_wrapped (st : State) (v : ℕ) (x : Var) (w : Bool) (t : NdTensor I64) : (st.write v x w t).vars.map Var.wrapped = (st.vars.map Var.wrapped).set v w := by
  simp [State.write, List.map_set]

theorem set_same {st : State} {v : ℕ} {x : Var} (h : st.vars[v]? = some x) : (st.vars.map Var.wrapped).set v x.wrapped = st.vars.map Var.wrapped := by
  refine List.ext_getElem? fun i => ?_
  rw [List.getElem?_set]
  split
  · rename_i e
    subst e
    obtain ⟨hl, rfl⟩ := List.getElem?_eq_some_iff.1 h
    simp [hl]
  · rfl

/-- **C90, wrapping**: which variables hold wrapped tensors after a statement. -/
theorem C90_wrapped (st st' : State) (i : Instr) (h : step junk st i = some st') : st'.vars.map Var.wrapped = i.wraps st := by
  cases i with
  | bin op a b =>
    obtain ⟨wa, ea, h⟩ := Option.bind_eq_some_iff.1 (show (st.arg a).bind _ = some st' from h)
    obtain ⟨wb, eb, h⟩ := Option.bind_eq_some_iff.1 h
    obtain ⟨r, er, h⟩ := Option.map_eq_some_iff.1 h
    subst h
    obtain ⟨h1, h2⟩ := arg_wrapped ea
    obtain ⟨h3, h4⟩ := arg_wrapped eb
    rw [push_wrapped]
    show _ = _ ++ [st.isWrapped a || st.isWrapped b]
    rw [h1, h3]
    congr 2
    obtain ⟨wa, ta⟩ := wa
    obtain ⟨wb, tb⟩ := wb
    unfold binary at er
    split at er
    · rename_i e1 e2
      cases e1; cases e2
      obtain ⟨_, -, e⟩ := Option.map_eq_some_iff.1 er
      subst e; simp
    · rename_i e1 e2
      cases e1; cases e2
      obtain ⟨_, -, e⟩ := Option.map_eq_some_iff.1 er
      subst e; simp
    · rename_i hn1 hn2 e1 e2
      cases e1; cases e2
      obtain ⟨_, -, e⟩ := Option.map_eq_some_iff.1 er
      subst e
      cases wa with
      | false => simp
      | true =>
        cases ta with
        | int z => exact absurd (h2 z rfl) (by simp)
        | ten x => exact (hn1 x rfl rfl).elim
  | iop op v b =>
    obtain ⟨x, ex, h⟩ := Option.bind_eq_some_iff.1 (show (st.ten v).bind _ = some st' from h)
    obtain ⟨wb, eb, h⟩ := Option.bind_eq_some_iff.1 h
    obtain ⟨h1, h2⟩ := ten_wrapped ex
    obtain ⟨h3, -⟩ := arg_wrapped eb
    show _ = (st.vars.map Var.wrapped).set v (st.isWrapped (.var v) || st.isWrapped b)
    rw [h2, h3]
    split at h
    · rename_i hw
      rw [hw, Bool.true_or]
      have key : ∀ {o : Option (NdTensor I64)}, o.map (st.write v x.1 true) = some st' → st'.vars.map Var.wrapped = (st.vars.map Var.wrapped).set v true := fun ho => by
        obtain ⟨_, -, e⟩ := Option.map_eq_some_iff.1 ho
        subst e; exact write_wrapped ..
      split at h
      · cases h
      · obtain ⟨_, -, e⟩ := Option.map_eq_some_iff.1 h
        subst e; simp [List.map_set]
      · split at h
        · exact key h
        · cases h
      · split at h
        · exact key h
        · cases h
      · exact key h
    · rename_i hw
      rw [Bool.eq_false_iff.2 hw, Bool.false_or]
      obtain ⟨_, -, e⟩ := Option.map_eq_some_iff.1 h
      subst e; exact write_wrapped ..
  | cmp c a b =>
    obtain ⟨wa, ea, h⟩ := Option.bind_eq_some_iff.1 (show (st.arg a).bind _ = some st' from h)
    obtain ⟨wb, eb, h⟩ := Option.bind_eq_some_iff.1 h
    obtain ⟨r, er, h⟩ := Option.map_eq_some_iff.1 h
    subst h
    rw [push_wrapped, ← (arg_wrapped ea).1, ← (arg_wrapped eb).1]; rfl
  | method m v b | func m v b =>
    obtain ⟨x, ex, h⟩ := Option.bind_eq_some_iff.1 (show (st.ten v).bind _ = some st' from h)
    obtain ⟨wb, eb, h⟩ := Option.bind_eq_some_iff.1 h
    obtain ⟨r, er, h⟩ := Option.map_eq_some_iff.1 h
    subst h
    rw [push_wrapped, ← (ten_wrapped ex).2, ← (arg_wrapped eb).1]; rfl
  | methodI m v b =>
    obtain ⟨x, ex, h⟩ := Option.bind_eq_some_iff.1 (show (st.ten v).bind _ = some st' from h)
    obtain ⟨wb, eb, h⟩ := Option.bind_eq_some_iff.1 h
    obtain ⟨r, er, h⟩ := Option.map_eq_some_iff.1 h
    subst h
    rw [write_wrapped, set_same (ten_wrapped ex).1]; rfl
  | neg v | clone v =>
    obtain ⟨x, ex, h⟩ := Option.map_eq_some_iff.1 (show (st.ten v).map _ = some st' from h)
    subst h
    rw [push_wrapped, ← (ten_wrapped ex).2]; rfl
  | wrap v =>
    obtain ⟨x, ex, h⟩ := Option.map_eq_some_iff.1 (show (st.ten v).map _ = some st' from h)
    subst h
    simp [Instr.wraps]
  | setitem v k b =>
    obtain ⟨x, ex, h⟩ := Option.bind_eq_some_iff.1 (show (st.ten v).bind _ = some st' from h)
    obtain ⟨wb, eb, h⟩ := Option.bind_eq_some_iff.1 h
    split at h
    · cases h
    · obtain ⟨r, er, h⟩ := Option.map_eq_some_iff.1 h
      subst h
      rw [write_wrapped, set_same (ten_wrapped ex).1]; rfl

/-- A plain tensor that is increased by a wrapped one is wrapped afterwards. -/
example : ∃ st', step zeroJunk { vars := [⟨false, 0⟩, ⟨true, 1⟩], heap := [{ shape := [1], data := fun _ => 1 }, { shape := [1], data := fun _ => 2 }] } (.iop .add 0 (.var 1)) = some st' ∧
    st'.vars.map Var.wrapped = [true, true] := by
  cases e : step zeroJunk { vars := [⟨false, 0⟩, ⟨true, 1⟩], heap := [{ shape := [1], data := fun _ => 1 }, { shape := [1], data := fun _ => 2 }] } (.iop .add 0 (.var 1)) with
  | some st' => exact ⟨st', rfl, C90_wrapped _ _ _ e⟩
  | none => exact absurd (congrArg Option.isSome e) (by decide +kernel)

/-- **C90, functions of torch**: a function of torch called with wrapped tensors as positional arguments is that function of the tensors in them. With a wrapped tensor in a list, as in
`torch.cat([x, y])`, or in a keyword argument the call never ends, whatever the depth of the stack. -/
theorem C90_torch_function {R : Type} (func : List Arg → List (String × Arg) → R) (args : List Arg) (kwargs : List (String × Arg)) :
    (¬Hidden args kwargs → ∀ fuel, torchFunction func (fuel + 2) args kwargs = some (func (args.map unwrap) kwargs)) ∧
    (Hidden args kwargs → ∀ fuel, torchFunction func fuel args kwargs = none) := by
  constructor
  · intro h fuel
    by_cases ho : (overloadedAny args || overloadedAny (kwargs.map Prod.snd)) = true
    · rw [torchFunction, if_pos ho, torchFunction, if_neg (by rw [not_hidden h]; simp)]
    · rw [torchFunction, if_neg ho]
      have : args.map unwrap = args := by
        rw [Bool.or_eq_true, not_or, overloadedAny_iff] at ho
        conv_rhs => rw [← List.map_id args]
        refine List.map_congr_left fun a ha => ?_
        cases a with
        | wrapped t => exact absurd ⟨_, ha, rfl⟩ ho.1
        | _ => rfl
      rw [this]
  · intro h fuel
    induction fuel generalizing args with
    | zero => rfl
    | succ fuel ih =>
      rw [torchFunction, if_pos (hidden_overloaded h)]
      exact ih _ (hidden_unwrap h)

/-- `torch.cat([x, y])` and `torch.add(x, other=y)` are such calls, `torch.add(x, y)` is not. -/
example (x y : NdTensor I64) : Hidden [.list [.wrapped x, .wrapped y]] [] ∧ Hidden [.wrapped x] [("other", .wrapped y)] ∧ ¬Hidden [.wrapped x, .wrapped y] [] := by
  refine ⟨.inl ⟨_, List.mem_cons_self .., rfl⟩, .inr ⟨_, List.mem_cons_self .., rfl⟩, ?_⟩
  rintro (⟨l, hl, _⟩ | ⟨k, hk, _⟩)
  · simp at hl
  · simp at hk

end CrypTen.CudaT

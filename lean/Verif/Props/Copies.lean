import Verif.Spec.Copies
import Verif.Props.Convert

/-!
# C85: copies of encrypted tensors, in-place writes and changes of the private type
-/

namespace CrypTen.Copies
variable {n : ℕ}

/-! ## The simulation -/

/-- What links an encrypted program to the program in the clear. -/
structure Inv (h : Heap n) (r : Plain) : Prop where
  next : h.next = r.next
  count : h.count = r.count
  view : ∀ o, o < h.count → (h.tensor o).view = r.tensor o
  prim : ∀ o, o < h.count → (h.obj o).prim < h.primCount
  ptype : ∀ o, o < h.count → (h.obj o).ptype = (h.tensor o).kind
  bound : ∀ o, o < h.count → ∀ c ∈ (h.tensor o).view, c < h.next
  value : ∀ o, o < h.count → ∀ c ∈ (h.tensor o).view, decode (h.tensor o).kind (h.tensor o).scale (h.cell c) = r.value c
  kind : ∀ o o', o < h.count → o' < h.count → ∀ c ∈ (h.tensor o).view, c ∈ (h.tensor o').view → (h.tensor o).kind = (h.tensor o').kind

theorem Inv.agree {h : Heap n} {r : Plain} (i : Inv h r) : Agree h r := by
  refine ⟨i.count, fun o ho => ?_⟩
  unfold Heap.plain Plain.get
  rw [← i.view o ho]
  exact List.map_congr_left fun c hc => i.value o ho c hc

theorem inv_empty : Inv (empty : Heap n) Plain.empty :=
  ⟨rfl, rfl, fun _ h => absurd h (Nat.not_lt_zero _), fun _ h => absurd h (Nat.not_lt_zero _), fun _ h => absurd h (Nat.not_lt_zero _), fun _ h => absurd h (Nat.not_lt_zero _),
    fun _ h => absurd h (Nat.not_lt_zero _), fun _ _ h => absurd h (Nat.not_lt_zero _)⟩

/-- The tensors after `make`. -/
theorem make_tensor (h : Heap n) (kind ptype : Kind) (words : List (Fin n → I64)) (scale : ℕ) (hp : ∀ o, o < h.count → (h.obj o).prim < h.primCount) (o : ℕ) (ho : o < h.count + 1) :
    (h.make kind ptype words scale).1.tensor o = if o < h.count then h.tensor o else ⟨kind, (List.range words.length).map (h.next + ·), scale⟩ := by
  unfold Heap.make Heap.tensor Heap.newObj Heap.newPrim Heap.alloc
  by_cases hc : o < h.count
  · have := hp o hc
    simp [hc, Nat.ne_of_lt hc, Nat.ne_of_lt this]
  · have : o = h.count := by omega
    subst this
    simp

theorem make_obj (h : Heap n) (kind ptype : Kind) (words : List (Fin n → I64)) (scale : ℕ) (o : ℕ) (ho : o < h.count + 1) :
    (h.make kind ptype words scale).1.obj o = if o < h.count then h.obj o else ⟨h.primCount, ptype⟩ := by
  unfold Heap.make Heap.newObj Heap.newPrim Heap.alloc
  by_cases hc : o < h.count
  · simp [hc, Nat.ne_of_lt hc]
  · have : o = h.count := by omega
    subst this
    simp

theorem make_cell (h : Heap n) (kind ptype : Kind) (words : List (Fin n → I64)) (scale : ℕ) (c : ℕ) :
    (h.make kind ptype words scale).1.cell c = if c < h.next then h.cell c else words.getD (c - h.next) 0 := rfl

theorem inv_make {h : Heap n} {r : Plain} (i : Inv h r) (kind : Kind) (words : List (Fin n → I64)) (scale : ℕ) (values : List ℚ) (hv : words.map (decode kind scale) = values) :
    Inv (h.make kind kind words scale).1 (r.fresh values) := by
  have hl : values.length = words.length := by rw [← hv, List.length_map]
  have T := make_tensor h kind kind words scale i.prim
  have hcount : (h.make kind kind words scale).1.count = h.count + 1 := rfl
  have hnext : (h.make kind kind words scale).1.next = h.next + words.length := rfl
  have old : ∀ o, o < h.count → ∀ c ∈ (h.tensor o).view, c < h.next := i.bound
  have new : ∀ c, c ∈ (List.range words.length).map (h.next + ·) → h.next ≤ c ∧ c < h.next + words.length := by
    intro c hc
    obtain ⟨j, hj, rfl⟩ := List.mem_map.mp hc
    have := List.mem_range.mp hj
    omega
  refine ⟨?_, ?_, ?_, ?_, ?_, ?_, ?_, ?_⟩
  · rw [hnext, i.next, ← hl]; rfl
  · rw [hcount, i.count]; rfl
  · intro o ho
    rw [T o ho]
    by_cases hc : o < h.count
    · rw [if_pos hc, i.view o hc]
      show r.tensor o = if o = r.count then _ else r.tensor o
      rw [if_neg (by rw [← i.count]; omega)]
    · rw [if_neg hc]
      show _ = if o = r.count then _ else r.tensor o
      have hcount' : (h.make kind kind words scale).1.count = h.count + 1 := rfl
      rw [if_pos (by rw [← i.count]; omega), hl, i.next]
  · intro o ho
    rw [make_obj h kind kind words scale o ho]
    show _ < h.primCount + 1
    by_cases hc : o < h.count
    · rw [if_pos hc]; have := i.prim o hc; omega
    · rw [if_neg hc]; show h.primCount < _; omega
  · intro o ho
    rw [make_obj h kind kind words scale o ho, T o ho]
    by_cases hc : o < h.count
    · rw [if_pos hc, if_pos hc]; exact i.ptype o hc
    · rw [if_neg hc, if_neg hc]
  · intro o ho c hcm
    rw [hnext]
    rw [T o ho] at hcm
    by_cases hc : o < h.count
    · rw [if_pos hc] at hcm; have := old o hc c hcm; omega
    · rw [if_neg hc] at hcm; exact (new c hcm).2
  · intro o ho c hcm
    rw [make_cell, T o ho]
    rw [T o ho] at hcm
    show _ = if c < r.next then r.value c else values.getD (c - r.next) 0
    rw [← i.next]
    by_cases hc : o < h.count
    · rw [if_pos hc] at hcm ⊢
      rw [if_pos (old o hc c hcm), if_pos (old o hc c hcm)]
      exact i.value o hc c hcm
    · rw [if_neg hc] at hcm ⊢
      have := new c hcm
      rw [if_neg (by omega), if_neg (by omega), ← hv]
      have hlt : c - h.next < words.length := by omega
      rw [List.getD_eq_getElem _ _ hlt, List.getD_eq_getElem _ _ (by rw [List.length_map]; exact hlt), List.getElem_map]
  · intro o o' ho ho' c hcm hcm'
    rw [T o ho] at hcm ⊢
    rw [T o' ho'] at hcm' ⊢
    by_cases hc : o < h.count <;> by_cases hc' : o' < h.count
    · rw [if_pos hc] at hcm ⊢
      rw [if_pos hc'] at hcm' ⊢
      exact i.kind o o' hc hc' c hcm hcm'
    · rw [if_pos hc] at hcm
      rw [if_neg hc'] at hcm'
      have := old o hc c hcm; have := new c hcm'; omega
    · rw [if_neg hc] at hcm
      rw [if_pos hc'] at hcm'
      have := old o' hc' c hcm'; have := new c hcm; omega
    · rw [if_neg hc, if_neg hc']

/-- A new object on the storage of `x`. -/
theorem inv_alias {h h' : Heap n} {r : Plain} (i : Inv h r) {x : ℕ} (hx : x < h.count) {places : List ℕ} (hpl : ∀ c ∈ places, c ∈ (h.tensor x).view)
    (hc : h'.cell = h.cell) (hn : h'.next = h.next) (hk : h'.count = h.count + 1) (hpc : h.primCount ≤ h'.primCount)
    (hold : ∀ o, o < h.count → h'.tensor o = h.tensor o ∧ h'.obj o = h.obj o)
    (hnew : h'.tensor h.count = { h.tensor x with view := places } ∧ (h'.obj h.count).ptype = (h.obj x).ptype ∧ (h'.obj h.count).prim < h'.primCount) :
    Inv h' (r.alias places) := by
  have cases : ∀ o, o < h'.count → o < h.count ∨ o = h.count := fun o ho => by omega
  -- every tensor of `h'` looks at places of a tensor of `h` of the same kind and scale
  have src : ∀ o, o < h'.count → ∃ o₁, o₁ < h.count ∧ (h'.tensor o).kind = (h.tensor o₁).kind ∧ (h'.tensor o).scale = (h.tensor o₁).scale ∧ ∀ c ∈ (h'.tensor o).view, c ∈ (h.tensor o₁).view := by
    intro o ho
    rcases cases o ho with hc | rfl
    · exact ⟨o, hc, by rw [(hold o hc).1], by rw [(hold o hc).1], by rw [(hold o hc).1]; exact fun _ h => h⟩
    · exact ⟨x, hx, by rw [hnew.1], by rw [hnew.1], by rw [hnew.1]; exact hpl⟩
  refine ⟨hn.trans i.next, by rw [hk, i.count]; rfl, ?_, ?_, ?_, ?_, ?_, ?_⟩
  · intro o ho
    show _ = if o = r.count then places else r.tensor o
    rw [← i.count]
    rcases cases o ho with hc | rfl
    · rw [(hold o hc).1, if_neg (by omega), i.view o hc]
    · rw [hnew.1, if_pos rfl]
  · intro o ho
    rcases cases o ho with hc | rfl
    · rw [(hold o hc).2]; exact lt_of_lt_of_le (i.prim o hc) hpc
    · exact hnew.2.2
  · intro o ho
    rcases cases o ho with hc | rfl
    · rw [(hold o hc).1, (hold o hc).2]; exact i.ptype o hc
    · rw [hnew.1, hnew.2.1]; exact i.ptype x hx
  · intro o ho c hcm
    obtain ⟨o₁, h₁, -, -, hv⟩ := src o ho
    rw [hn]; exact i.bound o₁ h₁ c (hv c hcm)
  · intro o ho c hcm
    obtain ⟨o₁, h₁, e1, e2, hv⟩ := src o ho
    rw [hc, e1, e2]; exact i.value o₁ h₁ c (hv c hcm)
  · intro o o' ho ho' c hcm hcm'
    obtain ⟨o₁, h₁, e1, -, hv⟩ := src o ho
    obtain ⟨o₂, h₂, e2, -, hv'⟩ := src o' ho'
    rw [e1, e2]; exact i.kind o₁ o₂ h₁ h₂ c (hv c hcm) (hv' c hcm')

theorem mem_pickAt {l : List ℕ} {positions : List ℕ} (hp : ∀ i ∈ positions, i < l.length) : ∀ c ∈ pickAt l positions, c ∈ l := by
  intro c hc
  obtain ⟨j, hj, rfl⟩ := List.mem_map.mp hc
  rw [List.getD_eq_getElem _ _ (hp j hj)]
  exact List.getElem_mem _

theorem position_some {l : List ℕ} {c j : ℕ} (h : position l c = some j) : c ∈ l ∧ ∃ hj : j < l.length, l[j] = c := by
  unfold position at h
  split at h
  · rename_i hm
    simp only [Option.some.injEq] at h
    subst h
    exact ⟨hm, List.idxOf_lt_length_of_mem hm, List.getElem_idxOf _⟩
  · simp at h

theorem position_none {l : List ℕ} {c : ℕ} (h : position l c = none) : c ∉ l := by
  unfold position at h
  split at h
  · simp at h
  · assumption

/-- The words and the numbers that are written. -/
theorem written {h : Heap n} {r : Plain} (i : Inv h r) {y : ℕ} (hy : y < h.count) {positions : List ℕ} (hp : ∀ j ∈ positions, j < (h.tensor y).view.length) {k : ℕ} (hk : k < positions.length) :
    decode (h.tensor y).kind (h.tensor y).scale ((pickAt (h.words y) positions).getD k 0) = (pickAt (r.get y) positions).getD k 0 := by
  have hj := hp positions[k] (List.getElem_mem hk)
  have l1 : k < (pickAt (h.words y) positions).length := by rw [pickAt, List.length_map]; exact hk
  have l2 : k < (pickAt (r.get y) positions).length := by rw [pickAt, List.length_map]; exact hk
  rw [List.getD_eq_getElem _ _ l1, List.getD_eq_getElem _ _ l2]
  have hv := i.view y hy
  have m1 : positions[k] < (h.words y).length := by rw [Heap.words, List.length_map]; exact hj
  have m2 : positions[k] < (r.get y).length := by rw [Plain.get, List.length_map, ← hv]; exact hj
  simp only [pickAt, List.getElem_map]
  rw [List.getD_eq_getElem _ _ m1, List.getD_eq_getElem _ _ m2]
  simp only [Heap.words, Plain.get, List.getElem_map]
  rw [i.value y hy _ (List.getElem_mem hj)]
  simp only [hv]

/-- Multiplying a word by a natural number, when the product fits. -/
theorem toInt_mul_nat (w : I64) (q : ℕ) (h1 : -2 ^ 63 ≤ w.toInt * q) (h2 : w.toInt * q < 2 ^ 63) : (w * BitVec.ofNat 64 q).toInt = w.toInt * q := by
  have e : w * BitVec.ofNat 64 q = BitVec.ofInt 64 (w.toInt * q) := by rw [ofInt_mul64, ofInt_toInt]; rfl
  rw [e, toInt_ofInt64 h1 h2]

/-- The words of a conversion stand for the numbers of the tensor. -/
theorem convert_values [NeZero n] {default : ℕ} (h : Heap n) (x : ℕ) (precision bits : Option ℕ) {T : Tuples n} (hT : T.Valid) (c : ℕ)
    (hb : (h.tensor x).kind = .binary → bits.getD 64 = 64 ∧ 0 < (h.tensor x).scale ∧ (h.tensor x).scale ∣ 2 ^ precision.getD default ∧
        ∀ v ∈ h.plain x, -2 ^ 63 ≤ v * 2 ^ precision.getD default ∧ v * 2 ^ precision.getD default < 2 ^ 63) :
    (convert default h x precision bits T c).2.1.map (decode (convert default h x precision bits T c).1 (convert default h x precision bits T c).2.2) = h.plain x := by
  have hlen : (h.plain x).length = (h.words x).length := by rw [Heap.plain, Heap.words, List.length_map, List.length_map]
  have hpl : ∀ j (hj : j < (h.words x).length) (hj' : j < (h.plain x).length), (h.plain x)[j] = decode (h.tensor x).kind (h.tensor x).scale (h.words x)[j] := by
    intro j hj hj'
    simp only [Heap.plain, Heap.words, List.getElem_map]
  unfold convert
  cases hk : (h.tensor x).kind with
  | arithmetic =>
    refine List.ext_getElem (by simp [wordsOf, hlen]) fun j hj hj' => ?_
    have hj2 : j < (h.words x).length := by rw [← hlen]; exact hj'
    rw [hpl j hj2 hj', hk]
    simp only [wordsOf, List.getElem_map, List.getElem_ofFn, decode]
    have := (C20_a2b (h.shares x) T hT c).2 ⟨j, hj2⟩
    have e1 : open' .binary (fun p => (a2b (h.shares x) T c).val p ⟨j, hj2⟩) = revealX (a2b (h.shares x) T c).val ⟨j, hj2⟩ := rfl
    have e2 : open' .arithmetic (h.words x)[j] = reveal (h.shares x) ⟨j, hj2⟩ := by rw [reveal_apply]; rfl
    rw [e1, e2, this]
  | binary =>
    obtain ⟨hbits, hs, hd, hfit⟩ := hb hk
    refine List.ext_getElem (by simp [wordsOf, hlen]) fun j hj hj' => ?_
    have hj2 : j < (h.words x).length := by rw [← hlen]; exact hj'
    have hv := hfit _ (List.getElem_mem hj')
    rw [hpl j hj2 hj', hk] at hv ⊢
    simp only [wordsOf, List.getElem_map, List.getElem_ofFn]
    have := (C20_b2a (bits.getD 64) (2 ^ precision.getD default) (h.tensor x).scale (by omega) (h.shares x) T hT c).2 ⟨j, hj2⟩
    change decode Kind.arithmetic (2 ^ precision.getD default) (fun p => (b2a (bits.getD 64) (2 ^ precision.getD default) (h.tensor x).scale (h.shares x) T c).val p ⟨j, hj2⟩) = _
    generalize (b2a (bits.getD 64) (2 ^ precision.getD default) (h.tensor x).scale (h.shares x) T c).val = z at this ⊢
    rw [hbits] at this
    have e1 : open' .arithmetic (fun p => z p ⟨j, hj2⟩) = reveal z ⟨j, hj2⟩ := by rw [reveal_apply]; rfl
    have e2 : open' .binary (h.words x)[j] = revealX (h.shares x) ⟨j, hj2⟩ := rfl
    unfold decode at hv ⊢
    rw [e1, this]
    rw [e2] at hv ⊢
    generalize revealX (h.shares x) ⟨j, hj2⟩ = w at hv ⊢
    rw [Nat.mod_eq_of_lt w.isLt, BitVec.ofNat_toNat, BitVec.setWidth_eq]
    obtain ⟨q, hq⟩ := hd
    have hdiv : 2 ^ precision.getD default / (h.tensor x).scale = q := by rw [hq]; exact Nat.mul_div_cancel_left _ hs
    have hqc : (2 : ℚ) ^ precision.getD default = (h.tensor x).scale * q := by exact_mod_cast hq
    have h0 : ((h.tensor x).scale : ℚ) ≠ 0 := by exact_mod_cast hs.ne'
    have hq0 : (q : ℚ) ≠ 0 := by
      intro e
      rw [e, mul_zero] at hqc
      exact absurd hqc (by positivity)
    have hval : ((w.toInt : ℤ) : ℚ) / (h.tensor x).scale * 2 ^ precision.getD default = ((w.toInt * q : ℤ) : ℚ) := by
      rw [hqc]; push_cast; field_simp
    rw [hval] at hv
    have h1 : -2 ^ 63 ≤ w.toInt * q := by exact_mod_cast hv.1
    have h2 : w.toInt * q < 2 ^ 63 := by exact_mod_cast hv.2
    rw [hdiv, toInt_mul_nat w q h1 h2]
    push_cast
    rw [hqc]
    field_simp

/-- A write through `x` keeps the link, if every tensor reads the numbers that are written. -/
theorem inv_write {h h' : Heap n} {r : Plain} (i : Inv h r) (places : List ℕ) (words : List (Fin n → I64)) (values : List ℚ)
    (hcell : h'.cell = (h.write places words).cell) (hn : h'.next = h.next) (hc : h'.count = h.count) (hpc : h'.primCount = h.primCount)
    (hobj : ∀ o, o < h.count → (h'.obj o).prim = (h.obj o).prim ∧ (h'.obj o).ptype = (h.obj o).ptype ∧ (h'.tensor o).view = (h.tensor o).view ∧ (h'.tensor o).kind = (h.tensor o).kind)
    (hkeep : ∀ o, o < h.count → ∀ c ∈ (h.tensor o).view, c ∉ places → (h'.tensor o).scale = (h.tensor o).scale)
    (hread : ∀ o, o < h.count → ∀ c ∈ (h.tensor o).view, ∀ j, position places c = some j → decode (h.tensor o).kind (h'.tensor o).scale (words.getD j 0) = values.getD j 0) :
    Inv h' (r.assign places values) := by
  refine ⟨hn.trans i.next, hc.trans i.count, ?_, ?_, ?_, ?_, ?_, ?_⟩
  · intro o ho; rw [hc] at ho; rw [(hobj o ho).2.2.1]; exact i.view o ho
  · intro o ho; rw [hc] at ho; rw [(hobj o ho).1, hpc]; exact i.prim o ho
  · intro o ho; rw [hc] at ho; rw [(hobj o ho).2.1, (hobj o ho).2.2.2]; exact i.ptype o ho
  · intro o ho; rw [hc] at ho; rw [(hobj o ho).2.2.1, hn]; exact i.bound o ho
  · intro o ho c hcm
    rw [hc] at ho
    rw [(hobj o ho).2.2.1] at hcm
    rw [(hobj o ho).2.2.2, hcell]
    show decode _ _ (match position places c with | some j => words.getD j 0 | none => h.cell c) = (match position places c with | some j => values.getD j 0 | none => r.value c)
    cases hp : position places c with
    | some j => exact hread o ho c hcm j hp
    | none =>
      dsimp only
      rw [hkeep o ho c hcm (position_none hp)]
      exact i.value o ho c hcm
  · intro o o' ho ho' c hcm hcm'
    rw [hc] at ho ho'
    rw [(hobj o ho).2.2.1] at hcm
    rw [(hobj o' ho').2.2.1] at hcm'
    rw [(hobj o ho).2.2.2, (hobj o' ho').2.2.2]
    exact i.kind o o' ho ho' c hcm hcm'

/-- One operation keeps the link. -/
theorem inv_step [NeZero n] {default : ℕ} {h h' : Heap n} {r : Plain} (i : Inv h r) {op : Op n} (hf : op.Fine default h) {o : ℕ} (hs : step default h op = some (h', o)) :
    Inv h' (r.step default op) := by
  cases op with
  | new kind words scale =>
    simp only [step, Option.some.injEq] at hs
    have := inv_make i kind words scale _ rfl
    rw [hs] at this
    exact this
  | fromShares kind words precision =>
    simp only [step, Option.some.injEq] at hs
    have := inv_make i kind words (2 ^ precision.getD default) _ rfl
    rw [hs] at this
    simpa [Plain.step] using this
  | clone x =>
    simp only [step, Option.some.injEq] at hs
    have := inv_make i (h.tensor x).kind (h.words x) (h.tensor x).scale _ rfl
    rw [i.ptype x hf] at hs
    rw [hs] at this
    have e : (h.words x).map (decode (h.tensor x).kind (h.tensor x).scale) = r.get x := by
      rw [← i.agree.2 x hf]; unfold Heap.words Heap.plain; rw [List.map_map]; rfl
    rw [e] at this
    exact this
  | view x positions =>
    simp only [step, Option.some.injEq, Prod.mk.injEq] at hs
    obtain ⟨rfl, -⟩ := hs
    obtain ⟨hx, hp⟩ := hf
    have := inv_alias (h' := ((h.newPrim { h.tensor x with view := pickAt (h.tensor x).view positions }).1.newObj ⟨h.primCount, (h.obj x).ptype⟩).1) i hx
      (places := pickAt (h.tensor x).view positions) (mem_pickAt hp) rfl rfl rfl (Nat.le_succ _) ?_ ?_
    · rw [i.view x hx] at this
      simp only [Plain.step]
      convert this using 1
      rw [i.view x hx]; rfl
    · intro o ho
      have := i.prim o ho
      simp [Heap.newObj, Heap.newPrim, Heap.tensor, Nat.ne_of_lt ho, Nat.ne_of_lt this]
    · simp [Heap.newObj, Heap.newPrim, Heap.tensor]
  | shallow x =>
    simp only [step, Option.some.injEq, Prod.mk.injEq] at hs
    obtain ⟨rfl, -⟩ := hs
    have := inv_alias (h' := (h.newObj (h.obj x)).1) i hf (places := (h.tensor x).view) (fun _ h => h) rfl rfl rfl (le_refl _) ?_ ?_
    · rw [i.view x hf] at this
      exact this
    · intro o ho
      simp [Heap.newObj, Heap.tensor, Nat.ne_of_lt ho]
    · simp [Heap.newObj, Heap.tensor]
      exact i.prim x hf
  | toPtype x kind precision bits T c =>
    obtain ⟨hx, hT, hb⟩ := hf
    simp only [step] at hs
    split at hs
    · rename_i hk
      simp only [Option.some.injEq] at hs
      have := inv_make i (h.tensor x).kind (h.words x) (h.tensor x).scale _ rfl
      rw [i.ptype x hx] at hs
      rw [hs] at this
      have e : (h.words x).map (decode (h.tensor x).kind (h.tensor x).scale) = r.get x := by
        rw [← i.agree.2 x hx]; unfold Heap.words Heap.plain; rw [List.map_map]; rfl
      rw [e] at this
      exact this
    · rename_i hk
      split at hs
      · rename_i hk'
        exact absurd ((i.ptype x hx).trans hk') hk
      · rename_i hk'
        simp only [Option.some.injEq] at hs
        have e : (convert default h x precision bits T c).1 = kind := by
          unfold convert
          cases h1 : (h.tensor x).kind <;> cases kind <;> simp_all
        have hval := convert_values (default := default) h x precision bits hT c (fun hbin => hb (by cases kind with | arithmetic => rfl | binary => exact absurd hbin hk') (by rw [i.ptype x hx]; exact hbin))
        have := inv_make i (convert default h x precision bits T c).1 (convert default h x precision bits T c).2.1 (convert default h x precision bits T c).2.2 _ hval
        rw [e] at this hs
        rw [hs, i.agree.2 x hx] at this
        exact this
  | copy x y positions =>
    obtain ⟨hx, hy, hl, hp, hk, hsc⟩ := hf
    rw [i.ptype x hx, i.ptype y hy] at hk
    simp only [step] at hs
    split at hs
    · simp only [Option.some.injEq, Prod.mk.injEq] at hs
      obtain ⟨rfl, -⟩ := hs
      have := inv_write (h' := { h.write (h.tensor x).view (pickAt (h.words y) positions) with
        prim := fun q => if q = (h.obj x).prim then { h.tensor x with scale := (h.tensor y).scale } else h.prim q
        obj := fun o => if o = x then ⟨(h.obj x).prim, (h.obj y).ptype⟩ else h.obj o }) i (h.tensor x).view (pickAt (h.words y) positions) (pickAt (r.get y) positions) rfl rfl rfl rfl ?_ ?_ ?_
      · rw [i.view x hx] at this
        simpa only [Plain.step, i.view x hx] using this
      · intro o ho
        by_cases hox : o = x
        · subst hox
          simp [Heap.tensor, i.ptype o hx, i.ptype y hy]
          exact hk.symm
        · by_cases hpx : (h.obj o).prim = (h.obj x).prim
          · simp [Heap.tensor, hox, hpx]
          · simp [Heap.tensor, hox, hpx]
      · intro o ho c hcm hcn
        by_cases hpx : (h.obj o).prim = (h.obj x).prim
        · exact absurd (by simpa [Heap.tensor, hpx] using hcm) hcn
        · have hox : o ≠ x := by rintro rfl; exact hpx rfl
          simp [Heap.tensor, hox, hpx]
      · intro o ho c hcm j hj
        obtain ⟨hcx, hj', -⟩ := position_some hj
        have hko : (h.tensor o).kind = (h.tensor y).kind := (i.kind o x ho hx c hcm hcx).trans hk
        have hso : (Heap.tensor { h.write (h.tensor x).view (pickAt (h.words y) positions) with
            prim := fun q => if q = (h.obj x).prim then { h.tensor x with scale := (h.tensor y).scale } else h.prim q
            obj := fun o => if o = x then ⟨(h.obj x).prim, (h.obj y).ptype⟩ else h.obj o } o).scale = (h.tensor y).scale := by
          by_cases hpx : (h.obj o).prim = (h.obj x).prim
          · by_cases hox : o = x
            · simp [Heap.tensor, hox]
            · simp [Heap.tensor, hox, hpx]
          · have hox : o ≠ x := by rintro rfl; exact hpx rfl
            have := hsc o ho ⟨c, hcm, hcx⟩ hpx
            simp only [Heap.tensor, if_neg hox, if_neg hpx] at this ⊢
            exact this
        rw [hso, hko]
        exact written i hy hp (by omega)
    · simp at hs
  | setItem x into y positions =>
    obtain ⟨hx, hy, hl, hp, hin, hk, hsc⟩ := hf
    rw [i.ptype x hx, i.ptype y hy] at hk
    simp only [step] at hs
    split at hs
    · simp only [Option.some.injEq, Prod.mk.injEq] at hs
      obtain ⟨rfl, -⟩ := hs
      have := inv_write (h' := h.write (pickAt (h.tensor x).view into) (pickAt (h.words y) positions)) i (pickAt (h.tensor x).view into) (pickAt (h.words y) positions) (pickAt (r.get y) positions)
        rfl rfl rfl rfl (fun o _ => ⟨rfl, rfl, rfl, rfl⟩) (fun o _ _ _ _ => rfl) ?_
      · rw [i.view x hx] at this
        simpa only [Plain.step, i.view x hx] using this
      · intro o ho c hcm j hj
        obtain ⟨hcx, hj', -⟩ := position_some hj
        have hcx' := mem_pickAt hin c hcx
        have hko : (h.tensor o).kind = (h.tensor y).kind := (i.kind o x ho hx c hcm hcx').trans hk
        have hso : (h.tensor o).scale = (h.tensor y).scale := hsc o ho ⟨c, hcm, hcx⟩
        show decode _ (h.tensor o).scale _ = _
        rw [hso, hko]
        exact written i hy hp (by rw [pickAt, List.length_map] at hj'; omega)
    · simp at hs

/-- A program keeps the link. -/
theorem inv_run [NeZero n] {default : ℕ} {h h' : Heap n} {r : Plain} (i : Inv h r) {ops : List (Op n)} (hf : AllFine default h ops) (hs : run default h ops = some h') :
    Inv h' (r.run default ops) := by
  induction ops generalizing h r with
  | nil => simp only [run, Option.some.injEq] at hs; subst hs; exact i
  | cons op ops ih =>
    obtain ⟨h1, h2⟩ := hf
    simp only [run] at hs
    split at hs
    · rename_i h₁ o he
      exact ih (inv_step i h1 he) (h2 h₁ o he) hs
    · simp at hs

/-- **C85 (history).** Every program of encryptions, copies, views, conversions and in-place writes, each of them fine when its turn comes, leaves every encrypted tensor with the numbers that the same
program in the clear leaves: copies are independent or shared exactly as they are there. -/
theorem C85_history_partial [NeZero n] (default : ℕ) (ops : List (Op n)) (hf : AllFine default empty ops) (h : Heap n) (hs : run default empty ops = some h) :
    Agree h (Plain.empty.run default ops) := (inv_run inv_empty hf hs).agree

/-! ## What a write leaves alone -/

/-- Tensors refer to shared tensors and storage that exist. -/
def Heap.Ok (h : Heap n) : Prop := ∀ o, o < h.count → (h.obj o).prim < h.primCount ∧ ∀ c ∈ (h.tensor o).view, c < h.next

/-- The places an operation writes to. -/
def Op.writes (h : Heap n) : Op n → List ℕ
  | .copy x _ _ => (h.tensor x).view
  | .setItem x into _ _ => pickAt (h.tensor x).view into
  | _ => []

theorem make_plain (h : Heap n) (hok : h.Ok) (kind ptype : Kind) (words : List (Fin n → I64)) (scale : ℕ) (o : ℕ) (ho : o < h.count) : (h.make kind ptype words scale).1.plain o = h.plain o := by
  unfold Heap.plain
  rw [make_tensor h kind ptype words scale (fun o ho => (hok o ho).1) o (by omega), if_pos ho]
  refine List.map_congr_left fun c hc => ?_
  rw [make_cell, if_pos ((hok o ho).2 c hc)]

theorem write_plain (h : Heap n) (places : List ℕ) (words : List (Fin n → I64)) (o : ℕ) (hl : ¬h.LooksAt o places) : (h.write places words).plain o = h.plain o := by
  refine List.map_congr_left fun c hc => ?_
  have : position places c = none := by
    unfold position
    rw [if_neg fun hm => hl ⟨c, hc, hm⟩]
  show decode (h.tensor o).kind (h.tensor o).scale (match position places c with | some i => words.getD i 0 | none => h.cell c) = _
  rw [this]

/-- **C85 (frame).** An operation changes no tensor except those that look at a place it writes to. (A tensor without entries decrypts to nothing.) -/
theorem C85_frame [NeZero n] (default : ℕ) (h : Heap n) (hok : h.Ok) (op : Op n) (h' : Heap n) (r : ℕ) (hs : step default h op = some (h', r)) (o : ℕ) (ho : o < h.count)
    (hl : ¬h.LooksAt o (op.writes h)) : h'.plain o = h.plain o := by
  cases op with
  | new kind words scale => simp only [step, Option.some.injEq] at hs; have := make_plain h hok kind kind words scale o ho; rw [hs] at this; exact this
  | fromShares kind words precision => simp only [step, Option.some.injEq] at hs; have := make_plain h hok kind kind words (2 ^ precision.getD default) o ho; rw [hs] at this; exact this
  | clone x => simp only [step, Option.some.injEq] at hs; have := make_plain h hok (h.tensor x).kind (h.obj x).ptype (h.words x) (h.tensor x).scale o ho; rw [hs] at this; exact this
  | view x positions =>
    simp only [step, Option.some.injEq, Prod.mk.injEq] at hs
    obtain ⟨rfl, -⟩ := hs
    have := (hok o ho).1
    simp [Heap.plain, Heap.newObj, Heap.newPrim, Heap.tensor, Nat.ne_of_lt ho, Nat.ne_of_lt this]
  | shallow x =>
    simp only [step, Option.some.injEq, Prod.mk.injEq] at hs
    obtain ⟨rfl, -⟩ := hs
    simp [Heap.plain, Heap.newObj, Heap.tensor, Nat.ne_of_lt ho]
  | toPtype x kind precision bits T c =>
    simp only [step] at hs
    split at hs
    · simp only [Option.some.injEq] at hs; have := make_plain h hok (h.tensor x).kind (h.obj x).ptype (h.words x) (h.tensor x).scale o ho; rw [hs] at this; exact this
    · split at hs
      · simp only [Option.some.injEq] at hs
        obtain ⟨rfl, -⟩ := Prod.mk.inj hs
        simp [Heap.plain, Heap.newObj, Heap.tensor, Nat.ne_of_lt ho]
      · simp only [Option.some.injEq] at hs
        have := make_plain h hok (convert default h x precision bits T c).1 kind (convert default h x precision bits T c).2.1 (convert default h x precision bits T c).2.2 o ho
        rw [hs] at this; exact this
  | copy x y positions =>
    simp only [step] at hs
    split at hs
    · simp only [Option.some.injEq, Prod.mk.injEq] at hs
      obtain ⟨rfl, -⟩ := hs
      by_cases hpx : (h.obj o).prim = (h.obj x).prim
      · -- the same shared tensor: it has no entries
        have he : (h.tensor o).view = [] := by
          rw [List.eq_nil_iff_forall_not_mem]
          intro c hc
          exact hl ⟨c, hc, by simpa [Op.writes, Heap.tensor, hpx] using hc⟩
        have he' : (h.tensor x).view = [] := by rw [← he]; simp [Heap.tensor, hpx]
        unfold Heap.plain
        rw [he, List.map_nil]
        by_cases hox : o = x
        · simp only [Heap.tensor, if_pos hox, if_true]
          rw [show (h.prim (h.obj x).prim).view = [] from he', List.map_nil]
        · simp only [Heap.tensor, if_neg hox, if_pos hpx]
          rw [show (h.prim (h.obj x).prim).view = [] from he', List.map_nil]
      · have hox : o ≠ x := by rintro rfl; exact hpx rfl
        have := write_plain h (h.tensor x).view (pickAt (h.words y) positions) o hl
        rw [← this]
        simp [Heap.plain, Heap.tensor, hox, hpx, Heap.write]
    · simp at hs
  | setItem x into y positions =>
    simp only [step] at hs
    split at hs
    · simp only [Option.some.injEq, Prod.mk.injEq] at hs
      obtain ⟨rfl, -⟩ := hs
      exact write_plain h _ _ o hl
    · simp at hs

/-- **C85 (clone).** A clone has the numbers, private type and precision of the tensor, and no tensor looks at its places. -/
theorem C85_clone [NeZero n] (default : ℕ) (h : Heap n) (hok : h.Ok) (x : ℕ) :
    ∃ h' y, step default h (.clone x) = some (h', y) ∧ y = h.count ∧ h'.plain y = h.plain x ∧ (h'.tensor y).scale = (h.tensor x).scale ∧ (h'.obj y).ptype = (h.obj x).ptype ∧
      ∀ o, o < h.count → ¬h'.LooksAt o (h'.tensor y).view := by
  refine ⟨(h.make (h.tensor x).kind (h.obj x).ptype (h.words x) (h.tensor x).scale).1, h.count, rfl, rfl, ?_, ?_, ?_, ?_⟩
  · unfold Heap.plain
    rw [make_tensor h _ _ _ _ (fun o ho => (hok o ho).1) h.count (by omega), if_neg (lt_irrefl _), List.map_map]
    refine List.ext_getElem (by simp [Heap.words]) fun j hj hj' => ?_
    have hw : j < (h.words x).length := by simpa using hj
    simp only [List.getElem_map, List.getElem_range, Function.comp_apply]
    rw [make_cell, if_neg (by omega), Nat.add_sub_cancel_left, List.getD_eq_getElem _ _ hw]
    simp only [Heap.words, List.getElem_map]
  · rw [make_tensor h _ _ _ _ (fun o ho => (hok o ho).1) h.count (by omega), if_neg (lt_irrefl _)]
  · rw [make_obj h _ _ _ _ h.count (by omega), if_neg (lt_irrefl _)]
  · rintro o ho ⟨c, hc, hc'⟩
    rw [make_tensor h _ _ _ _ (fun o ho => (hok o ho).1) h.count (by omega), if_neg (lt_irrefl _)] at hc'
    rw [make_tensor h _ _ _ _ (fun o ho => (hok o ho).1) o (by omega), if_pos ho] at hc
    have := (hok o ho).2 c hc
    obtain ⟨j, -, rfl⟩ := List.mem_map.mp hc'
    omega

/-! ## What the conditions of a write are for -/

/-- **C85 (writes and precision).** `x.copy_(y)` and `x[index] = y` between tensors of one private type: a tensor that looks at a place written, other than by `copy_` through the same shared
tensor, reads the number of `y` times the quotient of the precisions. So it reads the right number only if the precisions agree or the number is zero. -/
theorem C85_read_after_write (h : Heap n) (places : List ℕ) (y : ℕ) (positions : List ℕ) (hp : ∀ j ∈ positions, j < (h.tensor y).view.length) (o : ℕ) (hk : (h.tensor o).kind = (h.tensor y).kind)
    (hy : 0 < (h.tensor y).scale) (ho : 0 < (h.tensor o).scale) (c : ℕ) (j : ℕ) (hj : position places c = some j) (hjp : j < positions.length) :
    let now := decode (h.tensor o).kind (h.tensor o).scale ((h.write places (pickAt (h.words y) positions)).cell c)
    let number := (pickAt (h.plain y) positions).getD j 0
    now = number * ((h.tensor y).scale / (h.tensor o).scale) ∧ (now = number ↔ (h.tensor o).scale = (h.tensor y).scale ∨ number = 0) := by
  intro now number
  have l1 : j < (pickAt (h.words y) positions).length := by rw [pickAt, List.length_map]; exact hjp
  have l2 : j < (pickAt (h.plain y) positions).length := by rw [pickAt, List.length_map]; exact hjp
  have hpj := hp _ (List.getElem_mem hjp)
  have m1 : positions[j] < (h.words y).length := by rw [Heap.words, List.length_map]; exact hpj
  have m2 : positions[j] < (h.plain y).length := by rw [Heap.plain, List.length_map]; exact hpj
  have hn : number = decode (h.tensor y).kind (h.tensor y).scale (h.cell ((h.tensor y).view[positions[j]])) := by
    show (pickAt (h.plain y) positions).getD j 0 = _
    rw [List.getD_eq_getElem _ _ l2]
    simp only [pickAt, List.getElem_map]
    rw [List.getD_eq_getElem _ _ m2]
    simp only [Heap.plain, List.getElem_map]
  have hw : now = decode (h.tensor o).kind (h.tensor o).scale (h.cell ((h.tensor y).view[positions[j]])) := by
    show decode (h.tensor o).kind (h.tensor o).scale (match position places c with | some i => (pickAt (h.words y) positions).getD i 0 | none => h.cell c) = _
    rw [hj]
    show decode (h.tensor o).kind (h.tensor o).scale ((pickAt (h.words y) positions).getD j 0) = _
    rw [List.getD_eq_getElem _ _ l1]
    simp only [pickAt, List.getElem_map]
    rw [List.getD_eq_getElem _ _ m1]
    simp only [Heap.words, List.getElem_map]
  have h1 : ((h.tensor y).scale : ℚ) ≠ 0 := by exact_mod_cast hy.ne'
  have h2 : ((h.tensor o).scale : ℚ) ≠ 0 := by exact_mod_cast ho.ne'
  rw [hk] at hw
  unfold decode at hw hn
  generalize ((open' (h.tensor y).kind (h.cell ((h.tensor y).view[positions[j]]))).toInt : ℤ) = z at hw hn
  have first : now = number * ((h.tensor y).scale / (h.tensor o).scale) := by
    rw [hw, hn]; field_simp
  refine ⟨first, ?_⟩
  rw [first]
  constructor
  · intro e
    by_cases h0 : number = 0
    · exact Or.inr h0
    · left
      have : ((h.tensor y).scale : ℚ) / (h.tensor o).scale = 1 := mul_left_cancel₀ h0 (by rw [e, mul_one])
      rw [div_eq_one_iff_eq h2] at this
      exact_mod_cast this.symm
  · rintro (e | e)
    · rw [e, div_self h1, mul_one]
    · rw [e, zero_mul]

/-- **C85 is wrong in general (views and precision).** `x` holds 1 and 2, `v = x[0:1]`, `y` holds the bit 1 of a comparison (precision 0). After `v.copy_(y)`, `v` decrypts to 1 but `x` to 1/65536 and 2:
the storage was written, the encoder of `v` was changed, and `x` has another. The same with `x[0] = y`. -/
theorem C85_view_precision_wrong :
    let program : List (Op 2) := [.new .arithmetic [![65536, 0], ![131072, 0]] 65536, .view 0 [0], .new .arithmetic [![1, 0]] 1]
    (∃ h, run 16 empty (program ++ [.copy 1 2 [0]]) = some h ∧ h.plain 1 = [1] ∧ h.plain 0 = [1 / 65536, 2] ∧ (Plain.empty.run 16 (program ++ [.copy 1 2 [0]])).get 0 = [1, 2]) ∧
    (∃ h, run 16 empty (program ++ [.setItem 0 [0] 2 [0]]) = some h ∧ h.plain 0 = [1 / 65536, 2] ∧ (Plain.empty.run 16 (program ++ [.setItem 0 [0] 2 [0]])).get 0 = [1, 2]) := by
  refine ⟨⟨_, rfl, ?_, ?_, ?_⟩, ⟨_, rfl, ?_, ?_⟩⟩ <;> decide +kernel

/-- **C85 is wrong in general (private types).** `x` holds 3 in arithmetic shares, `y` 5 in binary shares. After `x.copy_(y)`, `x.ptype` is binary, but the shares are opened by adding them, and `x` decrypts to
another number. `x.to(Ptype.arithmetic)` then is not a copy: writing to it changes `x`. -/
theorem C85_copy_ptype_wrong (T : Tuples 2) :
    let program : List (Op 2) := [.new .arithmetic [![4, -1]] 1, .new .binary [![7, 2]] 1, .copy 0 1 [0]]
    let more : List (Op 2) := [.toPtype 0 .arithmetic none none T 0, .new .arithmetic [![70, 7]] 1, .copy 2 3 [0]]
    (∃ h, run 16 empty program = some h ∧ h.plain 1 = [5] ∧ h.plain 0 = [9] ∧ (h.obj 0).ptype = .binary) ∧
    (∃ h, run 16 empty (program ++ more) = some h ∧ h.plain 0 = [77] ∧ (Plain.empty.run 16 (program ++ more)).get 0 = [5]) := by
  refine ⟨⟨_, rfl, ?_, ?_, rfl⟩, ⟨_, rfl, ?_, ?_⟩⟩
  · decide +kernel
  · decide +kernel
  · decide +kernel
  · change (Plain.empty.run 16 ([.new .arithmetic [![4, -1]] 1, .new .binary [![7, 2]] 1, .copy 0 1 [0], .clone 0, .new .arithmetic [![70, 7]] 1, .copy 2 3 [0]] : List (Op 2))).get 0 = [5]
    decide +kernel

/-- **C85 (lower precision).** A binary tensor whose precision is higher than the one asked for (by default `cfg.encoder.precision_bits`) is converted to zeros. -/
theorem C85_to_lower_precision_wrong [NeZero n] (default : ℕ) (h : Heap n) (x : ℕ) (precision bits : Option ℕ) (T : Tuples n) (hT : T.Valid) (c : ℕ) (hk : (h.tensor x).kind = .binary)
    (hb : bits.getD 64 ≤ 64) (hs : 2 ^ precision.getD default < (h.tensor x).scale) :
    (convert default h x precision bits T c).2.1.map (decode (convert default h x precision bits T c).1 (convert default h x precision bits T c).2.2) = List.replicate (h.tensor x).view.length 0 := by
  unfold convert
  rw [hk]
  refine List.ext_getElem (by simp [wordsOf, Heap.words]) fun j hj hj' => ?_
  have hj2 : j < (h.words x).length := by rw [Heap.words, List.length_map]; simpa using hj'
  simp only [wordsOf, List.getElem_map, List.getElem_ofFn, List.getElem_replicate]
  have := (C20_b2a (bits.getD 64) (2 ^ precision.getD default) (h.tensor x).scale hb (h.shares x) T hT c).2 ⟨j, hj2⟩
  rw [Nat.div_eq_of_lt hs] at this
  have e1 : open' .arithmetic (fun p => (b2a (bits.getD 64) (2 ^ precision.getD default) (h.tensor x).scale (h.shares x) T c).val p ⟨j, hj2⟩) = 0 := by
    have e : open' .arithmetic (fun p => (b2a (bits.getD 64) (2 ^ precision.getD default) (h.tensor x).scale (h.shares x) T c).val p ⟨j, hj2⟩)
      = reveal (b2a (bits.getD 64) (2 ^ precision.getD default) (h.tensor x).scale (h.shares x) T c).val ⟨j, hj2⟩ := by rw [reveal_apply]; rfl
    rw [e, this]
    exact BitVec.mul_zero
  unfold decode
  change (((open' .arithmetic (fun p => (b2a (bits.getD 64) (2 ^ precision.getD default) (h.tensor x).scale (h.shares x) T c).val p ⟨j, hj2⟩)).toInt : ℤ) : ℚ) / _ = 0
  rw [e1]
  simp

/-- **C85 (`from_shares`).** The shares of a tensor, given back with its private type and precision, make a tensor with its numbers. -/
theorem C85_from_shares [NeZero n] (default : ℕ) (h : Heap n) (hok : h.Ok) (x : ℕ) (precision : Option ℕ) (hp : 2 ^ precision.getD default = (h.tensor x).scale) :
    ∃ h' y, step default h (.fromShares (h.tensor x).kind (h.words x) precision) = some (h', y) ∧ h'.plain y = h.plain x := by
  refine ⟨(h.make (h.tensor x).kind (h.tensor x).kind (h.words x) (2 ^ precision.getD default)).1, h.count, rfl, ?_⟩
  unfold Heap.plain
  rw [make_tensor h _ _ _ _ (fun o ho => (hok o ho).1) h.count (by omega), if_neg (lt_irrefl _), List.map_map, hp]
  refine List.ext_getElem (by simp [Heap.words]) fun j hj hj' => ?_
  have hw : j < (h.words x).length := by simpa using hj
  simp only [List.getElem_map, List.getElem_range, Function.comp_apply]
  rw [make_cell, if_neg (by omega), Nat.add_sub_cancel_left, List.getD_eq_getElem _ _ hw]
  simp only [Heap.words, List.getElem_map]

/-- **C85 is wrong in general (`from_shares`).** Without a precision, `from_shares` takes the default for binary shares as well, whereas a binary tensor is encrypted with precision 0:
`MPCTensor.from_shares(x.share, ptype=x.ptype)` decrypts to 5/65536 where `x` holds 5. -/
theorem C85_from_shares_wrong :
    ∃ h, run 16 (empty : Heap 2) [.new .binary [![7, 2]] 1, .fromShares .binary [![7, 2]] none] = some h ∧ h.words 1 = h.words 0 ∧ (h.obj 1).ptype = (h.obj 0).ptype ∧
      h.plain 0 = [5] ∧ h.plain 1 = [5 / 65536] := by
  refine ⟨_, rfl, rfl, rfl, ?_, ?_⟩ <;> decide +kernel

/-! ## Instances -/

/-- A program that is fine: two tensors, a view, a shallow copy, a clone, and writes through the view and to an entry. -/
def sample : List (Op 2) :=
  [.new .arithmetic [![65536, 0], ![131072, 1]] 65536, .view 0 [1], .shallow 0, .clone 0, .new .arithmetic [![3, 4]] 65536, .copy 1 4 [0], .setItem 2 [0] 4 [0], .copy 0 3 [0, 1], .copy 3 4 [0, 0]]

theorem fine_cons [NeZero n] {default : ℕ} {h : Heap n} {op : Op n} {ops : List (Op n)} {h' : Heap n} {o : ℕ} (hs : step default h op = some (h', o)) (hf : op.Fine default h)
    (hr : AllFine default h' ops) : AllFine default h (op :: ops) := by
  refine ⟨hf, fun h₁ o₁ e => ?_⟩
  rw [hs] at e
  obtain ⟨rfl, -⟩ := Prod.mk.inj (Option.some.inj e)
  exact hr

example : AllFine 16 empty sample := by
  refine fine_cons rfl trivial (fine_cons rfl ?_ (fine_cons rfl ?_ (fine_cons rfl ?_ (fine_cons rfl trivial (fine_cons rfl ?_ (fine_cons rfl ?_ (fine_cons rfl ?_ (fine_cons rfl ?_ trivial))))))))
  all_goals unfold Op.Fine Heap.LooksAt; decide +kernel

example : ∃ h, run 16 empty sample = some h ∧ h.plain 0 = [1, 131073 / 65536] ∧ h.plain 1 = [131073 / 65536] ∧ h.plain 2 = [1, 131073 / 65536] ∧ h.plain 3 = [7 / 65536, 7 / 65536] := by
  refine ⟨_, rfl, ?_, ?_, ?_, ?_⟩ <;> decide +kernel

/-- A conversion to arithmetic shares that is fine: binary shares of 5 at precision 0. -/
example : ∃ T : Tuples 2, AllFine 16 empty [.new .binary [![7, 2]] 1, .toPtype 0 .arithmetic none none T 0] := by
  obtain ⟨T, hT, -⟩ := tuples_exist 2
  refine ⟨T, fine_cons rfl trivial ⟨⟨by decide +kernel, hT, fun _ _ => ⟨rfl, by decide +kernel, by decide +kernel, ?_⟩⟩, fun _ _ _ => trivial⟩⟩
  have e : Heap.plain ((empty : Heap 2).make .binary .binary [![7, 2]] 1).1 0 = [5] := by decide +kernel
  intro v hv
  change v ∈ Heap.plain ((empty : Heap 2).make .binary .binary [![7, 2]] 1).1 0 at hv
  rw [e, List.mem_singleton] at hv
  subst hv
  norm_num

/-- The hypotheses of `C85_to_lower_precision_wrong`: binary shares at precision 20. -/
example : let h := ((empty : Heap 2).make .binary .binary [![7, 2]] (2 ^ 20)).1; (h.tensor 0).kind = .binary ∧ 2 ^ (none : Option ℕ).getD 16 < (h.tensor 0).scale ∧ h.plain 0 = [5 / 2 ^ 20] := by
  decide +kernel

end CrypTen.Copies

import Verif.Lemmas.ShapeGrad

/-!
# C62: gradients of operations that move entries around
-/

namespace CrypTen
namespace ShapeGrad
open NdTensor

variable {R : Type} [CommRing R]

theorem getD_sw (l : List ℕ) {a b : ℕ} (ha : a < l.length) (hb : b < l.length) (k : ℕ) :
    ((l.set a (l.getD b 0)).set b (l.getD a 0)).getD k 0 = if k = b then l.getD a 0 else if k = a then l.getD b 0 else l.getD k 0 := by
  simp only [getD_set0, List.length_set]
  by_cases h1 : k = b
  · subst h1; simp [hb]
  · by_cases h2 : k = a
    · subst h2; simp [h1, ha]
    · simp [h1, h2]

theorem sw_sw (l : List ℕ) {a b : ℕ} (ha : a < l.length) (hb : b < l.length) {m : List ℕ} (hm : m = (l.set a (l.getD b 0)).set b (l.getD a 0)) :
    (m.set b (m.getD a 0)).set a (m.getD b 0) = l := by
  have hl : m.length = l.length := by simp [hm]
  refine ext_getD0 (by simp [hl]) fun k _ => ?_
  rw [getD_sw m (a := b) (b := a) (by omega) (by omega), hm]
  simp only [getD_sw l ha hb]
  by_cases h1 : k = a
  · subst h1; by_cases h2 : k = b <;> simp
  · by_cases h2 : k = b
    · subst h2; simp [h1, Ne.symm h1]
    · simp [h1, h2]

theorem sw_valid {s l : List ℕ} {a b : ℕ} (ha : a < s.length) (hb : b < s.length) (h : ValidIdx s l) :
    ValidIdx ((s.set a (s.getD b 0)).set b (s.getD a 0)) ((l.set a (l.getD b 0)).set b (l.getD a 0)) := by
  obtain ⟨h1, h2⟩ := validIdx_iff.1 h
  refine validIdx_iff.2 ⟨by simp [h1], fun k hk => ?_⟩
  rw [getD_sw s ha hb, getD_sw l (by omega) (by omega)]
  simp only [List.length_set] at hk
  split
  · exact h2 a ha
  · split
    · exact h2 b hb
    · exact h2 k hk

theorem transpose_some {x y : NdTensor R} {d1 d2 : ℤ} (h : x.transpose d1 d2 = some y) : ∃ a b, normDim x.shape.length d1 = some a ∧ normDim x.shape.length d2 = some b
    ∧ y.shape = (x.shape.set a (x.shape.getD b 0)).set b (x.shape.getD a 0) ∧ y.data = fun idx => x.data ((idx.set a (idx.getD b 0)).set b (idx.getD a 0)) := by
  unfold NdTensor.transpose at h
  cases h1 : normDim x.shape.length d1 with
  | none => simp [h1] at h
  | some a =>
    cases h2 : normDim x.shape.length d2 with
    | none => simp [h1, h2] at h
    | some b =>
      simp only [h1, h2, Option.bind_eq_bind, Option.bind_some, Option.pure_def, Option.some.injEq] at h
      exact ⟨a, b, rfl, rfl, by rw [← h], by rw [← h]⟩

theorem transpose_of {x : NdTensor R} {d1 d2 : ℤ} {a b : ℕ} (h1 : normDim x.shape.length d1 = some a) (h2 : normDim x.shape.length d2 = some b) :
    x.transpose d1 d2 = some ⟨(x.shape.set a (x.shape.getD b 0)).set b (x.shape.getD a 0), fun idx => x.data ((idx.set a (idx.getD b 0)).set b (idx.getD a 0))⟩ := by
  simp [NdTensor.transpose, h1, h2]

theorem C62_transpose (d1 d2 : ℤ) : IsGradient (transposeF (R := R) d1 d2) transposeB := by
  refine isGradient_bij fun x y c hf => ?_
  unfold transposeF at hf
  cases ht : x.transpose d1 d2 with
  | none => simp [ht] at hf
  | some y0 =>
    simp only [ht, Option.map_some, Option.some.injEq, Prod.mk.injEq] at hf
    obtain ⟨rfl, rfl⟩ := hf
    obtain ⟨a, b, ha, hb, hs, hd⟩ := transpose_some ht
    have hal := normDim_lt ha
    have hbl := normDim_lt hb
    have hlen : y0.shape.length = x.shape.length := by simp [hs]
    refine ⟨fun l => (l.set a (l.getD b 0)).set b (l.getD a 0), fun l => (l.set b (l.getD a 0)).set a (l.getD b 0), ?_, ?_, ?_, ?_⟩
    · intro x' hx'
      refine ⟨⟨y0.shape, fun idx => x'.data ((idx.set a (idx.getD b 0)).set b (idx.getD a 0))⟩, ?_, rfl, fun _ _ => rfl⟩
      simp [transposeF, transpose_of (x := x') (hx' ▸ ha) (hx' ▸ hb), hx', hs]
    · intro g hg
      refine ⟨⟨x.shape, fun idx => g.data ((idx.set b (idx.getD a 0)).set a (idx.getD b 0))⟩, ?_, rfl, fun _ _ => rfl⟩
      have hg2 : g.shape.length = x.shape.length := by rw [hg, hlen]
      simp only [transposeB]
      rw [transpose_of (x := g) (hg2 ▸ hb) (hg2 ▸ ha), hg]
      rw [sw_sw x.shape hal hbl hs]
    · intro j hj
      have hjl : j.length = x.shape.length := by rw [hj.length, hlen]
      constructor
      · have := sw_valid (s := y0.shape) (l := j) (a := b) (b := a) (by omega) (by omega) hj
        rw [sw_sw x.shape hal hbl hs] at this
        convert this using 1
        refine ext_getD0 (by simp) fun k _ => ?_
        rw [getD_sw j (by omega) (by omega), getD_sw j (by omega) (by omega)]
        split <;> split <;> simp_all
      · exact sw_sw j (by omega) (by omega) rfl
    · intro i hi
      have hil := hi.length
      constructor
      · rw [hs]
        have := sw_valid hal hbl hi
        convert this using 1
        refine ext_getD0 (by simp) fun k _ => ?_
        rw [getD_sw i (by omega) (by omega), getD_sw i (by omega) (by omega)]
        split <;> split <;> simp_all
      · exact sw_sw i (a := b) (b := a) (by omega) (by omega) rfl

/-- A concrete case of what goes forward and back. -/
example : ((transposeF 0 (-1) (⟨[2, 3], fun i => (10 * i.getD 0 0 + i.getD 1 0 : ℤ)⟩ : NdTensor ℤ)).map fun r => (r.1.shape, ([[0, 0], [0, 1], [1, 0], [1, 1], [2, 0], [2, 1]] : List (List ℕ)).map r.1.data)) = some ([3, 2], [0, 10, 1, 11, 2, 12])
    ∧ ((transposeB (0, -1) (⟨[3, 2], fun i => (10 * i.getD 0 0 + i.getD 1 0 : ℤ)⟩ : NdTensor ℤ)).map fun r => (r.shape, ([[0, 0], [0, 1], [0, 2], [1, 0], [1, 1], [1, 2]] : List (List ℕ)).map r.data)) = some ([2, 3], [0, 10, 20, 1, 11, 21]) := by
  decide +kernel

theorem C62_t : IsGradient (tF (R := R)) tB := by
  intro x y c g hf hg
  unfold tF NdTensor.t at hf
  split at hf
  · rename_i hl
    simp only [Option.map_some, Option.some.injEq, Prod.mk.injEq] at hf
    obtain ⟨rfl, _⟩ := hf
    refine ⟨g, by simp [tB, NdTensor.t, hg, hl], hg, fun x' hx' => ⟨x', (), by simp [tF, NdTensor.t, hx', hl], hx', rfl⟩⟩
  · rename_i hl
    split at hf
    · rename_i hl2
      have hf' : transposeF 0 1 x = some (y, (0, 1)) := by
        unfold transposeF
        cases ht : x.transpose 0 1 with
        | none => simp [ht] at hf
        | some z => simp [ht] at hf ⊢; exact hf
      obtain ⟨gx, h1, h2, h3⟩ := C62_transpose 0 1 x y (0, 1) g hf' hg
      have hyl : y.shape.length = 2 := by
        cases ht : x.transpose 0 1 with
        | none => simp [ht] at hf
        | some z =>
          simp only [ht, Option.map_some, Option.some.injEq, Prod.mk.injEq] at hf
          obtain ⟨a, b, _, _, hs, _⟩ := transpose_some ht
          rw [← hf.1, hs]; simpa using hl2
      refine ⟨gx, ?_, h2, fun x' hx' => ?_⟩
      · unfold transposeB at h1
        obtain ⟨a, b, ha, hb, hs, hd⟩ := transpose_some h1
        have e0 : normDim g.shape.length 1 = some 1 := by rw [hg, hyl]; rfl
        have e1 : normDim g.shape.length 0 = some 0 := by rw [hg, hyl]; rfl
        have hgl : g.shape.length = 2 := by rw [hg, hyl]
        unfold tB NdTensor.t
        rw [if_neg (by omega), if_pos hgl, transpose_of e1 e0]
        simp only at ha hb
        rw [e0] at ha; rw [e1] at hb
        obtain rfl := Option.some.inj ha
        obtain rfl := Option.some.inj hb
        have hsw : ∀ l : List ℕ, (l.set 0 (l.getD 1 0)).set 1 (l.getD 0 0) = (l.set 1 (l.getD 0 0)).set 0 (l.getD 1 0) := fun l => List.set_comm _ _ (by decide)
        rw [Option.some.injEq]
        cases gx
        simp only at hs hd
        subst hs hd
        simp only [hsw]
      · obtain ⟨y', c', h4, h5, h6⟩ := h3 x' hx'
        refine ⟨y', (), ?_, h5, h6⟩
        unfold tF NdTensor.t
        rw [if_neg (by rw [hx']; omega), if_pos (by rw [hx']; omega)]
        unfold transposeF at h4
        cases ht : x'.transpose 0 1 with
        | none => simp [ht] at h4
        | some z => simp [ht] at h4 ⊢; exact h4.1
    · simp at hf

/-- A concrete case of what goes forward and back. -/
example : ((tF (⟨[2, 3], fun i => (10 * i.getD 0 0 + i.getD 1 0 : ℤ)⟩ : NdTensor ℤ)).map fun r => (r.1.shape, ([[0, 0], [0, 1], [1, 0], [1, 1], [2, 0], [2, 1]] : List (List ℕ)).map r.1.data)) = some ([3, 2], [0, 10, 1, 11, 2, 12])
    ∧ ((tB () (⟨[3, 2], fun i => (10 * i.getD 0 0 + i.getD 1 0 : ℤ)⟩ : NdTensor ℤ)).map fun r => (r.shape, ([[0, 0], [0, 1], [0, 2], [1, 0], [1, 1], [1, 2]] : List (List ℕ)).map r.data)) = some ([2, 3], [0, 10, 20, 1, 11, 21]) := by
  decide +kernel

theorem C62_clone : IsGradient (cloneF (R := R)) cloneB := by
  intro x y c g hf hg
  simp only [cloneF, Option.some.injEq, Prod.mk.injEq] at hf
  obtain ⟨rfl, _⟩ := hf
  exact ⟨g, rfl, hg, fun x' hx' => ⟨x', (), rfl, hx', rfl⟩⟩

/-- A concrete case of what goes forward and back. -/
example : ((cloneF (⟨[3], fun i => (i.getD 0 0 : ℤ)⟩ : NdTensor ℤ)).map fun r => (r.1.shape, ([[0], [1], [2]] : List (List ℕ)).map r.1.data)) = some ([3], [0, 1, 2])
    ∧ ((cloneB () (⟨[3], fun i => (i.getD 0 0 : ℤ) + 1⟩ : NdTensor ℤ)).map fun r => (r.shape, ([[0], [1], [2]] : List (List ℕ)).map r.data)) = some ([3], [1, 2, 3]) := by
  decide +kernel

/-! ## view, reshape, flatten -/

theorem inferSize_prod {n : ℕ} {size : List ℤ} {s : List ℕ} (h : inferSize n size = some s) : s.prod = n := by
  unfold inferSize at h
  simp only at h
  split at h
  · simp at h
  · rename_i hneg
    split at h
    · split at h
      · rename_i hp; rw [← Option.some.inj h]; exact hp
      · simp at h
    · split at h
      · rename_i hc
        split at h
        · rename_i hp
          rw [← Option.some.inj h]
          have key : ∀ (l : List ℤ) (q : ℕ), (l.map fun m => if m = -1 then q else m.toNat).prod = q ^ l.count (-1) * ((l.filter (· ≠ -1)).map Int.toNat).prod := by
            intro l q
            induction l with
            | nil => simp
            | cons m l ih =>
              by_cases hm : m = -1
              · subst hm; simp only [List.map_cons, if_true, List.prod_cons, ih, List.count_cons_self, pow_succ]; simp; ring
              · simp only [List.map_cons, hm, if_false, List.prod_cons, ih, List.count_cons_of_ne hm, List.filter_cons, ne_eq, not_false_eq_true, decide_true, if_true]
                ring
          rw [key, hc, pow_one]
          exact Nat.div_mul_cancel (Nat.dvd_of_mod_eq_zero hp.2)
        · simp at h
      · simp at h

theorem inferSize_nat (s : List ℕ) : inferSize s.prod (s.map fun n : ℕ => (n : ℤ)) = some s := by
  have hf : ∀ s : List ℕ, ((s.map fun n : ℕ => (n : ℤ)).filter (· ≠ -1)).map Int.toNat = s := by
    intro s
    induction s with
    | nil => rfl
    | cons n s ih =>
      have h1 : ((n : ℤ) ≠ -1) := by omega
      simp only [List.map_cons, List.filter_cons, ne_eq, h1, not_false_eq_true, decide_true, if_true, Int.toNat_natCast, List.cons.injEq, true_and]
      simpa using ih
  unfold inferSize
  simp only
  rw [if_neg, if_pos, if_pos, hf]
  · rw [hf]
  · rw [List.count_eq_zero]
    simp only [List.mem_map, not_exists, not_and]
    intro n _; omega
  · simp only [List.any_eq_true, List.mem_map, decide_eq_true_eq, not_exists, not_and]
    rintro _ ⟨n, _, rfl⟩; omega

theorem reshape_bij {s s' : List ℕ} (h : s'.prod = s.prod) :
    (∀ j, ValidIdx s' j → ValidIdx s (unflatIdx s (flatIdx s' j)) ∧ unflatIdx s' (flatIdx s (unflatIdx s (flatIdx s' j))) = j) := by
  intro j hj
  have h1 := flat_lt hj
  rw [h] at h1
  refine ⟨unflat_valid h1, ?_⟩
  rw [flat_unflat h1, unflat_flat hj]

/-- Any operation that keeps the entries in row-major order and saves the input size. -/
theorem isGradient_flat {fwd : NdTensor R → Option (NdTensor R × List ℕ)}
    (h : ∀ x y c, fwd x = some (y, c) → c = x.shape ∧ ∃ s, s.prod = x.shape.prod ∧ y.shape = s ∧ ∀ x', x'.shape = x.shape → fwd x' = some (x'.reshapeTo s, x'.shape)) : IsGradient fwd reshapeB := by
  refine isGradient_bij fun x y c hf => ?_
  obtain ⟨rfl, s, hs, hy, h1⟩ := h x y c hf
  refine ⟨fun j => unflatIdx x.shape (flatIdx s j), fun i => unflatIdx s (flatIdx x.shape i), ?_, ?_, ?_, ?_⟩
  · intro x' hx'
    exact ⟨x'.reshapeTo s, by rw [h1 x' hx', hx'], hy.symm, fun j _ => by simp [reshapeTo, hx']⟩
  · intro g hg
    refine ⟨g.reshapeTo x.shape, ?_, rfl, fun i _ => by simp [reshapeTo, hg, hy]⟩
    unfold reshapeB NdTensor.reshape
    rw [hg, hy, hs, inferSize_nat]; rfl
  · rw [hy]; exact reshape_bij hs
  · rw [hy]; exact reshape_bij hs.symm

theorem C62_reshape (size : List ℤ) : IsGradient (reshapeF (R := R) size) reshapeB := by
  refine isGradient_flat fun x y c hf => ?_
  unfold reshapeF NdTensor.reshape at hf
  cases hi : inferSize x.shape.prod size with
  | none => simp [hi] at hf
  | some s =>
    simp only [hi, Option.map_some, Option.some.injEq, Prod.mk.injEq] at hf
    refine ⟨hf.2.symm, s, inferSize_prod hi, by rw [← hf.1]; rfl, fun x' hx' => ?_⟩
    simp [reshapeF, NdTensor.reshape, hx', hi]

/-- A concrete case of what goes forward and back. -/
example : ((reshapeF [3, -1] (⟨[2, 3], fun i => (10 * i.getD 0 0 + i.getD 1 0 : ℤ)⟩ : NdTensor ℤ)).map fun r => (r.1.shape, ([[0, 0], [0, 1], [1, 0], [1, 1], [2, 0], [2, 1]] : List (List ℕ)).map r.1.data)) = some ([3, 2], [0, 1, 2, 10, 11, 12])
    ∧ ((reshapeB [2, 3] (⟨[3, 2], fun i => (10 * i.getD 0 0 + i.getD 1 0 : ℤ)⟩ : NdTensor ℤ)).map fun r => (r.shape, ([[0, 0], [0, 1], [0, 2], [1, 0], [1, 1], [1, 2]] : List (List ℕ)).map r.data)) = some ([2, 3], [0, 1, 10, 11, 20, 21]) := by
  decide +kernel

theorem C62_flatten (startDim endDim : ℤ) : IsGradient (flattenF (R := R) startDim endDim) reshapeB := by
  refine isGradient_flat fun x y c hf => ?_
  unfold flattenF NdTensor.flatten at hf
  split at hf
  · rename_i h0
    split at hf
    · rename_i h1
      simp only [Option.map_some, Option.some.injEq, Prod.mk.injEq] at hf
      refine ⟨hf.2.symm, [1], by simp [h0], by rw [← hf.1]; rfl, fun x' hx' => ?_⟩
      simp [flattenF, NdTensor.flatten, hx', h0, h1]
    · simp at hf
  · rename_i h0
    cases ha : normDim x.shape.length startDim with
    | none => simp [ha] at hf
    | some a =>
      cases hb : normDim x.shape.length endDim with
      | none => simp [ha, hb] at hf
      | some b =>
        simp only [ha, hb, Option.bind_eq_bind, Option.bind_some, Option.pure_def] at hf
        split at hf
        · rename_i hab
          simp only [Option.map_some, Option.some.injEq, Prod.mk.injEq] at hf
          refine ⟨hf.2.symm, x.shape.take a ++ [((x.shape.drop a).take (b + 1 - a)).prod] ++ x.shape.drop (b + 1), ?_, by rw [← hf.1]; rfl, fun x' hx' => ?_⟩
          · have e : x.shape = x.shape.take a ++ ((x.shape.drop a).take (b + 1 - a) ++ x.shape.drop (b + 1)) := by
              conv_lhs => rw [← List.take_append_drop a x.shape, ← List.take_append_drop (b + 1 - a) (x.shape.drop a)]
              rw [List.drop_drop, show a + (b + 1 - a) = b + 1 by omega]
            conv_rhs => rw [e]
            simp [List.prod_append, mul_assoc]
          · simp [flattenF, NdTensor.flatten, hx', h0, ha, hb, hab]
        · simp at hf

/-- A concrete case of what goes forward and back. -/
example : ((flattenF 0 (-1) (⟨[2, 3], fun i => (10 * i.getD 0 0 + i.getD 1 0 : ℤ)⟩ : NdTensor ℤ)).map fun r => (r.1.shape, ([[0], [1], [2], [3], [4], [5]] : List (List ℕ)).map r.1.data)) = some ([6], [0, 1, 2, 10, 11, 12])
    ∧ ((reshapeB [2, 3] (⟨[6], fun i => (i.getD 0 0 : ℤ) + 1⟩ : NdTensor ℤ)).map fun r => (r.shape, ([[0, 0], [0, 1], [0, 2], [1, 0], [1, 1], [1, 2]] : List (List ℕ)).map r.data)) = some ([2, 3], [1, 2, 3, 4, 5, 6]) := by
  decide +kernel

/-! ## permute, flip -/

theorem mapM_forall₂ {α β : Type} {f : α → Option β} {l : List α} {m : List β} : l.mapM f = some m ↔ List.Forall₂ (fun a b => f a = some b) l m := by
  induction l generalizing m with
  | nil => cases m <;> simp
  | cons a l ih =>
    cases hf : f a with
    | none =>
      simp only [List.mapM_cons, hf, Option.bind_eq_bind, Option.bind_none]
      constructor
      · intro h; cases h
      · intro h; cases h with
        | cons h1 _ => simp [hf] at h1
    | some b =>
      simp only [List.mapM_cons, hf, Option.bind_eq_bind, Option.bind_some, Option.pure_def]
      cases hl : l.mapM f with
      | none =>
        simp only [Option.bind_none]
        constructor
        · intro h; cases h
        · intro h; cases h with
          | cons _ h2 => rw [← ih, hl] at h2; simp at h2
      | some bs =>
        simp only [Option.bind_some, Option.some.injEq]
        constructor
        · rintro rfl; exact .cons hf (ih.1 hl)
        · intro h; cases h with
          | cons h1 h2 =>
            rw [hf] at h1
            rw [← ih, hl] at h2
            rw [Option.some.inj h1, Option.some.inj h2]

/-- `ds` lists `0, …, r - 1` in some order. -/
structure IsPerm (r : ℕ) (ds : List ℕ) : Prop where
  len : ds.length = r
  nodup : ds.Nodup
  lt : ∀ d ∈ ds, d < r

theorem IsPerm.mem {r : ℕ} {ds : List ℕ} (h : IsPerm r ds) {a : ℕ} (ha : a < r) : a ∈ ds := by
  have h1 : ds.toFinset ⊆ Finset.range r := fun d hd => Finset.mem_range.2 (h.lt d (by simpa using hd))
  have h2 : ds.toFinset = Finset.range r := Finset.eq_of_subset_of_card_le h1 (by rw [List.toFinset_card_of_nodup h.nodup, h.len, Finset.card_range])
  have h3 : a ∈ ds.toFinset := by rw [h2]; exact Finset.mem_range.2 ha
  simpa using h3

theorem IsPerm.idxOf_lt {r : ℕ} {ds : List ℕ} (h : IsPerm r ds) {a : ℕ} (ha : a < r) : ds.idxOf a < r := by
  rw [← h.len]; exact List.idxOf_lt_length_of_mem (h.mem ha)

theorem IsPerm.getD_idxOf {r : ℕ} {ds : List ℕ} (h : IsPerm r ds) {a : ℕ} (ha : a < r) : ds.getD (ds.idxOf a) 0 = a := by
  rw [List.getD_eq_getElem _ _ (List.idxOf_lt_length_of_mem (h.mem ha))]
  exact List.getElem_idxOf _

theorem IsPerm.idxOf_getD {r : ℕ} {ds : List ℕ} (h : IsPerm r ds) {k : ℕ} (hk : k < r) : ds.idxOf (ds.getD k 0) = k := by
  have hk' : k < ds.length := by rw [h.len]; exact hk
  rw [List.getD_eq_getElem _ _ hk']
  exact h.nodup.idxOf_getElem k hk'

theorem IsPerm.getD_lt {r : ℕ} {ds : List ℕ} (h : IsPerm r ds) {k : ℕ} (hk : k < r) : ds.getD k 0 < r := by
  have hk' : k < ds.length := by rw [h.len]; exact hk
  rw [List.getD_eq_getElem _ _ hk']
  exact h.lt _ (List.getElem_mem _)

/-- The inverse permutation. -/
theorem IsPerm.inv {r : ℕ} {ds : List ℕ} (h : IsPerm r ds) : IsPerm r ((List.range r).map fun x => ds.idxOf x) := by
  refine ⟨by simp, ?_, ?_⟩
  · refine List.Nodup.map_on ?_ List.nodup_range
    intro x hx y hy hxy
    rw [← h.getD_idxOf (List.mem_range.1 hx), ← h.getD_idxOf (List.mem_range.1 hy), hxy]
  · intro d hd
    obtain ⟨x, hx, rfl⟩ := List.mem_map.1 hd
    exact h.idxOf_lt (List.mem_range.1 hx)

theorem getD_map_range (r : ℕ) (f : ℕ → ℕ) {k : ℕ} (hk : k < r) : ((List.range r).map f).getD k 0 = f k := by
  rw [List.getD_eq_getElem _ _ (by simpa using hk)]
  simp

theorem IsPerm.inv_idxOf {r : ℕ} {ds : List ℕ} (h : IsPerm r ds) {a : ℕ} (ha : a < r) : ((List.range r).map fun x => ds.idxOf x).idxOf a = ds.getD a 0 := by
  have h1 := h.inv.idxOf_getD (h.getD_lt ha)
  rw [getD_map_range _ _ (h.getD_lt ha), h.idxOf_getD ha] at h1
  exact h1

theorem permute_some {x y : NdTensor R} {dims : List ℤ} (h : x.permute dims = some y) : ∃ ds, dims.mapM (normDim x.shape.length) = some ds ∧ IsPerm x.shape.length ds
    ∧ y = ⟨ds.map fun d => x.shape.getD d 0, fun idx => x.data ((List.range x.shape.length).map fun a => idx.getD (ds.idxOf a) 0)⟩ := by
  unfold NdTensor.permute at h
  cases hm : dims.mapM (normDim x.shape.length) with
  | none => simp [hm] at h
  | some ds =>
    simp only [hm, Option.bind_eq_bind, Option.bind_some, Option.pure_def] at h
    split at h
    · rename_i hc
      refine ⟨ds, rfl, ⟨hc.1, hc.2, fun d hd => ?_⟩, (Option.some.inj h).symm⟩
      obtain ⟨k, hk, rfl⟩ := List.getElem_of_mem hd
      have := mapM_forall₂.1 hm
      exact normDim_lt ((List.forall₂_iff_get.1 this).2 k (by rw [this.length_eq]; exact hk) hk)
    · simp at h

theorem permute_of {x : NdTensor R} {dims : List ℤ} {ds : List ℕ} (h : dims.mapM (normDim x.shape.length) = some ds) (hp : IsPerm x.shape.length ds) :
    x.permute dims = some ⟨ds.map fun d => x.shape.getD d 0, fun idx => x.data ((List.range x.shape.length).map fun a => idx.getD (ds.idxOf a) 0)⟩ := by
  unfold NdTensor.permute
  simp only [h, Option.bind_eq_bind, Option.bind_some, Option.pure_def]
  rw [if_pos ⟨hp.len, hp.nodup⟩]

theorem mapM_normDim_nat {r : ℕ} {ds : List ℕ} (h : ∀ d ∈ ds, d < r) : (ds.map fun d : ℕ => (d : ℤ)).mapM (normDim r) = some ds := by
  rw [mapM_forall₂, List.forall₂_map_left_iff]
  exact List.forall₂_same.2 fun d hd => normDim_nat (h d hd)

theorem dims_of_nonneg {r : ℕ} {dims : List ℤ} {ds : List ℕ} (h : dims.mapM (normDim r) = some ds) (hd : ∀ d ∈ dims, 0 ≤ d) : dims = ds.map fun d : ℕ => (d : ℤ) := by
  rw [mapM_forall₂] at h
  induction h with
  | nil => rfl
  | cons h1 _ ih =>
    simp only [List.map_cons]
    rw [← ih fun d hd' => hd d (List.mem_cons_of_mem _ hd'), ← normDim_nonneg h1 (hd _ List.mem_cons_self)]

theorem idxOf_cast (ds : List ℕ) (x : ℕ) : (ds.map fun d : ℕ => (d : ℤ)).idxOf (x : ℤ) = ds.idxOf x := by
  induction ds with
  | nil => rfl
  | cons d ds ih =>
    rw [List.map_cons]
    by_cases h : d = x
    · subst h; rw [List.idxOf_cons_self, List.idxOf_cons_self]
    · rw [List.idxOf_cons_ne _ (by exact_mod_cast h), List.idxOf_cons_ne _ h, ih]

/-- Full statement: for all accepted dimensions. Missing: negative dimensions, for which it is false (`C62_permute_negative_wrong`). -/
theorem C62_permute_partial (dims : List ℤ) (hd : ∀ d ∈ dims, 0 ≤ d) : IsGradient (permuteF (R := R) dims) permuteB := by
  refine isGradient_bij fun x y c hf => ?_
  unfold permuteF at hf
  cases ht : x.permute dims with
  | none => simp [ht] at hf
  | some y0 =>
    simp only [ht, Option.map_some, Option.some.injEq, Prod.mk.injEq] at hf
    obtain ⟨rfl, rfl⟩ := hf
    obtain ⟨ds, hm, hp, hy⟩ := permute_some ht
    have hdims := dims_of_nonneg hm hd
    have hys : y0.shape = ds.map fun d => x.shape.getD d 0 := by rw [hy]
    have hyl : y0.shape.length = x.shape.length := by rw [hys]; simp [hp.len]
    generalize hr : x.shape.length = r at *
    have hyg : ∀ k, k < r → y0.shape.getD k 0 = x.shape.getD (ds.getD k 0) 0 := by
      intro k hk
      have hk' : k < ds.length := by rw [hp.len]; exact hk
      rw [hys, List.getD_eq_getElem _ _ (by simpa using hk'), List.getD_eq_getElem ds _ hk']
      simp
    refine ⟨fun j => (List.range r).map fun a => j.getD (ds.idxOf a) 0, fun i => (List.range r).map fun a => i.getD (((List.range r).map fun x => ds.idxOf x).idxOf a) 0, ?_, ?_, ?_, ?_⟩
    · intro x' hx'
      have hx'l : x'.shape.length = r := by rw [hx', hr]
      refine ⟨⟨ds.map fun d => x.shape.getD d 0, fun idx => x'.data ((List.range r).map fun a => idx.getD (ds.idxOf a) 0)⟩, ?_, hys.symm, fun _ _ => rfl⟩
      unfold permuteF
      rw [permute_of (ds := ds) (by rw [hx'l]; exact hm) (by rw [hx'l]; exact hp), hx', hr]; rfl
    · intro g hg
      have hgl : g.shape.length = r := by rw [hg, hyl]
      refine ⟨⟨x.shape, fun idx => g.data ((List.range r).map fun a => idx.getD (((List.range r).map fun x => ds.idxOf x).idxOf a) 0)⟩, ?_, rfl, fun _ _ => rfl⟩
      unfold permuteB
      have hinds : (List.range dims.length).mapM (fun x : ℕ => if (x : ℤ) ∈ dims then some (dims.idxOf (x : ℤ) : ℤ) else none) = some (((List.range r).map fun x => ds.idxOf x).map fun d : ℕ => (d : ℤ)) := by
        have hdl : dims.length = r := by rw [hdims]; simp [hp.len]
        rw [hdl, mapM_forall₂, List.map_map, List.forall₂_map_right_iff]
        refine List.forall₂_same.2 fun x hx => ?_
        have hx' := List.mem_range.1 hx
        rw [if_pos (by rw [hdims]; exact List.mem_map_of_mem (hp.mem hx')), hdims, idxOf_cast]; rfl
      rw [hinds]
      simp only [Option.bind_eq_bind, Option.bind_some]
      rw [permute_of (ds := (List.range r).map fun x => ds.idxOf x) (by rw [hgl]; exact mapM_normDim_nat hp.inv.lt) (by rw [hgl]; exact hp.inv), hgl, hg]
      congr 2
      refine ext_getD0 (by simp [hr]) fun k hk => ?_
      have hk' : k < r := by simpa using hk
      rw [List.map_map, getD_map_range _ _ hk']
      simp only [Function.comp]
      rw [hyg _ (hp.idxOf_lt hk'), hp.getD_idxOf hk']
    · intro j hj
      obtain ⟨h1, h2⟩ := validIdx_iff.1 hj
      constructor
      · refine validIdx_iff.2 ⟨by simp [hr], fun k hk => ?_⟩
        rw [hr] at hk
        rw [getD_map_range _ _ hk]
        have := h2 (ds.idxOf k) (by rw [hyl]; exact hp.idxOf_lt hk)
        rwa [hyg _ (hp.idxOf_lt hk), hp.getD_idxOf hk] at this
      · refine ext_getD0 (by simp [h1, hyl]) fun k hk => ?_
        have hk' : k < r := by simpa using hk
        rw [getD_map_range _ _ hk', hp.inv_idxOf hk', getD_map_range _ _ (hp.getD_lt hk'), hp.idxOf_getD hk']
    · intro i hi
      obtain ⟨h1, h2⟩ := validIdx_iff.1 hi
      constructor
      · refine validIdx_iff.2 ⟨by simp [hyl], fun k hk => ?_⟩
        rw [hyl] at hk
        rw [getD_map_range _ _ hk, hp.inv_idxOf hk, hyg _ hk]
        exact h2 _ (by rw [hr]; exact hp.getD_lt hk)
      · refine ext_getD0 (by simp [h1, hr]) fun k hk => ?_
        have hk' : k < r := by simpa using hk
        rw [getD_map_range _ _ hk', getD_map_range _ _ (hp.idxOf_lt hk'), hp.inv_idxOf (hp.idxOf_lt hk'), hp.getD_idxOf hk']

/-- A concrete case of what goes forward and back. -/
example : ((permuteF [1, 0] (⟨[2, 3], fun i => (10 * i.getD 0 0 + i.getD 1 0 : ℤ)⟩ : NdTensor ℤ)).map fun r => (r.1.shape, ([[0, 0], [0, 1], [1, 0], [1, 1], [2, 0], [2, 1]] : List (List ℕ)).map r.1.data)) = some ([3, 2], [0, 10, 1, 11, 2, 12])
    ∧ ((permuteB [1, 0] (⟨[3, 2], fun i => (10 * i.getD 0 0 + i.getD 1 0 : ℤ)⟩ : NdTensor ℤ)).map fun r => (r.shape, ([[0, 0], [0, 1], [0, 2], [1, 0], [1, 1], [1, 2]] : List (List ℕ)).map r.data)) = some ([2, 3], [0, 10, 20, 1, 11, 21]) := by
  decide +kernel

/-- With a negative dimension the forward pass works, and the backward pass always raises (ValueError: not in list). -/
theorem C62_permute_negative_wrong (dims : List ℤ) (hd : ∃ d ∈ dims, d < 0) (x y : NdTensor R) (c : List ℤ) (hf : permuteF dims x = some (y, c)) (g : NdTensor R) : permuteB c g = none := by
  unfold permuteF at hf
  cases ht : x.permute dims with
  | none => simp [ht] at hf
  | some y0 =>
    simp only [ht, Option.map_some, Option.some.injEq, Prod.mk.injEq] at hf
    obtain ⟨rfl, rfl⟩ := hf
    obtain ⟨ds, hm, hp, _⟩ := permute_some ht
    obtain ⟨d, hdm, hneg⟩ := hd
    obtain ⟨k, hk, rfl⟩ := List.getElem_of_mem hdm
    have hm2 := List.forall₂_iff_get.1 (mapM_forall₂.1 hm)
    have hk2 : k < ds.length := hm2.1 ▸ hk
    have hlen : dims.length = x.shape.length := by rw [hm2.1, hp.len]
    have h1 : normDim x.shape.length dims[k] = some ds[k] := hm2.2 k hk hk2
    unfold permuteB
    cases hmm : (List.range dims.length).mapM (fun x : ℕ => if (x : ℤ) ∈ dims then some (dims.idxOf (x : ℤ) : ℤ) else none) with
    | none => rfl
    | some inds =>
      exfalso
      have h2 := List.forall₂_iff_get.1 (mapM_forall₂.1 hmm)
      have hlt : ds[k] < dims.length := by rw [hlen]; exact normDim_lt h1
      have h3 := h2.2 ds[k] (by simpa using hlt) (by rw [← h2.1]; simpa using hlt)
      simp only [List.get_eq_getElem, List.getElem_range] at h3
      split at h3
      · rename_i hmem
        obtain ⟨k', hk', he⟩ := List.getElem_of_mem hmem
        have h4 : normDim x.shape.length dims[k'] = some ds[k'] := hm2.2 k' hk' (hm2.1 ▸ hk')
        rw [he, normDim_nat (normDim_lt h1)] at h4
        have h5 : k = k' := (List.Nodup.getElem_inj_iff hp.nodup).1 (Option.some.inj h4)
        subst h5
        rw [he] at hneg
        omega
      · simp at h3

/-- `x.permute(-1, 0)` is accepted; its gradient raises. -/
example : ((permuteF [-1, 0] (⟨[2, 3], fun i => (10 * i.getD 0 0 + i.getD 1 0 : ℤ)⟩ : NdTensor ℤ)).map fun r => (r.1.shape, r.2)) = some ([3, 2], [-1, 0])
    ∧ (permuteB [-1, 0] (⟨[3, 2], fun _ => 1⟩ : NdTensor ℤ)).map NdTensor.shape = none := by
  decide +kernel

theorem C62_flip (dims : List ℤ) : IsGradient (flipF (R := R) dims) flipB := by
  refine isGradient_bij fun x y c hf => ?_
  unfold flipF NdTensor.flip at hf
  cases hm : dims.mapM (normDim x.shape.length) with
  | none => simp [hm] at hf
  | some ds =>
    simp only [hm, Option.bind_eq_bind, Option.bind_some, Option.pure_def] at hf
    split at hf
    · rename_i hn
      simp only [Option.map_some, Option.some.injEq, Prod.mk.injEq] at hf
      obtain ⟨rfl, rfl⟩ := hf
      have key : ∀ j, ValidIdx x.shape j → ValidIdx x.shape ((List.range x.shape.length).map fun a => if a ∈ ds then x.shape.getD a 0 - 1 - j.getD a 0 else j.getD a 0)
          ∧ ((List.range x.shape.length).map fun a => if a ∈ ds then x.shape.getD a 0 - 1 - ((List.range x.shape.length).map fun a => if a ∈ ds then x.shape.getD a 0 - 1 - j.getD a 0 else j.getD a 0).getD a 0 else ((List.range x.shape.length).map fun a => if a ∈ ds then x.shape.getD a 0 - 1 - j.getD a 0 else j.getD a 0).getD a 0) = j := by
        intro j hj
        obtain ⟨h1, h2⟩ := validIdx_iff.1 hj
        constructor
        · refine validIdx_iff.2 ⟨by simp, fun k hk => ?_⟩
          rw [getD_map_range _ _ hk]
          have := h2 k hk
          split <;> omega
        · refine ext_getD0 (by simp [h1]) fun k hk => ?_
          have hk' : k < x.shape.length := by simpa using hk
          rw [getD_map_range _ _ hk', getD_map_range _ _ hk']
          have := h2 k hk'
          split <;> omega
      refine ⟨fun j => (List.range x.shape.length).map fun a => if a ∈ ds then x.shape.getD a 0 - 1 - j.getD a 0 else j.getD a 0,
        fun j => (List.range x.shape.length).map fun a => if a ∈ ds then x.shape.getD a 0 - 1 - j.getD a 0 else j.getD a 0, ?_, ?_, key, key⟩
      · intro x' hx'
        refine ⟨⟨x.shape, fun idx => x'.data ((List.range x.shape.length).map fun a => if a ∈ ds then x.shape.getD a 0 - 1 - idx.getD a 0 else idx.getD a 0)⟩, ?_, rfl, fun _ _ => rfl⟩
        simp [flipF, NdTensor.flip, hx', hm, hn]
      · intro g hg
        simp only at hg
        refine ⟨⟨x.shape, fun idx => g.data ((List.range x.shape.length).map fun a => if a ∈ ds then x.shape.getD a 0 - 1 - idx.getD a 0 else idx.getD a 0)⟩, ?_, rfl, fun _ _ => rfl⟩
        simp [flipB, NdTensor.flip, hg, hm, hn]
    · simp at hf

/-- A concrete case of what goes forward and back. -/
example : ((flipF [-1] (⟨[2, 3], fun i => (10 * i.getD 0 0 + i.getD 1 0 : ℤ)⟩ : NdTensor ℤ)).map fun r => (r.1.shape, ([[0, 0], [0, 1], [0, 2], [1, 0], [1, 1], [1, 2]] : List (List ℕ)).map r.1.data)) = some ([2, 3], [2, 1, 0, 12, 11, 10])
    ∧ ((flipB [-1] (⟨[2, 3], fun i => (10 * i.getD 0 0 + i.getD 1 0 : ℤ)⟩ : NdTensor ℤ)).map fun r => (r.shape, ([[0, 0], [0, 1], [0, 2], [1, 0], [1, 1], [1, 2]] : List (List ℕ)).map r.data)) = some ([2, 3], [2, 1, 0, 12, 11, 10]) := by
  decide +kernel

/-! ## squeeze, unsqueeze -/

theorem valid_insert {s i : List ℕ} (h : ValidIdx s i) {d n v : ℕ} (hd : d ≤ s.length) (hv : v < n) : ValidIdx (s.insertIdx d n) (i.insertIdx d v) := by
  induction d generalizing s i with
  | zero => exact List.Forall₂.cons hv h
  | succ d ih =>
    cases h with
    | nil => simp at hd
    | cons h1 h2 =>
      rw [List.insertIdx_succ_cons, List.insertIdx_succ_cons]
      exact .cons h1 (ih h2 (by simpa using hd))

theorem valid_erase {s i : List ℕ} (h : ValidIdx s i) (d : ℕ) : ValidIdx (s.eraseIdx d) (i.eraseIdx d) := by
  induction d generalizing s i with
  | zero =>
    cases h with
    | nil => exact .nil
    | cons h1 h2 => exact h2
  | succ d ih =>
    cases h with
    | nil => exact .nil
    | cons h1 h2 => exact .cons h1 (ih h2)

theorem insert_erase {l : List ℕ} {d : ℕ} (hd : d < l.length) : (l.eraseIdx d).insertIdx d (l.getD d 0) = l := by
  induction d generalizing l with
  | zero => cases l with
    | nil => simp at hd
    | cons a l => simp
  | succ d ih => cases l with
    | nil => simp at hd
    | cons a l =>
      rw [List.eraseIdx_cons_succ, List.insertIdx_succ_cons, List.getD_cons_succ, ih (by simpa using hd)]

theorem insert_erase' {l : List ℕ} {d v : ℕ} (hd : d < l.length) (hv : l.getD d 0 = v) : (l.eraseIdx d).insertIdx d v = l := by
  rw [← hv]; exact insert_erase hd

/-- Index 0 is the only one along a dimension of size 1. -/
theorem valid_one {s j : List ℕ} {d : ℕ} (h : ValidIdx s j) (hd : d < s.length) (h1 : s.getD d 0 = 1) : j.getD d 0 = 0 := by
  have := (validIdx_iff.1 h).2 d hd
  omega

theorem unsqueeze_pair {s : List ℕ} {d : ℕ} (hd : d < s.length) (h1 : s.getD d 0 = 1) :
    (∀ j, ValidIdx s j → ValidIdx (s.eraseIdx d) (j.eraseIdx d) ∧ (j.eraseIdx d).insertIdx d 0 = j)
    ∧ ∀ i, ValidIdx (s.eraseIdx d) i → ValidIdx s (i.insertIdx d 0) ∧ (i.insertIdx d 0).eraseIdx d = i := by
  refine ⟨fun j hj => ⟨valid_erase hj d, insert_erase' (by rw [hj.length]; exact hd) (valid_one hj hd h1)⟩, fun i hi => ⟨?_, List.eraseIdx_insertIdx_self _⟩⟩
  have hl : d ≤ (s.eraseIdx d).length := by rw [List.length_eraseIdx_of_lt hd]; omega
  have := valid_insert hi (n := 1) (v := 0) hl (by omega)
  rwa [insert_erase' hd h1] at this

theorem C62_unsqueeze (dim : ℤ) : IsGradient (unsqueezeF (R := R) dim) unsqueezeB := by
  refine isGradient_bij fun x y c hf => ?_
  unfold unsqueezeF NdTensor.unsqueeze at hf
  cases hn : normDim (x.shape.length + 1) dim with
  | none => simp [hn] at hf
  | some d =>
    simp only [hn, Option.map_some, Option.some.injEq, Prod.mk.injEq] at hf
    obtain ⟨rfl, rfl⟩ := hf
    have hd : d ≤ x.shape.length := by have := normDim_lt hn; omega
    have hl : (x.shape.insertIdx d 1).length = x.shape.length + 1 := List.length_insertIdx_of_le_length hd 1
    have h1 : (x.shape.insertIdx d 1).getD d 0 = 1 := by
      rw [List.getD_eq_getElem _ _ (by omega), List.getElem_insertIdx_self]
    have hse : (x.shape.insertIdx d 1).eraseIdx d = x.shape := List.eraseIdx_insertIdx_self _
    obtain ⟨hp1, hp2⟩ := unsqueeze_pair (s := x.shape.insertIdx d 1) (by omega) h1
    rw [hse] at hp1 hp2
    refine ⟨fun j => j.eraseIdx d, fun i => i.insertIdx d 0, ?_, ?_, hp1, hp2⟩
    · intro x' hx'
      exact ⟨⟨x.shape.insertIdx d 1, fun idx => x'.data (idx.eraseIdx d)⟩, by simp [unsqueezeF, NdTensor.unsqueeze, hx', hn], rfl, fun _ _ => rfl⟩
    · intro g hg
      simp only at hg
      refine ⟨⟨x.shape, fun idx => g.data (idx.insertIdx d 0)⟩, ?_, rfl, fun _ _ => rfl⟩
      unfold unsqueezeB NdTensor.squeeze
      rw [hg, hl, hn, Option.map_some, h1, if_pos rfl, hse]

/-- A concrete case of what goes forward and back. -/
example : ((unsqueezeF (-1) (⟨[3], fun i => (i.getD 0 0 : ℤ)⟩ : NdTensor ℤ)).map fun r => (r.1.shape, ([[0, 0], [1, 0], [2, 0]] : List (List ℕ)).map r.1.data)) = some ([3, 1], [0, 1, 2])
    ∧ ((unsqueezeB (-1) (⟨[3, 1], fun i => (i.getD 0 0 : ℤ) + 1⟩ : NdTensor ℤ)).map fun r => (r.shape, ([[0], [1], [2]] : List (List ℕ)).map r.data)) = some ([3], [1, 2, 3]) := by
  decide +kernel

/-- The dimensions of size 1, counted from `k`. -/
def onesFrom : ℕ → List ℕ → List ℕ
  | _, [] => []
  | k, n :: s => if n = 1 then k :: onesFrom (k + 1) s else onesFrom (k + 1) s

theorem onesFrom_eq (s : List ℕ) : ∀ k, onesFrom k s = ((List.range s.length).filter fun a => s.getD a 0 = 1).map (k + ·) := by
  induction s with
  | nil => intro k; rfl
  | cons n s ih =>
    intro k
    rw [onesFrom, ih (k + 1), List.length_cons, List.range_succ_eq_map, List.filter_cons, List.filter_map]
    have e : ((List.range s.length).filter ((fun a => decide ((n :: s).getD a 0 = 1)) ∘ Nat.succ)) = (List.range s.length).filter fun a => decide (s.getD a 0 = 1) := by
      refine List.filter_congr fun a _ => ?_
      simp
    rw [e]
    have e2 : ∀ l : List ℕ, (l.map Nat.succ).map (k + ·) = l.map (k + 1 + ·) := by
      intro l; rw [List.map_map]; refine List.map_congr_left fun a _ => ?_; simp only [Function.comp]; omega
    by_cases h : n = 1
    · simp only [h, if_true, List.getD_cons_zero, decide_true, List.map_cons, Nat.add_zero, e2]
    · simp only [h, if_false, List.getD_cons_zero, decide_false, Bool.false_eq_true, e2]

/-- Drops the indices of the dimensions of size 1. -/
def compress : List ℕ → List ℕ → List ℕ
  | n :: s, i :: idx => if n = 1 then compress s idx else i :: compress s idx
  | _, _ => []

theorem compress_valid {s i : List ℕ} (h : ValidIdx s i) : ValidIdx (s.filter (· ≠ 1)) (compress s i) ∧ expandIdx s (compress s i) = i := by
  induction h with
  | nil => exact ⟨.nil, rfl⟩
  | @cons n a s i hi _ ih =>
    by_cases hn : n = 1
    · subst hn
      have ha : a = 0 := by omega
      subst ha
      simp only [compress, if_true, List.filter_cons, ne_eq, not_true_eq_false, decide_false, Bool.false_eq_true, if_false]
      exact ⟨by simpa using ih.1, by rw [expandIdx, ih.2]⟩
    · simp only [compress, hn, if_false, List.filter_cons, ne_eq, not_false_eq_true, decide_true, if_true]
      refine ⟨.cons hi ih.1, ?_⟩
      rw [expandIdx, ih.2]
      exact hn

theorem expand_valid {s : List ℕ} : ∀ {j : List ℕ}, ValidIdx (s.filter (· ≠ 1)) j → ValidIdx s (expandIdx s j) ∧ compress s (expandIdx s j) = j := by
  induction s with
  | nil => intro j hj; rw [validIdx_nil.1 hj]; exact ⟨.nil, rfl⟩
  | cons n s ih =>
    intro j hj
    by_cases hn : n = 1
    · subst hn
      simp only [List.filter_cons, ne_eq, not_true_eq_false, decide_false, Bool.false_eq_true, if_false] at hj
      have hi := ih (j := j) (by simpa using hj)
      rw [expandIdx]
      exact ⟨.cons (by omega) hi.1, by rw [compress, if_pos rfl]; exact hi.2⟩
    · simp only [List.filter_cons, ne_eq, hn, not_false_eq_true, decide_true, if_true] at hj
      obtain ⟨a, r, rfl, h1, h2⟩ := validIdx_cons.1 hj
      have hi := ih (j := r) (by simpa using h2)
      rw [expandIdx]
      · exact ⟨.cons h1 hi.1, by rw [compress, if_neg hn, hi.2]⟩
      · exact hn

theorem insertIdx_prefix (p l : List ℕ) (v : ℕ) : (p ++ l).insertIdx p.length v = p ++ (v :: l) := by
  induction p with
  | nil => simp
  | cons a p ih => rw [List.cons_append, List.length_cons, List.insertIdx_succ_cons, ih, List.cons_append]

theorem unsqueeze_loop (s : List ℕ) : ∀ (p : List ℕ) (t : NdTensor R), t.shape = p ++ s.filter (· ≠ 1) →
    ∃ r, ((onesFrom p.length s).map fun k : ℕ => (k : ℤ)).foldlM (fun t d => t.unsqueeze d) t = some r ∧ r.shape = p ++ s
      ∧ ∀ a b, a.length = p.length → b.length = s.length → r.data (a ++ b) = t.data (a ++ compress s b) := by
  induction s with
  | nil =>
    intro p t ht
    refine ⟨t, rfl, by simpa using ht, fun a b _ hb => ?_⟩
    rw [List.length_nil, List.length_eq_zero_iff] at hb
    simp [hb, compress]
  | cons n s ih =>
    intro p t ht
    by_cases hn : n = 1
    · subst hn
      simp only [List.filter_cons, ne_eq, not_true_eq_false, decide_false, Bool.false_eq_true, if_false] at ht
      have hu : t.unsqueeze (p.length : ℤ) = some ⟨t.shape.insertIdx p.length 1, fun idx => t.data (idx.eraseIdx p.length)⟩ := by
        unfold NdTensor.unsqueeze
        rw [normDim_nat (by rw [ht]; simp; omega)]; rfl
      have hins : t.shape.insertIdx p.length 1 = (p ++ [1]) ++ s.filter (· ≠ 1) := by
        rw [ht, List.append_assoc]
        exact insertIdx_prefix p _ 1
      obtain ⟨r, h1, h2, h3⟩ := ih (p ++ [1]) ⟨t.shape.insertIdx p.length 1, fun idx => t.data (idx.eraseIdx p.length)⟩ hins
      refine ⟨r, ?_, by simpa using h2, fun a b ha hb => ?_⟩
      · rw [onesFrom, if_pos rfl, List.map_cons, List.foldlM_cons, hu]
        simpa using h1
      · cases b with
        | nil => simp at hb
        | cons i b =>
          have := h3 (a ++ [i]) b (by simp [ha]) (by simpa using hb)
          rw [List.append_assoc, List.singleton_append] at this
          rw [this, compress, if_pos rfl]
          show t.data (((a ++ [i]) ++ compress s b).eraseIdx p.length) = _
          congr 1
          rw [← ha, List.append_assoc, List.eraseIdx_append_of_length_le (le_refl _)]
          simp
    · simp only [List.filter_cons, ne_eq, hn, not_false_eq_true, decide_true, if_true] at ht
      obtain ⟨r, h1, h2, h3⟩ := ih (p ++ [n]) t (by rw [ht]; simp)
      refine ⟨r, ?_, by simpa using h2, fun a b ha hb => ?_⟩
      · rw [onesFrom, if_neg hn]; simpa using h1
      · cases b with
        | nil => simp at hb
        | cons i b =>
          have := h3 (a ++ [i]) b (by simp [ha]) (by simpa using hb)
          rw [List.append_assoc, List.singleton_append] at this
          rw [this, compress, if_neg hn]
          simp

theorem C62_squeeze (dim : Option ℤ) : IsGradient (squeezeF (R := R) dim) squeezeB := by
  cases dim with
  | none =>
    refine isGradient_bij fun x y c hf => ?_
    simp only [squeezeF, Option.some.injEq, Prod.mk.injEq] at hf
    obtain ⟨rfl, rfl⟩ := hf
    refine ⟨expandIdx x.shape, compress x.shape, ?_, ?_, fun j hj => expand_valid hj, fun i hi => compress_valid hi⟩
    · intro x' hx'
      exact ⟨x'.squeezeAll, by simp [squeezeF, hx'], by simp [squeezeAll, hx'], fun j _ => by simp [squeezeAll, hx']⟩
    · intro g hg
      obtain ⟨r, h1, h2, h3⟩ := unsqueeze_loop x.shape [] g (by simpa [squeezeAll] using hg)
      refine ⟨r, ?_, by simpa using h2, fun i hi => by simpa using h3 [] i rfl hi.length⟩
      unfold squeezeB
      rw [onesFrom_eq] at h1
      simpa using h1
  | some dim =>
    refine isGradient_bij fun x y c hf => ?_
    unfold squeezeF NdTensor.squeeze at hf
    cases hn : normDim x.shape.length dim with
    | none => simp [hn] at hf
    | some d =>
      have hd := normDim_lt hn
      simp only [hn, Option.map_some, Option.bind_eq_bind, Option.bind_some, Option.pure_def, Option.some.injEq, Prod.mk.injEq] at hf
      by_cases h1 : x.shape.getD d 0 = 1
      · rw [if_pos h1, if_pos h1] at hf
        obtain ⟨rfl, rfl⟩ := hf
        obtain ⟨hp1, hp2⟩ := unsqueeze_pair hd h1
        refine ⟨fun j => j.insertIdx d 0, fun i => i.eraseIdx d, ?_, ?_, hp2, hp1⟩
        · intro x' hx'
          refine ⟨⟨x.shape.eraseIdx d, fun idx => x'.data (idx.insertIdx d 0)⟩, ?_, rfl, fun _ _ => rfl⟩
          unfold squeezeF NdTensor.squeeze
          simp only [hx', hn, Option.map_some, Option.bind_eq_bind, Option.bind_some, Option.pure_def, if_pos h1]
        · intro g hg
          simp only at hg
          refine ⟨⟨x.shape, fun idx => g.data (idx.eraseIdx d)⟩, ?_, rfl, fun _ _ => rfl⟩
          have hl : g.shape.length + 1 = x.shape.length := by rw [hg, List.length_eraseIdx_of_lt hd]; omega
          have hu : g.unsqueeze dim = some ⟨x.shape, fun idx => g.data (idx.eraseIdx d)⟩ := by
            unfold NdTensor.unsqueeze
            rw [hl, hn, Option.map_some, hg, insert_erase' hd h1]
          simp [squeezeB, hu]
      · rw [if_neg h1, if_neg h1] at hf
        obtain ⟨rfl, rfl⟩ := hf
        refine ⟨id, id, ?_, ?_, fun j hj => ⟨hj, rfl⟩, fun j hj => ⟨hj, rfl⟩⟩
        · intro x' hx'
          refine ⟨x', ?_, hx', fun _ _ => rfl⟩
          unfold squeezeF NdTensor.squeeze
          simp only [hx', hn, Option.map_some, Option.bind_eq_bind, Option.bind_some, Option.pure_def, if_neg h1]
        · intro g hg
          exact ⟨g, rfl, hg, fun _ _ => rfl⟩

/-- A concrete case of what goes forward and back. -/
example : ((squeezeF none (⟨[1, 3], fun i => (i.getD 1 0 : ℤ)⟩ : NdTensor ℤ)).map fun r => (r.1.shape, ([[0], [1], [2]] : List (List ℕ)).map r.1.data)) = some ([3], [0, 1, 2])
    ∧ ((squeezeB [0] (⟨[3], fun i => (i.getD 0 0 : ℤ) + 1⟩ : NdTensor ℤ)).map fun r => (r.shape, ([[0, 0], [0, 1], [0, 2]] : List (List ℕ)).map r.data)) = some ([1, 3], [1, 2, 3]) := by
  decide +kernel

/-! ## roll -/

theorem roll_idx {s i : List ℕ} (h : ValidIdx s i) (sh : ℤ) {d : ℕ} (hd : d < s.length) :
    ValidIdx s (i.set d (((i.getD d 0 : ℤ) - sh) % (s.getD d 0 : ℤ)).toNat) := by
  obtain ⟨h1, h2⟩ := validIdx_iff.1 h
  refine validIdx_iff.2 ⟨by simp [h1], fun k hk => ?_⟩
  rw [getD_set0]
  split
  · rename_i hc
    have hn := h2 d hd
    rw [hc.1]
    have hpos : (0 : ℤ) < (s.getD d 0 : ℤ) := by omega
    have := Int.emod_lt_of_pos ((i.getD d 0 : ℤ) - sh) hpos
    have := Int.emod_nonneg ((i.getD d 0 : ℤ) - sh) hpos.ne'
    omega
  · exact h2 k hk

theorem roll_inv {s i : List ℕ} (h : ValidIdx s i) (sh : ℤ) {d : ℕ} (hd : d < s.length) {j : List ℕ} (hj : j = i.set d (((i.getD d 0 : ℤ) - sh) % (s.getD d 0 : ℤ)).toNat) :
    j.set d (((j.getD d 0 : ℤ) - -sh) % (s.getD d 0 : ℤ)).toNat = i := by
  obtain ⟨h1, h2⟩ := validIdx_iff.1 h
  have hn := h2 d hd
  have hpos : (0 : ℤ) < (s.getD d 0 : ℤ) := by omega
  have hjd : j.getD d 0 = (((i.getD d 0 : ℤ) - sh) % (s.getD d 0 : ℤ)).toNat := by rw [hj, getD_set0, if_pos ⟨rfl, by omega⟩]
  have hback : (((j.getD d 0 : ℤ) - -sh) % (s.getD d 0 : ℤ)).toNat = i.getD d 0 := by
    rw [hjd, Int.toNat_of_nonneg (Int.emod_nonneg _ hpos.ne'), sub_neg_eq_add, Int.emod_add_emod, sub_add_cancel, Int.emod_eq_of_lt (by omega) (by omega)]
    omega
  rw [hback, hj]
  refine ext_getD0 (by simp) fun k _ => ?_
  simp only [getD_set0, List.length_set]
  by_cases hk : k = d
  · subst hk; simp only [true_and]; split <;> simp_all
  · simp [hk]

theorem rollMany_spec (s : List ℕ) : ∀ (ps : List (ℤ × ℤ)), (∀ q ∈ ps, (normDim s.length q.2).isSome) →
    ∃ φ ψ : List ℕ → List ℕ, (∀ t : NdTensor R, t.shape = s → ∃ r, rollMany ps t = some r ∧ r.shape = s ∧ ∀ j, r.data j = t.data (φ j))
      ∧ (∀ t : NdTensor R, t.shape = s → ∃ r, rollMany ((ps.map fun q => (-q.1, q.2)).reverse) t = some r ∧ r.shape = s ∧ ∀ j, r.data j = t.data (ψ j))
      ∧ (∀ j, ValidIdx s j → ValidIdx s (φ j) ∧ ψ (φ j) = j) ∧ (∀ j, ValidIdx s j → ValidIdx s (ψ j) ∧ φ (ψ j) = j) := by
  have append : ∀ (l : List (ℤ × ℤ)) (q : ℤ × ℤ) (t : NdTensor R), rollMany (l ++ [q]) t = (rollMany l t).bind fun r => rollMany [q] r := by
    intro l
    induction l with
    | nil => intro q t; rfl
    | cons p l ih =>
      intro q t
      obtain ⟨sh, dim⟩ := p
      simp only [List.cons_append, rollMany]
      cases normDim t.shape.length dim with
      | none => rfl
      | some d => simp only [Option.bind_some]; exact ih q _
  intro ps
  induction ps with
  | nil =>
    intro _
    exact ⟨id, id, fun t ht => ⟨t, rfl, ht, fun _ => rfl⟩, fun t ht => ⟨t, rfl, ht, fun _ => rfl⟩, fun j hj => ⟨hj, rfl⟩, fun j hj => ⟨hj, rfl⟩⟩
  | cons p ps ih =>
    intro hq
    obtain ⟨sh, dim⟩ := p
    obtain ⟨φ, ψ, h1, h2, h3, h4⟩ := ih fun q hm => hq q (List.mem_cons_of_mem _ hm)
    obtain ⟨d, hn⟩ := Option.isSome_iff_exists.1 (hq (sh, dim) List.mem_cons_self)
    have hd := normDim_lt hn
    refine ⟨fun j => (φ j).set d ((((φ j).getD d 0 : ℤ) - sh) % (s.getD d 0 : ℤ)).toNat, fun i => ψ (i.set d (((i.getD d 0 : ℤ) - -sh) % (s.getD d 0 : ℤ)).toNat), ?_, ?_, ?_, ?_⟩
    · intro t ht
      obtain ⟨r, hr, hrs, hrd⟩ := h1 (t.roll1 sh d) ht
      refine ⟨r, ?_, hrs, fun j => ?_⟩
      · simp only [rollMany, ht]
        simp only at hn
        rw [hn]; exact hr
      · rw [hrd]; simp [roll1, ht]
    · intro t ht
      obtain ⟨r, hr, hrs, hrd⟩ := h2 t ht
      refine ⟨r.roll1 (-sh) d, ?_, hrs, fun j => ?_⟩
      · rw [List.map_cons, List.reverse_cons, append, hr]
        simp only [Option.bind_some, rollMany, hrs]
        simp only at hn
        rw [hn]; rfl
      · simp only [roll1, hrs]; rw [hrd]
    · intro j hj
      obtain ⟨h5, h6⟩ := h3 j hj
      refine ⟨roll_idx h5 sh hd, ?_⟩
      simp only
      rw [roll_inv h5 sh hd rfl]; exact h6
    · intro i hi
      have h5 := roll_idx hi (-sh) hd
      obtain ⟨h6, h7⟩ := h4 _ h5
      refine ⟨h6, ?_⟩
      simp only
      rw [h7]
      have := roll_inv hi (-sh) hd rfl
      rwa [neg_neg] at this

theorem negShifts_toList (p : PyInts) : (negShifts p).toList = (p.toList.map (-·)).reverse := by cases p <;> simp [negShifts, PyInts.toList]
theorem revDims_toList (p : PyInts) : (revDims p).toList = p.toList.reverse := by cases p <;> simp [revDims, PyInts.toList]

theorem rollMany_isSome (ps : List (ℤ × ℤ)) : ∀ (t : NdTensor R), (rollMany ps t).isSome → ∀ q ∈ ps, (normDim t.shape.length q.2).isSome := by
  induction ps with
  | nil => simp
  | cons p ps ih =>
    intro t h q hq
    obtain ⟨sh, dim⟩ := p
    simp only [rollMany] at h
    cases hn : normDim t.shape.length dim with
    | none => simp [hn] at h
    | some d =>
      simp only [hn, Option.bind_some] at h
      rcases List.mem_cons.1 hq with rfl | hq
      · simp [hn]
      · exact ih (t.roll1 sh d) h q hq

theorem C62_roll (shifts : PyInts) (dims : Option PyInts) : IsGradient (rollF (R := R) shifts dims) rollB := by
  refine isGradient_bij fun x y c hf => ?_
  cases dims with
  | none =>
    unfold rollF NdTensor.roll at hf
    simp only at hf
    cases hs : shifts.toList with
    | nil => simp [hs] at hf
    | cons sh rest =>
      cases rest with
      | cons _ _ => simp [hs] at hf
      | nil =>
        simp only [hs, Option.map_some, Option.some.injEq, Prod.mk.injEq] at hf
        obtain ⟨rfl, rfl⟩ := hf
        have key : ∀ (t : NdTensor R) (sh : ℤ) (j : List ℕ), (((t.reshapeTo [t.shape.prod]).roll1 sh 0).reshapeTo t.shape).data j
            = t.data (unflatIdx t.shape (((flatIdx t.shape j : ℤ) - sh) % (t.shape.prod : ℤ)).toNat) := by
          intro t sh j
          simp [reshapeTo, roll1, flatIdx, unflatIdx]
        have hb : ∀ sh : ℤ, ∀ j, ValidIdx x.shape j → ValidIdx x.shape (unflatIdx x.shape (((flatIdx x.shape j : ℤ) - sh) % (x.shape.prod : ℤ)).toNat)
            ∧ unflatIdx x.shape (((flatIdx x.shape (unflatIdx x.shape (((flatIdx x.shape j : ℤ) - sh) % (x.shape.prod : ℤ)).toNat) : ℤ) - -sh) % (x.shape.prod : ℤ)).toNat = j := by
          intro sh j hj
          have hlt := flat_lt hj
          have hpos : (0 : ℤ) < (x.shape.prod : ℤ) := by omega
          have h1 := Int.emod_lt_of_pos ((flatIdx x.shape j : ℤ) - sh) hpos
          have h2 := Int.emod_nonneg ((flatIdx x.shape j : ℤ) - sh) hpos.ne'
          have h3 : (((flatIdx x.shape j : ℤ) - sh) % (x.shape.prod : ℤ)).toNat < x.shape.prod := by omega
          refine ⟨unflat_valid h3, ?_⟩
          rw [flat_unflat h3, Int.toNat_of_nonneg h2, sub_neg_eq_add, Int.emod_add_emod, sub_add_cancel, Int.emod_eq_of_lt (by omega) (by omega)]
          exact unflat_flat hj
        refine ⟨fun j => unflatIdx x.shape (((flatIdx x.shape j : ℤ) - sh) % (x.shape.prod : ℤ)).toNat, fun j => unflatIdx x.shape (((flatIdx x.shape j : ℤ) - -sh) % (x.shape.prod : ℤ)).toNat,
          ?_, ?_, hb sh, ?_⟩
        · intro x' hx'
          refine ⟨((x'.reshapeTo [x'.shape.prod]).roll1 sh 0).reshapeTo x'.shape, by simp only [rollF, NdTensor.roll, hs, Option.map_some], hx', fun j _ => ?_⟩
          rw [key, hx']
        · intro g hg
          have hg' : g.shape = x.shape := hg
          have hns : (negShifts shifts).toList = [-sh] := by rw [negShifts_toList, hs]; rfl
          refine ⟨((g.reshapeTo [g.shape.prod]).roll1 (-sh) 0).reshapeTo g.shape, by simp only [rollB, NdTensor.roll, Option.map_none, hns], hg', fun j _ => ?_⟩
          rw [key, hg']
        · have := hb (-sh)
          rw [neg_neg] at this
          exact this
  | some ds =>
    have hf' := hf
    unfold rollF NdTensor.roll at hf
    simp only at hf
    split at hf
    · rename_i hc
      cases hr : rollMany (shifts.toList.zip ds.toList) x with
      | none => simp [hr] at hf
      | some y0 =>
        simp only [hr, Option.map_some, Option.some.injEq, Prod.mk.injEq] at hf
        obtain ⟨rfl, rfl⟩ := hf
        obtain ⟨φ, ψ, h1, h2, h3, h4⟩ := rollMany_spec (R := R) x.shape (shifts.toList.zip ds.toList) (rollMany_isSome _ x (by simp [hr]))
        have hys : y0.shape = x.shape := by
          obtain ⟨r, hr2, hrs, _⟩ := h1 x rfl
          rw [hr] at hr2; obtain rfl := Option.some.inj hr2; exact hrs
        rw [hys]
        refine ⟨φ, ψ, ?_, ?_, h3, h4⟩
        · intro x' hx'
          obtain ⟨r, hr2, hrs, hrd⟩ := h1 x' hx'
          refine ⟨r, ?_, hrs, fun j _ => hrd j⟩
          unfold rollF NdTensor.roll
          simp only
          rw [if_pos hc, hr2]; rfl
        · intro g hg
          obtain ⟨r, hr2, hrs, hrd⟩ := h2 g hg
          refine ⟨r, ?_, hrs, fun j _ => hrd j⟩
          unfold rollB NdTensor.roll
          simp only [Option.map_some, negShifts_toList, revDims_toList]
          rw [if_pos (by simpa using hc), ← hr2]
          congr 1
          show List.zipWith Prod.mk _ _ = ((List.zipWith Prod.mk _ _).map _).reverse
          rw [← List.reverse_zipWith (by simpa using hc.1), List.zipWith_map_left, List.map_zipWith]
    · simp at hf

/-- A concrete case of what goes forward and back. -/
example : ((rollF (.one 1) (some (.one 0)) (⟨[3], fun i => (i.getD 0 0 : ℤ)⟩ : NdTensor ℤ)).map fun r => (r.1.shape, ([[0], [1], [2]] : List (List ℕ)).map r.1.data)) = some ([3], [2, 0, 1])
    ∧ ((rollB (.one 1, some (.one 0)) (⟨[3], fun i => (i.getD 0 0 : ℤ) + 1⟩ : NdTensor ℤ)).map fun r => (r.shape, ([[0], [1], [2]] : List (List ℕ)).map r.data)) = some ([3], [2, 3, 1]) := by
  decide +kernel

end ShapeGrad
end CrypTen

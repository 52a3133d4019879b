import Verif.Model.OnnxOps
import Verif.Spec.OnnxOps
import Verif.Props.Onnx3
import Verif.Props.Power

/-!
# C66: further layers imported from ONNX — operations with broadcasting, constants, ranges, conversion, concatenation
-/

namespace CrypTen
namespace Onnx
open NdTensor OnnxSpec
variable {R S T : Type}

/-! ## Broadcasting -/

theorem sizeR_eq (s : List ℕ) (k : ℕ) : sizeR s k = dimR s k := by simp [sizeR, dimR, List.getD_eq_getElem?_getD]

theorem dimR_of_le {s : List ℕ} {k : ℕ} (h : s.length ≤ k) : dimR s k = 1 := by
  rw [dimR, List.getD_eq_default _ _ (by simpa using h)]

theorem dimR_eq {s : List ℕ} {k : ℕ} (h : k < s.length) : dimR s k = s.getD (s.length - 1 - k) 0 := by
  rw [dimR, List.getD_eq_getElem _ _ (by simpa using h), List.getElem_reverse, List.getD_eq_getElem _ _ (by omega)]

theorem shape_ext {s t : List ℕ} (hl : s.length = t.length) (h : ∀ k < s.length, dimR s k = dimR t k) : s = t := by
  refine ext_getD0 hl fun j hj => ?_
  have := h (s.length - 1 - j) (by omega)
  rw [dimR_eq (by omega), dimR_eq (by omega), ← hl, show s.length - 1 - (s.length - 1 - j) = j by omega] at this
  exact this

/-- Shape `a` can be stretched to `s`. -/
def Fits (a s : List ℕ) : Prop := a.length ≤ s.length ∧ ∀ k < s.length, dimR a k = 1 ∨ dimR a k = dimR s k

theorem Fits.dim {a s : List ℕ} (h : Fits a s) (k : ℕ) : dimR a k = 1 ∨ dimR a k = dimR s k := by
  by_cases hk : k < s.length
  · exact h.2 k hk
  · exact .inl (dimR_of_le (by have := h.1; omega))

theorem Fits.trans {a s t : List ℕ} (h : Fits a s) (h' : Fits s t) : Fits a t := by
  refine ⟨h.1.trans h'.1, fun k _ => ?_⟩
  rcases h.dim k with e | e
  · exact .inl e
  · rw [e]; exact h'.dim k

theorem Fits.getD {a s : List ℕ} (h : Fits a s) {j : ℕ} (hj : j < a.length) : a.getD j 0 = 1 ∨ a.getD j 0 = s.getD (s.length - a.length + j) 0 := by
  have hl := h.1
  have := h.dim (a.length - 1 - j)
  rw [dimR_eq (by omega), dimR_eq (by omega), show a.length - 1 - (a.length - 1 - j) = j by omega,
    show s.length - 1 - (a.length - 1 - j) = s.length - a.length + j by omega] at this
  exact this

theorem expand_of_fits {t : NdTensor R} {s : List ℕ} (h : Fits t.shape s) : t.expand s = some (t.broadcast s) := by
  have hc : t.shape.length ≤ s.length ∧ (t.shape.zip (s.drop (s.length - t.shape.length))).all (fun q => q.1 = q.2 ∨ q.1 = 1) = true := by
    refine ⟨h.1, List.all_eq_true.2 fun q hq => ?_⟩
    obtain ⟨j, hj, rfl⟩ := List.mem_iff_getElem.1 hq
    simp only [List.length_zip, List.length_drop] at hj
    simp only [List.getElem_zip, List.getElem_drop, decide_eq_true_eq]
    have := h.getD (j := j) (by omega)
    have hl := h.1
    rw [List.getD_eq_getElem _ _ (by omega), List.getD_eq_getElem _ _ (by omega)] at this
    exact this.symm
  rw [NdTensor.expand, if_pos hc]
  rfl

theorem broadcast_broadcast {t : NdTensor R} {s u : List ℕ} (h : Fits t.shape s) (h' : Fits s u) {idx : List ℕ} (hi : idx.length = u.length) :
    ((t.broadcast s).broadcast u).data idx = (t.broadcast u).data idx := by
  show t.data _ = t.data _
  congr 1
  have h1 := h.1
  have h2 := h'.1
  refine ext_getD0 ?_ fun j hj => ?_
  · simp [stretchIdx, hi, NdTensor.broadcast]; omega
  · have hj' : j < t.shape.length := by simp [stretchIdx] at hj; omega
    have hs := h.getD hj'
    simp only [stretchIdx, NdTensor.broadcast, hi]
    rw [List.getD_eq_getElem _ _ (by simp; omega), List.getD_eq_getElem _ _ (by simp; omega)]
    simp only [List.getElem_zipWith, List.getElem_drop]
    rw [List.getD_eq_getElem _ _ hj', List.getD_eq_getElem _ _ (by omega)] at hs
    by_cases h1 : t.shape[j] = 1
    · rw [if_pos h1, if_pos h1]
    · rw [if_neg h1, if_neg h1]
      have : s[s.length - t.shape.length + j] = t.shape[j] := by tauto
      rw [if_neg (by rw [this]; exact h1)]
      congr 1
      omega

theorem broadcast_self {t : NdTensor R} {idx : List ℕ} (hi : ValidIdx t.shape idx) : (t.broadcast t.shape).data idx = t.data idx := by
  show t.data _ = t.data _
  congr 1
  rw [Nat.sub_self, List.drop_zero]
  have hl : t.shape.length = idx.length := List.Forall₂.length_eq hi
  refine ext_getD0 (by simp [stretchIdx, hl]) fun j hj => ?_
  have hj' : j < idx.length := by simp [stretchIdx] at hj; omega
  rw [List.getD_eq_getElem _ _ hj, List.getD_eq_getElem _ _ hj']
  simp only [stretchIdx, List.getElem_zipWith]
  split
  · rename_i h1
    have := List.Forall₂.get hi (by omega : j < t.shape.length) hj'
    simp only [List.get_eq_getElem] at this
    omega
  · rfl

theorem Fits.refl (s : List ℕ) : Fits s s := ⟨le_refl _, fun _ _ => .inr rfl⟩

theorem commonShape_some {a b s : List ℕ} : commonShape a b = some s ↔ IsCommonShape [a, b] s := by
  unfold commonShape IsCommonShape
  simp only [sizeR_eq, List.mem_cons, List.not_mem_nil, or_false, forall_eq_or_imp, forall_eq, exists_eq_or_imp, exists_eq_left]
  constructor
  · intro h
    split at h
    · rename_i hc
      obtain rfl := Option.some.inj h
      have hd : ∀ k < max a.length b.length, dimR (((List.range (max a.length b.length)).map fun k => if dimR a k = 1 then dimR b k else dimR a k).reverse) k
          = if dimR a k = 1 then dimR b k else dimR a k := fun k hk => by
        rw [dimR, List.reverse_reverse, List.getD_eq_getElem _ _ (by simpa using hk)]
        simp
      simp only [List.length_reverse, List.length_map, List.length_range]
      refine ⟨⟨le_max_left _ _, le_max_right _ _⟩, by omega, fun k hk => ?_⟩
      rw [hd k hk]
      have := hc k hk
      by_cases h1 : dimR a k = 1
      · rw [if_pos h1]; tauto
      · rw [if_neg h1]; refine ⟨⟨.inr rfl, ?_⟩, .inl rfl⟩
        rcases this with e | e | e
        · exact .inr e.symm
        · exact absurd e h1
        · exact .inl e
    · cases h
  · rintro ⟨⟨h1, h2⟩, h3, h4⟩
    have hl : max a.length b.length = s.length := by omega
    rw [if_pos]
    · congr 1
      refine shape_ext (by simp [hl]) fun k hk => ?_
      have hk' : k < s.length := by simp [hl] at hk; omega
      rw [dimR, List.reverse_reverse, List.getD_eq_getElem _ _ (by simpa using hk)]
      simp only [List.getElem_map, List.getElem_range]
      obtain ⟨⟨e1, e2⟩, e3⟩ := h4 k hk'
      split <;> omega
    · intro k hk
      obtain ⟨⟨e1, e2⟩, e3⟩ := h4 k (by omega)
      omega

theorem commonShape_fits {a b s : List ℕ} (h : IsCommonShape [a, b] s) : Fits a s ∧ Fits b s := by
  obtain ⟨h1, -, h3⟩ := h
  exact ⟨⟨h1 a (by simp), fun k hk => (h3 k hk).1 a (by simp)⟩, ⟨h1 b (by simp), fun k hk => (h3 k hk).1 b (by simp)⟩⟩

/-- Two shapes that can be stretched to the same shape have a common shape, which can be stretched to it. -/
theorem commonShape_of_fits {a b u : List ℕ} (ha : Fits a u) (hb : Fits b u) : ∃ s, IsCommonShape [a, b] s ∧ Fits s u := by
  have hc : ∀ k < max a.length b.length, sizeR a k = sizeR b k ∨ sizeR a k = 1 ∨ sizeR b k = 1 := fun k _ => by
    rw [sizeR_eq, sizeR_eq]
    rcases ha.dim k with e | e <;> rcases hb.dim k with e' | e' <;> omega
  obtain ⟨s, hs⟩ : ∃ s, commonShape a b = some s := ⟨_, by unfold commonShape; exact if_pos hc⟩
  have hs' := commonShape_some.1 hs
  refine ⟨s, hs', ?_, fun k hk => ?_⟩
  · obtain ⟨-, ⟨c, hc, e⟩, -⟩ := hs'
    simp at hc
    rcases hc with rfl | rfl
    · exact e ▸ ha.1
    · exact e ▸ hb.1
  · by_cases hks : k < s.length
    · obtain ⟨c, hc, e⟩ := (hs'.2.2 k hks).2
      simp at hc
      rw [← e]
      rcases hc with rfl | rfl
      · exact ha.dim k
      · exact hb.dim k
    · exact .inl (dimR_of_le (by omega))

/-- The operation after both tensors are broadcast to shape `s`. -/
def zres (f : R → S → T) (x : NdTensor R) (y : NdTensor S) (s : List ℕ) : NdTensor T := ⟨s, fun idx => f ((x.broadcast s).data idx) ((y.broadcast s).data idx)⟩

theorem zip_some (f : R → S → T) (x : NdTensor R) (y : NdTensor S) {s : List ℕ} (h : IsCommonShape [x.shape, y.shape] s) :
    zip f x y = some (zres f x y s) := by
  obtain ⟨h1, h2⟩ := commonShape_fits h
  rw [zip, commonShape_some.2 h, Option.bind_some, expand_of_fits h1, Option.bind_some, expand_of_fits h2]
  rfl

theorem zip_spec (f : R → S → T) (x : NdTensor R) (y : NdTensor S) :
    (∀ z, zip f x y = some z → IsZip f x y z) ∧ ((∃ z, IsZip f x y z) → ∃ z, zip f x y = some z) := by
  constructor
  · intro z hz
    cases hs : commonShape x.shape y.shape with
    | none => simp [zip, hs] at hz
    | some s =>
      have h := commonShape_some.1 hs
      rw [zip_some f x y h] at hz
      obtain rfl := Option.some.inj hz
      exact ⟨h, fun _ _ => rfl⟩
  · rintro ⟨z, hz, -⟩
    exact ⟨_, zip_some f x y hz⟩

theorem zipT_some (f : ℚ → ℚ → ℚ) (x y : Tensor) {s : List ℕ} (h : IsCommonShape [x.val.shape, y.val.shape] s) :
    zipT f x y = some ⟨x.encrypted || y.encrypted, zres f x.val y.val s⟩ := by rw [zipT, zip_some f _ _ h]; rfl

theorem zipT_inv {f : ℚ → ℚ → ℚ} {x y z : Tensor} (h : zipT f x y = some z) : IsCommonShape [x.val.shape, y.val.shape] z.val.shape := by
  obtain ⟨w, hw, rfl⟩ := Option.map_eq_some_iff.1 h
  exact ((zip_spec f _ _).1 w hw).1

/-- C66 (`Add`, `Sub`, `Mul`, `Div` and every other operation entry by entry): for all shapes and entries the layer returns a result exactly if ONNX prescribes one, and then that one, encrypted if one of the inputs is. Exact arithmetic. -/
theorem C66_arith (f : ℚ → ℚ → ℚ) (x y : Tensor) :
    (∀ z, arith f (pack [x, y]) = some z → z.encrypted = (x.encrypted || y.encrypted) ∧ IsZip f x.val y.val z.val)
    ∧ ((∃ z, IsZip f x.val y.val z) → ∃ z, arith f (pack [x, y]) = some z) := by
  show (∀ z, zipT f x y = some z → _) ∧ (_ → ∃ z, zipT f x y = some z)
  constructor
  · intro z hz
    obtain ⟨w, hw, rfl⟩ := Option.map_eq_some_iff.1 hz
    exact ⟨rfl, (zip_spec f _ _).1 w hw⟩
  · intro h
    obtain ⟨w, hw⟩ := (zip_spec f _ _).2 h
    exact ⟨_, by rw [zipT, hw]; rfl⟩

/-- A column minus a row. -/
example : ∃ z, arith (· - ·) (pack [⟨true, ⟨[2, 1], fun i => i.getD 0 0⟩⟩, ⟨false, ⟨[3], fun i => 10 * i.getD 0 0⟩⟩]) = some z ∧ z.encrypted = true ∧ z.val.shape = [2, 3]
    ∧ z.val.data [1, 2] = -19 := by
  refine ⟨_, rfl, rfl, rfl, ?_⟩
  show ((1 : ℕ) : ℚ) - 10 * ((2 : ℕ) : ℚ) = -19
  norm_num

/-! ## Equal, Where, Pow, Cast -/

theorem isCommonShape_self (s : List ℕ) : IsCommonShape [s, s] s := by
  refine ⟨by simp, ⟨s, by simp⟩, fun k _ => ⟨by simp, s, by simp⟩⟩

/-- C66 (`Equal`): for tensors of the same shape the layer returns 1 where the entries agree and 0 elsewhere. Missing: tensors of different shapes (see `C66_equal_wrong`). -/
theorem C66_equal_partial (x y : Tensor) (h : x.val.shape = y.val.shape) :
    ∃ z, equal (pack [x, y]) = some (.tensor z) ∧ z.encrypted = (x.encrypted || y.encrypted) ∧ IsZip (fun a b : ℚ => if a = b then (1 : ℚ) else 0) x.val y.val z.val := by
  have hs : IsCommonShape [x.val.shape, y.val.shape] x.val.shape := by rw [← h]; exact isCommonShape_self _
  refine ⟨⟨x.encrypted || y.encrypted, zres eqEntry x.val y.val x.val.shape⟩, ?_, rfl, hs, fun idx _ => rfl⟩
  show (if x.val.shape ≠ y.val.shape then some EqualResult.pyFalse else (zipT eqEntry x y).map .tensor) = _
  rw [if_neg (by simpa using h), zipT, zip_some eqEntry _ _ hs]
  rfl

/-- The code violates the property: for tensors of different shapes the layer returns the Python object `False`, also when ONNX broadcasts them; a matrix of ones and a row of ones are equal everywhere. -/
theorem C66_equal_wrong (x y : Tensor) (h : x.val.shape ≠ y.val.shape) : equal (pack [x, y]) = some .pyFalse := if_pos h

example : ∃ z, IsZip (fun a b : ℚ => if a = b then (1 : ℚ) else 0) (⟨[2, 3], fun _ => 1⟩ : NdTensor ℚ) (⟨[3], fun _ => 1⟩ : NdTensor ℚ) z ∧ z.shape = [2, 3] ∧ ∀ idx, z.data idx = 1 := by
  refine ⟨⟨[2, 3], fun _ => 1⟩, ⟨commonShape_some.1 rfl, fun idx _ => ?_⟩, rfl, fun _ => rfl⟩
  exact (if_pos rfl).symm

theorem commonShape_three {c x y s1 s2 s : List ℕ} (h1 : IsCommonShape [c, x] s1) (h2 : IsCommonShape [c, y] s2) (h : IsCommonShape [s1, s2] s) : IsCommonShape [c, x, y] s := by
  obtain ⟨f1, f2⟩ := commonShape_fits h
  obtain ⟨g1, g2⟩ := commonShape_fits h1
  obtain ⟨g3, g4⟩ := commonShape_fits h2
  refine ⟨?_, ?_, fun k hk => ⟨?_, ?_⟩⟩
  · simp; exact ⟨(g1.trans f1).1, (g2.trans f1).1, (g4.trans f2).1⟩
  · obtain ⟨a, ha, e⟩ := h.2.1
    simp at ha
    rcases ha with rfl | rfl
    · obtain ⟨b, hb, e'⟩ := h1.2.1
      exact ⟨b, by simp at hb ⊢; tauto, e'.trans e⟩
    · obtain ⟨b, hb, e'⟩ := h2.2.1
      exact ⟨b, by simp at hb ⊢; tauto, e'.trans e⟩
  · simp; exact ⟨(g1.trans f1).dim k, (g2.trans f1).dim k, (g4.trans f2).dim k⟩
  · obtain ⟨a, ha, e⟩ := (h.2.2 k hk).2
    simp at ha
    have key : ∀ (p q r : List ℕ), IsCommonShape [p, q] r → ∃ b ∈ [p, q], dimR b k = dimR r k := fun p q r hr => by
      by_cases hkr : k < r.length
      · exact (hr.2.2 k hkr).2
      · refine ⟨p, by simp, ?_⟩
        have := (commonShape_fits hr).1.1
        rw [dimR_of_le (by omega), dimR_of_le (by omega)]
    rcases ha with rfl | rfl
    · obtain ⟨b, hb, e'⟩ := key _ _ _ h1
      exact ⟨b, by simp at hb ⊢; tauto, e'.trans e⟩
    · obtain ⟨b, hb, e'⟩ := key _ _ _ h2
      exact ⟨b, by simp at hb ⊢; tauto, e'.trans e⟩

theorem broadcast_map (f : R → S) (x : NdTensor R) (s : List ℕ) (idx : List ℕ) : ((mapEntries f x).broadcast s).data idx = f ((x.broadcast s).data idx) := rfl

theorem isCommonShape_swap {a b s : List ℕ} (h : IsCommonShape [a, b] s) : IsCommonShape [b, a] s := by
  obtain ⟨h1, ⟨c, hc, e⟩, h3⟩ := h
  refine ⟨fun d hd => h1 d (by simp at hd ⊢; tauto), ⟨c, by simp at hc ⊢; tauto, e⟩, fun k hk => ?_⟩
  obtain ⟨e1, d, hd, e2⟩ := h3 k hk
  exact ⟨fun d hd => e1 d (by simp at hd ⊢; tauto), d, by simp at hd ⊢; tauto, e2⟩

/-- C66 (`Where`): for every condition of zeros and ones, plain or encrypted, and all inputs, the layer returns a result exactly if the three shapes can be broadcast, and then every entry comes from the first or the second input as the condition says. -/
theorem C66_where (c x y : Tensor) (hb : IsBoolean c.val) :
    (∀ z, whereLayer (.tensor c) [x, y] = some z → z.encrypted = (c.encrypted || x.encrypted || y.encrypted) ∧ IsWhere c.val x.val y.val z.val)
    ∧ ((∃ z, IsWhere c.val x.val y.val z) → ∃ z, whereLayer (.tensor c) [x, y] = some z) := by
  have main : ∀ s1 s2 s, IsCommonShape [c.val.shape, x.val.shape] s1 → IsCommonShape [c.val.shape, y.val.shape] s2 → IsCommonShape [s1, s2] s →
      ∃ z, whereLayer (.tensor c) [x, y] = some z ∧ z.encrypted = (c.encrypted || x.encrypted || y.encrypted) ∧ IsWhere c.val x.val y.val z.val := by
    intro s1 s2 s h1 h2 h
    obtain ⟨f1, f2⟩ := commonShape_fits h
    obtain ⟨g1, g2⟩ := commonShape_fits h1
    obtain ⟨g3, g4⟩ := commonShape_fits h2
    have hval : ∀ idx, ValidIdx s idx → ∀ (u v : NdTensor ℚ), u.shape = s1 → v.shape = s2 →
        (∀ i, u.data i = (c.val.broadcast s1).data i * (x.val.broadcast s1).data i) → (∀ i, v.data i = (1 - (c.val.broadcast s2).data i) * (y.val.broadcast s2).data i) →
        (u.broadcast s).data idx + (v.broadcast s).data idx
          = if (c.val.broadcast s).data idx ≠ 0 then (x.val.broadcast s).data idx else (y.val.broadcast s).data idx := by
      intro idx hi u v hu hv hu' hv'
      have hl := hi.length
      have e1 : (u.broadcast s).data idx = ((c.val.broadcast s1).broadcast s).data idx * ((x.val.broadcast s1).broadcast s).data idx := by
        show u.data _ = _
        rw [hu', hu]; rfl
      have e2 : (v.broadcast s).data idx = (1 - ((c.val.broadcast s2).broadcast s).data idx) * ((y.val.broadcast s2).broadcast s).data idx := by
        show v.data _ = _
        rw [hv', hv]; rfl
      rw [e1, e2, broadcast_broadcast g1 f1 hl, broadcast_broadcast g2 f1 hl, broadcast_broadcast g3 f2 hl, broadcast_broadcast g4 f2 hl]
      have : (c.val.broadcast s).data idx = 0 ∨ (c.val.broadcast s).data idx = 1 := hb _
      rcases this with e | e <;> rw [e] <;> simp
    unfold whereLayer whereCond
    by_cases hc : c.encrypted = true
    · simp only [hc, ↓reduceIte]
      rw [zipT_some _ c x h1, Option.bind_some, zipT_some (s := s2) _ ⟨true, mapEntries (1 - ·) c.val⟩ y h2, Option.bind_some, zipT_some (s := s) _ _ _ h]
      exact ⟨_, rfl, by simp, commonShape_three h1 h2 h, fun idx hi => hval idx hi _ _ rfl rfl (fun _ => rfl) (fun _ => rfl)⟩
    · simp only [hc, Bool.false_eq_true, ↓reduceIte]
      rw [zipT_some _ x c (isCommonShape_swap h1), Option.bind_some, zipT_some (s := s2) _ y ⟨false, mapEntries (1 - ·) c.val⟩ (isCommonShape_swap h2), Option.bind_some, zipT_some (s := s) _ _ _ h]
      exact ⟨_, rfl, by simp [hc], commonShape_three h1 h2 h, fun idx hi => hval idx hi _ _ rfl rfl (fun _ => mul_comm _ _) (fun _ => mul_comm _ _)⟩
  constructor
  · intro z hz
    have hz' := hz
    unfold whereLayer whereCond at hz'
    obtain ⟨s1, s2, h1, h2, h⟩ : ∃ s1 s2, IsCommonShape [c.val.shape, x.val.shape] s1 ∧ IsCommonShape [c.val.shape, y.val.shape] s2 ∧ IsCommonShape [s1, s2] z.val.shape := by
      by_cases hc : c.encrypted = true
      · simp only [hc, ↓reduceIte, Option.bind_eq_some_iff] at hz'
        obtain ⟨a, ha, b, hb', hz'⟩ := hz'
        have h2 := zipT_inv hb'
        exact ⟨_, _, zipT_inv ha, h2, zipT_inv hz'⟩
      · simp only [hc, Bool.false_eq_true, ↓reduceIte, Option.bind_eq_some_iff] at hz'
        obtain ⟨a, ha, b, hb', hz'⟩ := hz'
        have h2 := isCommonShape_swap (zipT_inv hb')
        exact ⟨_, _, isCommonShape_swap (zipT_inv ha), h2, zipT_inv hz'⟩
    obtain ⟨w, hw, h'⟩ := main _ _ _ h1 h2 h
    rw [hz] at hw
    obtain rfl := Option.some.inj hw
    exact h'
  · rintro ⟨z, hz, -⟩
    have hf : ∀ a ∈ [c.val.shape, x.val.shape, y.val.shape], Fits a z.shape := fun a ha => ⟨hz.1 a ha, fun k hk => (hz.2.2 k hk).1 a ha⟩
    obtain ⟨s1, h1, f1⟩ := commonShape_of_fits (hf c.val.shape (by simp)) (hf x.val.shape (by simp))
    obtain ⟨s2, h2, f2⟩ := commonShape_of_fits (hf c.val.shape (by simp)) (hf y.val.shape (by simp))
    obtain ⟨s, h, -⟩ := commonShape_of_fits f1 f2
    obtain ⟨w, hw, -⟩ := main s1 s2 s h1 h2 h
    exact ⟨w, hw⟩

/-- An encrypted row as condition for two columns. -/
example : ∃ z, whereLayer (.tensor ⟨true, ⟨[2], fun i => if i.getD 0 0 = 0 then 1 else 0⟩⟩) [⟨false, ⟨[2, 1], fun i => i.getD 0 0⟩⟩, ⟨true, ⟨[2, 1], fun i => 10 + i.getD 0 0⟩⟩] = some z
    ∧ z.val.shape = [2, 2] ∧ z.val.data [1, 0] = 1 ∧ z.val.data [1, 1] = 11 := by
  refine ⟨_, rfl, rfl, ?_, ?_⟩
  · show (1 : ℚ) * ((1 : ℕ) : ℚ) + (1 - 1) * (10 + ((1 : ℕ) : ℚ)) = 1
    norm_num
  · show (0 : ℚ) * ((1 : ℕ) : ℚ) + (1 - 0) * (10 + ((1 : ℕ) : ℚ)) = 11
    norm_num

/-- The code violates the property: the condition "a matrix of ones equals a row of ones" selects the first input everywhere; with the object `False` that `Equal` returns, the layer selects the second. -/
theorem C66_where_equal_wrong (x y : NdTensor ℚ) (hx : x.shape = [2, 3]) (hy : y.shape = [2, 3]) :
    ∃ z c, equal (pack [⟨true, ⟨[2, 3], fun _ => 1⟩⟩, ⟨true, ⟨[3], fun _ => 1⟩⟩]) = some .pyFalse ∧ whereLayer .pyFalse [⟨true, x⟩, ⟨true, y⟩] = some z ∧ Same z.val y
      ∧ IsZip (fun a b : ℚ => if a = b then (1 : ℚ) else 0) (⟨[2, 3], fun _ => 1⟩ : NdTensor ℚ) (⟨[3], fun _ => 1⟩ : NdTensor ℚ) c ∧ IsWhere c x y x := by
  have hs : IsCommonShape [x.shape, y.shape] [2, 3] := by rw [hx, hy]; exact isCommonShape_self _
  refine ⟨_, ⟨[2, 3], fun _ => 1⟩, C66_equal_wrong _ _ (by decide), zipT_some (s := [2, 3]) _ ⟨true, mapEntries (· * 0) x⟩ ⟨true, mapEntries (· * (1 - 0)) y⟩ hs, ⟨hy.symm, fun idx hi => ?_⟩, ⟨commonShape_some.1 rfl, fun idx _ => (if_pos rfl).symm⟩, ?_, fun idx hi => ?_⟩
  · show (x.broadcast [2, 3]).data idx * 0 + (y.broadcast [2, 3]).data idx * (1 - 0) = _
    have : (y.broadcast [2, 3]).data idx = y.data idx := by
      rw [← hy]; exact broadcast_self (by rw [hy]; exact hi)
    rw [this]; ring
  · rw [hx, hy]
    exact ⟨by simp, ⟨_, List.mem_cons_self, rfl⟩, fun k _ => ⟨by simp, _, List.mem_cons_self, rfl⟩⟩
  · show x.data idx = if (1 : ℚ) ≠ 0 then (x.broadcast x.shape).data idx else _
    rw [if_pos one_ne_zero, broadcast_self hi]

/-- C66 (`Pow`): if the exponent is a plain tensor with one entry that is a power of two or three times one, and it has no more dimensions than the base, every entry is raised to that power. Exact arithmetic. Missing: other exponents (see `C66_pow_wrong`). -/
theorem C66_pow_partial (c : FunCfg) (x : NdTensor ℚ) (e : NdTensor ℕ) (he : ∀ n ∈ e.shape, n = 1) (hl : e.shape.length ≤ x.shape.length)
    (p k : ℕ) (hp : p = 2 ^ k ∨ p = 3 * 2 ^ k) (hep : ∀ idx, ValidIdx e.shape idx → e.data idx = p) :
    ∃ z, powLayer c ⟨true, x⟩ ⟨false, mapEntries (fun n : ℕ => (n : ℚ)) e⟩ = some z ∧ z.encrypted = true ∧ IsPow x e z.val := by
  have h0 : 0 < p := by rcases hp with h | h <;> subst h <;> positivity
  have hprod : e.shape.prod = 1 := List.prod_eq_one he
  have hrep : e.shape = List.replicate e.shape.length 1 := List.eq_replicate_iff.2 ⟨rfl, he⟩
  have hv : ∀ l : List ℕ, (∀ n ∈ l, n = 1) → ∀ m, ValidIdx l (stretchIdx l m) ∨ m.length < l.length := fun l hl => by
    induction l with
    | nil => exact fun m => .inl .nil
    | cons n l ih =>
      intro m
      cases m with
      | nil => exact .inr (by simp)
      | cons i m =>
        rcases ih (fun n hn => hl n (List.mem_cons_of_mem _ hn)) m with h | h
        · refine .inl (.cons ?_ h)
          have := hl n (by simp)
          simp [this]
        · exact .inr (by simpa using h)
  have hu : ∀ l : List ℕ, (∀ n ∈ l, n = 1) → ValidIdx l (unflatIdx l 0) := fun l hl => by
    induction l with
    | nil => exact .nil
    | cons n l ih =>
      refine .cons ?_ ?_
      · simp [hl n (by simp)]
      · have := ih fun n hn => hl n (List.mem_cons_of_mem _ hn)
        simpa [ValidIdx] using this
  have hd : ∀ k, dimR e.shape k = 1 := fun k => by
    rw [dimR]
    by_cases hk : k < e.shape.length
    · rw [List.getD_eq_getElem _ _ (by simpa using hk)]
      exact he _ (List.mem_reverse.1 (List.getElem_mem _))
    · rw [List.getD_eq_default _ _ (by simpa using hk)]
  have hpow : powLayer c ⟨true, x⟩ ⟨false, mapEntries (fun n : ℕ => (n : ℚ)) e⟩ = some ⟨true, ⟨x.shape, (exactOps ℚ).powPos x.data p⟩⟩ := by
    unfold powLayer
    simp only [Bool.false_eq_true, ↓reduceIte]
    rw [if_pos (show (mapEntries (fun n : ℕ => (n : ℚ)) e).shape.prod = 1 from hprod)]
    have : (mapEntries (fun n : ℕ => (n : ℚ)) e).data (unflatIdx (mapEntries (fun n : ℕ => (n : ℚ)) e).shape 0) = (p : ℚ) := by
      show ((e.data (unflatIdx e.shape 0) : ℕ) : ℚ) = p
      rw [hep _ (hu _ he)]
    rw [this, (C26_pow_dispatch c x.data).2.2.1 p h0]
    rfl
  refine ⟨_, hpow, rfl, ⟨?_, ?_, fun k hk => ⟨?_, ?_⟩⟩, fun idx hi => ?_⟩
  · simp [hl]
  · exact ⟨x.shape, by simp⟩
  · simp [hd]
  · exact ⟨x.shape, by simp⟩
  · show (exactOps ℚ).powPos x.data p idx = (x.broadcast x.shape).data idx ^ (e.data (stretchIdx e.shape (idx.drop (x.shape.length - e.shape.length))))
    rw [C26_pow_partial p k hp, broadcast_self (t := x) hi, hep]
    rcases hv e.shape he (idx.drop (x.shape.length - e.shape.length)) with h | h
    · exact h
    · have := hi.length
      simp only [List.length_drop] at h
      change idx.length = x.shape.length at this
      omega

/-- The square of a vector, with the exponent as tensor without dimensions. -/
example (c : FunCfg) : ∃ z, powLayer c ⟨true, ⟨[2], fun i => 3 + i.getD 0 0⟩⟩ ⟨false, mapEntries (fun n : ℕ => (n : ℚ)) ⟨[], fun _ => 2⟩⟩ = some z ∧ IsPow ⟨[2], fun i => 3 + i.getD 0 0⟩ ⟨[], fun _ => 2⟩ z.val := by
  obtain ⟨z, h, -, h'⟩ := C66_pow_partial c ⟨[2], fun i => 3 + i.getD 0 0⟩ ⟨[], fun _ => 2⟩ (by simp) (by simp) 2 1 (.inl rfl) fun _ _ => rfl
  exact ⟨z, h, h'⟩

/-- The code violates the property: encrypted exponents, exponents that are not integers and exponents with several entries raise, and the fifth power of 2 comes out as 64. -/
theorem C66_pow_wrong (c : FunCfg) (x : NdTensor ℚ) :
    powLayer c ⟨true, x⟩ ⟨false, ⟨[], fun _ => 1 / 2⟩⟩ = none ∧ (∀ e : NdTensor ℚ, e.shape.prod ≠ 1 → powLayer c ⟨true, x⟩ ⟨false, e⟩ = none)
    ∧ (∀ e : NdTensor ℚ, powLayer c ⟨true, x⟩ ⟨true, e⟩ = none) ∧ ∃ z, powLayer c ⟨true, ⟨[], fun _ => 2⟩⟩ ⟨false, ⟨[], fun _ => 5⟩⟩ = some z ∧ z.val.data [] = 64 := by
  refine ⟨?_, fun e he => ?_, fun e => rfl, ?_⟩
  · have : (exactOps ℚ).pow c x.data (1 / 2) = none := by
      rw [(C26_pow_dispatch c x.data).1]
      intro z hz
      have : (2 * z : ℤ) = 1 := by
        have : (2 * z : ℚ) = 1 := by rw [← hz]; norm_num
        exact_mod_cast this
      omega
    show (if [].prod = 1 then Option.map _ ((exactOps ℚ).pow c x.data (1 / 2)) else none) = none
    rw [this]; rfl
  · unfold powLayer
    simp [he]
  · refine ⟨⟨true, ⟨[], (exactOps ℚ).powPos (fun _ => 2) 5⟩⟩, ?_, ?_⟩
    · have := (C26_pow_dispatch (K := ℚ) c fun _ : List ℕ => 2).2.2.1 5 (by norm_num)
      unfold powLayer
      simp only [Bool.false_eq_true, ↓reduceIte, List.prod_nil]
      rw [show (5 : ℚ) = ((5 : ℕ) : ℚ) by norm_num, this]
      rfl
    · show (exactOps ℚ).powPos (fun _ => 2) 5 [] = 64
      rw [C26_pow_exponent 5 (by norm_num)]
      have : powExponent 5 = 6 := by
        rw [powExponent]; norm_num
        rw [powExponent]; norm_num
      rw [this]; norm_num

/-- C66 (`Cast`): plain tensors are cast entry by entry; encrypted tensors come out right for every type if the entries have values of that type already (integers for integers, 0 and 1 for booleans). -/
theorem C66_cast_partial (x : Tensor) :
    (cast .float x).val = x.val ∧ (∀ d, (cast d x).val.shape = x.val.shape)
    ∧ ((x.encrypted = true → ∀ idx, ∃ z : ℤ, x.val.data idx = z) → ∀ idx, (cast .int x).val.data idx = truncated (x.val.data idx))
    ∧ ((x.encrypted = true → IsBoolean x.val) → ∀ idx, (cast .bool x).val.data idx = if x.val.data idx = 0 then 0 else 1) := by
  cases x with
  | mk e v =>
    cases e with
    | false =>
      refine ⟨rfl, fun _ => rfl, fun _ idx => ?_, fun _ _ => rfl⟩
      show (if 0 ≤ v.data idx then ((⌊v.data idx⌋ : ℤ) : ℚ) else ((⌈v.data idx⌉ : ℤ) : ℚ)) = ((truncated (v.data idx) : ℤ) : ℚ)
      unfold truncated
      split
      · rfl
      · rw [Int.floor_neg, neg_neg]
    | true =>
      refine ⟨rfl, fun _ => rfl, fun h idx => ?_, fun h idx => ?_⟩
      rotate_left
      · show v.data idx = _
        rcases h rfl idx with e | e <;> change v.data idx = _ at e <;> simp [e]
      obtain ⟨z, hz⟩ := h rfl idx
      show v.data idx = _
      change v.data idx = (z : ℚ) at hz
      show v.data idx = ((truncated (v.data idx) : ℤ) : ℚ)
      rw [hz]
      unfold truncated
      split
      · rw [Int.floor_intCast]
      · rw [← Int.cast_neg, Int.floor_intCast, neg_neg]

/-- A plain -1.5 is cast to -1. -/
example : (cast .int ⟨false, ⟨[], fun _ => -3 / 2⟩⟩).val.data [] = -1 := by
  rw [(C66_cast_partial _).2.2.1 (by simp)]
  norm_num [truncated]

/-- The code violates the property: an encrypted 1.5 cast to an integer stays 1.5, and an encrypted 2 cast to a boolean stays 2. -/
theorem C66_cast_wrong (v : NdTensor ℚ) (d : DType) : cast d ⟨true, v⟩ = ⟨true, v⟩ := rfl

example : (cast .int ⟨true, ⟨[], fun _ => 3 / 2⟩⟩).val.data [] ≠ truncated (3 / 2) := by
  show (3 / 2 : ℚ) ≠ ((truncated (3 / 2) : ℤ) : ℚ)
  norm_num [truncated]

/-! ## Range, ConstantOfShape, Shape -/

/-- C66 (`Range`): whenever the layer returns a tensor it is the one ONNX prescribes, and it returns one if the step leads from the start towards the end. Without a step it is 1. -/
theorem C66_range_partial (start limit delta : ℚ) :
    (∀ y, range [start, limit, delta] = some y → IsRange start limit delta y) ∧ (((0 < delta ∧ start ≤ limit) ∨ (delta < 0 ∧ limit ≤ start)) → ∃ y, range [start, limit, delta] = some y)
    ∧ (∀ y, range [start, limit] = some y → IsRange start limit 1 y) ∧ (start ≤ limit → ∃ y, range [start, limit] = some y) := by
  have gen : ∀ delta y, arange start limit delta = some y → IsRange start limit delta y := by
    intro delta y hy
    unfold arange at hy
    split at hy
    · rename_i h
      obtain rfl := Option.some.inj hy
      refine ⟨?_, fun i _ => rfl⟩
      have : 0 ≤ (limit - start) / delta := by
        rcases h with ⟨h1, h2⟩ | ⟨h1, h2⟩
        · exact div_nonneg (by linarith) h1.le
        · exact div_nonneg_of_nonpos (by linarith) h1.le
      rw [max_eq_left (Int.ceil_nonneg this)]
    · cases hy
  exact ⟨fun y hy => gen delta y hy, fun h => ⟨_, if_pos h⟩, fun y hy => gen 1 y hy, fun h => ⟨_, if_pos (.inl ⟨one_pos, h⟩)⟩⟩

/-- 10, 7, 4. -/
example : ∃ y, range [10, 1, -3] = some y ∧ y.shape = [3] ∧ y.data [2] = 4 := by
  refine ⟨_, show arange 10 1 (-3) = _ from if_pos (.inr ⟨by norm_num, by norm_num⟩), ?_, ?_⟩
  · show [⌈((1 : ℚ) - 10) / -3⌉.toNat] = [3]
    norm_num
    rfl
  · show (10 : ℚ) + ((2 : ℕ) : ℚ) * -3 = 4
    norm_num

/-- The code violates the property: a step that leads away from the end raises; ONNX prescribes a tensor without entries. -/
theorem C66_range_wrong (start limit delta : ℚ) (h : (0 < delta ∧ limit < start) ∨ (delta < 0 ∧ start < limit)) :
    range [start, limit, delta] = none ∧ IsRange start limit delta ⟨[0], fun _ => 0⟩ := by
  have hn : (limit - start) / delta ≤ 0 := by
    rcases h with ⟨h1, h2⟩ | ⟨h1, h2⟩
    · exact div_nonpos_of_nonpos_of_nonneg (by linarith) h1.le
    · exact div_nonpos_of_nonneg_of_nonpos (by linarith) h1.le
  refine ⟨if_neg ?_, ?_, fun i hi => ?_⟩
  · rintro (⟨h1, h2⟩ | ⟨h1, h2⟩) <;> rcases h with ⟨h3, h4⟩ | ⟨h3, h4⟩ <;> linarith
  · have : ⌈(limit - start) / delta⌉ ≤ 0 := by rw [Int.ceil_le]; simpa using hn
    simp [max_eq_right this]
  · obtain ⟨j, r, hj, h', -⟩ := validIdx_cons.1 hi
    omega

example : (0 : ℚ) < 1 ∧ (2 : ℚ) < 5 := by norm_num

/-- C66 (`ConstantOfShape`): for a value with one entry and every size with at least one dimension the layer returns the tensor filled with it. -/
theorem C66_constantOfShape_partial (v : NdTensor ℚ) (hv : v.shape = [1]) (size : List ℕ) (h : size ≠ []) :
    ∃ y, constantOfShape (some v) size = some y ∧ IsConstantOfShape (some v) size y := by
  have hl : 1 ≤ size.length := List.length_pos_iff.2 h
  have hf : Fits v.shape size := by
    rw [hv]
    refine ⟨hl, fun k _ => .inl ?_⟩
    match k with
    | 0 => rfl
    | k + 1 => exact dimR_of_le (by simp)
  refine ⟨v.broadcast size, ?_, rfl, fun idx hi => ?_⟩
  · show (if size = [] then none else v.expand size) = _
    rw [if_neg h, expand_of_fits hf]
  · show v.data (stretchIdx v.shape (idx.drop (size.length - v.shape.length))) = v.data [0]
    congr 1
    have hi' := hi.length
    rw [hv]
    obtain ⟨a, ha⟩ : ∃ a, idx.drop (size.length - 1) = [a] := List.length_eq_one_iff.1 (by simp; omega)
    rw [show [1].length = 1 from rfl, ha]
    rfl

example : ∃ y, constantOfShape (some ⟨[1], fun _ => 7⟩) [2, 3] = some y ∧ y.shape = [2, 3] ∧ y.data [1, 2] = 7 := ⟨_, rfl, rfl, rfl⟩

/-- The code violates the property: without a value the layer is not accepted (ONNX: zeros), and a tensor without dimensions is not made. -/
theorem C66_constantOfShape_wrong (size : List ℕ) (v : NdTensor ℚ) :
    constantOfShape none size = none ∧ IsConstantOfShape none size ⟨size, fun _ => 0⟩ ∧ constantOfShape (some v) [] = none ∧ IsConstantOfShape (some v) [] ⟨[], fun _ => v.data [0]⟩ :=
  ⟨rfl, ⟨rfl, fun _ _ => rfl⟩, rfl, ⟨rfl, fun _ _ => rfl⟩⟩

/-- C66 (`Shape`): without bounds the layer returns the sizes of all dimensions. -/
theorem C66_shape_partial (x : Tensor) : IsShape none none x.val.shape (shapeOf none none x) := by
  refine ⟨by simp [shapeOf], fun i hi => ?_⟩
  simp [shapeOf]

example : (shapeOf none none ⟨true, ⟨[2, 3], fun _ => 0⟩⟩).data [1] = 3 := by
  show (((3 : ℕ)) : ℚ) = 3
  norm_num

/-- The code violates the property: the bounds `start` and `end` are ignored. -/
theorem C66_shape_wrong (x : Tensor) (hx : x.val.shape = [2, 3]) : (shapeOf (some 1) none x).shape = [2] ∧ ¬IsShape (some 1) none x.val.shape (shapeOf (some 1) none x) := by
  have h : (shapeOf (some 1) none x).shape = [2] := by simp [shapeOf, hx]
  refine ⟨h, fun hs => ?_⟩
  have := hs.1
  rw [h, hx] at this
  simp [shapeBound] at this

/-! ## Concat -/

theorem catData_at [Zero R] (d : ℕ) : ∀ (before : List (NdTensor R)) (x : NdTensor R) (behind : List (NdTensor R)) (i : List ℕ), d < i.length → i.getD d 0 < x.shape.getD d 0 →
    catData d (before ++ x :: behind) (i.set d ((before.map fun u => u.shape.getD d 0).sum + i.getD d 0)) = x.data i
  | [], x, behind, i, hd, hi => by
    have e : i.set d ((([] : List (NdTensor R)).map fun u => u.shape.getD d 0).sum + i.getD d 0) = i := by
      rw [List.map_nil, List.sum_nil, Nat.zero_add, List.getD_eq_getElem _ _ hd, List.set_getElem_self]
    rw [e]
    show (if i.getD d 0 < x.shape.getD d 0 then x.data i else _) = _
    rw [if_pos hi]
  | b :: before, x, behind, i, hd, hi => by
    have e : ∀ v, (i.set d v).getD d 0 = v := fun v => by rw [List.getD_eq_getElem _ _ (by simpa using hd), List.getElem_set_self]
    show (if (i.set d _).getD d 0 < b.shape.getD d 0 then b.data _ else catData d (before ++ x :: behind) ((i.set d _).set d ((i.set d _).getD d 0 - b.shape.getD d 0))) = _
    rw [e, if_neg (by simp; omega), List.set_set, List.map_cons, List.sum_cons,
      show b.shape.getD d 0 + (before.map fun u => u.shape.getD d 0).sum + i.getD d 0 - b.shape.getD d 0 = (before.map fun u => u.shape.getD d 0).sum + i.getD d 0 by omega]
    exact catData_at d before x behind i hd hi

theorem axisOf_normDim {r : ℕ} {a : ℤ} {d : ℕ} (h : AxisOf r a d) : normDim r a = some d := by
  obtain ⟨h1, h2⟩ := h
  unfold normDim
  rw [if_pos (by omega)]
  congr 1
  split <;> omega

theorem cat_isConcat [Zero R] (xs : List (NdTensor R)) (h2 : 2 ≤ xs.length) (axis : ℤ) (d : ℕ) (hax : ∀ x ∈ xs.head?, AxisOf x.shape.length axis d) :
    (∀ y, NdTensor.cat xs axis = some y → IsConcat xs d y) ∧ ((∃ y, IsConcat xs d y) → ∃ y, NdTensor.cat xs axis = some y) := by
  match xs, h2 with
  | t :: u :: rest, _ =>
    have hn := axisOf_normDim (hax t (by simp))
    have hd : d < t.shape.length := (hax t (by simp)).1
    have ecat : NdTensor.cat (t :: u :: rest) axis = if (u :: rest).all (fun u => u.shape.length = t.shape.length ∧ u.shape.set d 0 = t.shape.set d 0) then
        some { shape := t.shape.set d (((t :: u :: rest).map fun u => u.shape.getD d 0).sum), data := catData d (t :: u :: rest) } else none := by
      unfold NdTensor.cat
      simp only [hn]
      rfl
    have hset : ∀ (a b : List ℕ), a.length = b.length → (a.set d 0 = b.set d 0 ↔ ∀ e < b.length, e ≠ d → a.getD e 0 = b.getD e 0) := fun a b hl => by
      constructor
      · intro h e he hne
        have := congrArg (fun l : List ℕ => l.getD e 0) h
        beta_reduce at this
        rw [List.getD_eq_getElem _ _ (by simp; omega), List.getD_eq_getElem _ _ (by simp; omega), List.getElem_set_ne (by omega), List.getElem_set_ne (by omega)] at this
        rw [List.getD_eq_getElem _ _ (by omega), List.getD_eq_getElem _ _ (by omega)]
        exact this
      · intro h
        refine ext_getD0 (by simp [hl]) fun e he => ?_
        have he' : e < a.length := by simpa using he
        rw [List.getD_eq_getElem _ _ (by simpa using he'), List.getD_eq_getElem _ _ (by simp; omega)]
        by_cases hne : e = d
        · subst hne; rw [List.getElem_set_self, List.getElem_set_self]
        · rw [List.getElem_set_ne (by omega), List.getElem_set_ne (by omega)]
          have := h e (by omega) hne
          rw [List.getD_eq_getElem _ _ he', List.getD_eq_getElem _ _ (by omega)] at this
          exact this
    rw [ecat]
    constructor
    · intro y hy
      split at hy
      · rename_i hall
        obtain rfl := Option.some.inj hy
        rw [List.all_eq_true] at hall
        have hs : ∀ x ∈ t :: u :: rest, x.shape.length = t.shape.length ∧ ∀ e < t.shape.length, e ≠ d → x.shape.getD e 0 = t.shape.getD e 0 := fun x hx => by
          rcases List.mem_cons.1 hx with rfl | hx
          · exact ⟨rfl, fun _ _ _ => rfl⟩
          · have := hall x hx
            simp only [decide_eq_true_eq] at this
            exact ⟨this.1, (hset _ _ this.1).1 this.2⟩
        refine ⟨by simpa using hd, ?_, fun x hx => ⟨?_, fun e he hne => ?_⟩, fun before x behind hxs i hi => ?_⟩
        · show (t.shape.set d _).getD d 0 = _
          rw [List.getD_eq_getElem _ _ (by simpa using hd), List.getElem_set_self]
        · simpa using (hs x hx).1
        · have he' : e < t.shape.length := by simpa using he
          rw [(hs x hx).2 e he' hne]
          show _ = (t.shape.set d _).getD e 0
          rw [List.getD_eq_getElem _ _ (by simpa using he'), List.getD_eq_getElem _ _ (by simpa using he'), List.getElem_set_ne (by omega)]
        · have hx : x ∈ t :: u :: rest := by rw [hxs]; simp
          have hxl := (hs x hx).1
          obtain ⟨hil, hib⟩ := validIdx_iff.1 hi
          show catData d (t :: u :: rest) _ = _
          rw [hxs]
          exact catData_at d before x behind i (by omega) (hib d (by omega))
      · cases hy
    · rintro ⟨y, h1, -, h3, -⟩
      refine ⟨_, if_pos (List.all_eq_true.2 fun x hx => ?_)⟩
      simp only [decide_eq_true_eq]
      obtain ⟨e1, e2⟩ := h3 x (List.mem_cons_of_mem _ hx)
      obtain ⟨e3, e4⟩ := h3 t (by simp)
      have hl : x.shape.length = t.shape.length := by omega
      exact ⟨hl, (hset _ _ hl).2 fun e he hne => by rw [e2 e (by omega) hne, e4 e (by omega) hne]⟩

/-- C66 (`Concat`): for two or more encrypted inputs and every axis, negative ones included, the layer returns a result exactly if the shapes agree outside the axis, and then the tensors one behind the other. Missing: plain inputs, mixed inputs, one input (see the theorems below). -/
theorem C66_concat_partial (xs : List (NdTensor ℚ)) (h2 : 2 ≤ xs.length) (axis : ℤ) (d : ℕ) (hax : ∀ x ∈ xs.head?, AxisOf x.shape.length axis d) :
    (∀ z, concat (some axis) (pack (xs.map (⟨true, ·⟩))) = some z → z.encrypted = true ∧ IsConcat xs d z.val)
    ∧ ((∃ y, IsConcat xs d y) → ∃ z, concat (some axis) (pack (xs.map (⟨true, ·⟩))) = some z) := by
  have hp : concat (some axis) (pack (xs.map (⟨true, ·⟩))) = (NdTensor.cat xs axis).map (⟨true, ·⟩) := by
    have hpk : pack (xs.map (⟨true, ·⟩)) = .list (xs.map (⟨true, ·⟩)) := by
      match xs, h2 with
      | a :: b :: l, _ => rfl
    rw [hpk]
    show (if 1 ≤ (xs.map (Tensor.mk true)).length then catTensors (xs.map (Tensor.mk true)) axis else none) = _
    rw [if_pos (by simp; omega), catTensors, if_neg, if_pos]
    · rw [List.map_map]
      have : Tensor.val ∘ Tensor.mk true = id := rfl
      rw [this, List.map_id]
    · simp
    · match xs, h2 with
      | a :: b :: l, _ => exact fun h => by simp at h
  rw [hp]
  obtain ⟨c1, c2⟩ := cat_isConcat xs h2 axis d hax
  constructor
  · intro z hz
    obtain ⟨y, hy, rfl⟩ := Option.map_eq_some_iff.1 hz
    exact ⟨rfl, c1 y hy⟩
  · intro h
    obtain ⟨y, hy⟩ := c2 h
    exact ⟨_, by rw [hy]; rfl⟩

/-- Two matrices side by side, with a negative axis. -/
example : ∃ z, concat (some (-1)) (pack [⟨true, ⟨[2, 1], fun i => i.getD 0 0⟩⟩, ⟨true, ⟨[2, 2], fun i => 10 + i.getD 1 0⟩⟩]) = some z ∧ z.val.shape = [2, 3] ∧ z.val.data [1, 2] = 11 := by
  refine ⟨_, rfl, rfl, ?_⟩
  show (10 : ℚ) + ((1 : ℕ) : ℚ) = 11
  norm_num

/-- The code violates the property: plain inputs are concatenated along the first dimension, whatever the axis; two columns become one. -/
theorem C66_concat_plain_wrong (x y : NdTensor ℚ) (hx : x.shape = [2, 1]) (hy : y.shape = [2, 1]) :
    ∃ z, concat (some 1) (pack [⟨false, x⟩, ⟨false, y⟩]) = some z ∧ z.val.shape = [4, 1] ∧ ¬IsConcat [x, y] 1 z.val := by
  have hz : concat (some 1) (pack [⟨false, x⟩, ⟨false, y⟩]) = some ⟨false, ⟨[4, 1], catData 0 [x, y]⟩⟩ := by
    simp [concat, pack, catTensors, ShapeGrad.catPlain, NdTensor.cat, hx, hy, normDim]
  refine ⟨_, hz, rfl, fun h => ?_⟩
  have := h.2.1
  simp [hx, hy] at this

/-- The code violates the property: a single input is not passed in a list, so the layer raises; ONNX returns the input. -/
theorem C66_concat_one_wrong (x : Tensor) (axis : ℤ) (d : ℕ) (hd : d < x.val.shape.length) : concat (some axis) (pack [x]) = none ∧ IsConcat [x.val] d x.val := by
  refine ⟨rfl, hd, by simp, by simp, fun before u behind h i hi => ?_⟩
  rcases before with _ | ⟨b, _ | ⟨b', before⟩⟩
  · simp at h
    obtain ⟨rfl, -⟩ := h
    have := hi.length
    rw [List.map_nil, List.sum_nil, Nat.zero_add, List.getD_eq_getElem _ _ (by omega), List.set_getElem_self]
  · simp at h
  · simp at h

/-- The code violates the property: plain and encrypted inputs together raise (a constant token in front of an encrypted sequence cannot be concatenated). -/
theorem C66_concat_mixed_wrong (xs : List Tensor) (axis : ℤ) (h1 : ∃ x ∈ xs, x.encrypted = true) (h2 : ∃ x ∈ xs, x.encrypted = false) : concat (some axis) (pack xs) = none := by
  obtain ⟨a, ha, ha'⟩ := h1
  obtain ⟨b, hb, hb'⟩ := h2
  unfold pack
  split
  · rfl
  · show (if 1 ≤ xs.length then catTensors xs axis else none) = none
    split
    · rw [catTensors, if_neg, if_neg]
      · simp only [List.all_eq_true]
        intro h
        have := h b hb
        rw [hb'] at this; cases this
      · simp only [List.all_eq_true]
        intro h
        have := h a ha
        rw [ha'] at this; cases this
    · rfl

example : ∃ x ∈ [(⟨true, ⟨[1], fun _ => 1⟩⟩ : Tensor), ⟨false, ⟨[1], fun _ => 2⟩⟩], x.encrypted = true := ⟨_, List.mem_cons_self, rfl⟩

end Onnx
end CrypTen

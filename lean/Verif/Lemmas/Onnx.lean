import Verif.Model.Onnx
import Verif.Spec.Onnx
import Verif.Props.ShapeGrad2

/-! Lemmas for the ONNX layers. -/

namespace CrypTen
open NdTensor ShapeGrad
variable {R : Type}

theorem axisOf_iff {r : ℕ} {a : ℤ} {d : ℕ} : OnnxSpec.AxisOf r a d ↔ normDim r a = some d := by
  unfold OnnxSpec.AxisOf normDim
  constructor
  · rintro ⟨h1, h | h⟩
    · subst h; rw [if_pos (by omega), if_neg (by omega)]; simp
    · subst h; rw [if_pos (by omega), if_pos (by omega)]; simp
  · intro h
    split at h
    · simp only [Option.some.injEq] at h
      split at h <;> omega
    · cases h

theorem range_mul_flatMap (n m : ℕ) : ((List.range n).flatMap fun i => (List.range m).map fun j => i * m + j) = List.range (n * m) := by
  induction n with
  | zero => simp
  | succ n ih => rw [List.range_succ, List.flatMap_append, ih, Nat.succ_mul, List.range_add]; simp

theorem allIdx_flat (s : List ℕ) : (allIdx s).map (flatIdx s) = List.range s.prod := by
  induction s with
  | nil => simp [allIdx, flatIdx]
  | cons n s ih =>
    rw [allIdx, List.map_flatMap, List.prod_cons, ← range_mul_flatMap]
    refine congrArg (List.flatMap · (List.range n)) (funext fun i => ?_)
    rw [List.map_map, ← ih, List.map_map]
    rfl

theorem allIdx_eq (s : List ℕ) : allIdx s = (List.range s.prod).map (unflatIdx s) := by
  rw [← allIdx_flat, List.map_map]
  refine ((List.map_id _).symm.trans (List.map_congr_left fun i hi => ?_))
  exact (unflat_flat (mem_allIdx_iff.1 hi)).symm

theorem rowMajor_reshapeTo (t : NdTensor R) (s : List ℕ) (h : s.prod = t.shape.prod) : OnnxSpec.rowMajor (t.reshapeTo s) = OnnxSpec.rowMajor t := by
  unfold OnnxSpec.rowMajor
  rw [allIdx_eq (t.reshapeTo s).shape, allIdx_eq t.shape, List.map_map, List.map_map]
  show List.map _ (List.range s.prod) = _
  rw [h]
  refine List.map_congr_left fun k hk => ?_
  show t.data (unflatIdx t.shape (flatIdx s (unflatIdx s k))) = t.data (unflatIdx t.shape k)
  rw [flat_unflat (by rw [h]; exact List.mem_range.1 hk)]

theorem getD_mapIdx (l : List ℕ) (f : ℕ → ℕ → ℕ) {d : ℕ} (hd : d < l.length) : (l.mapIdx f).getD d 0 = f d (l.getD d 0) := by
  rw [List.getD_eq_getElem _ _ (by simpa using hd), List.getD_eq_getElem _ _ hd, List.getElem_mapIdx]

end CrypTen

namespace CrypTen
open NdTensor ShapeGrad OnnxSpec
variable {R : Type}

theorem dimR_lt {s : List ℕ} {k : ℕ} (h : k < s.length) : dimR s k = s.getD (s.length - 1 - k) 0 := by
  unfold dimR
  rw [List.getD_eq_getElem _ _ (by simpa using h), List.getElem_reverse, List.getD_eq_getElem _ _ (by omega)]

theorem dimR_ge {s : List ℕ} {k : ℕ} (h : s.length ≤ k) : dimR s k = 1 := by
  unfold dimR
  exact List.getD_eq_default _ _ (by simpa using h)

theorem expandFix_same (s : List ℕ) : ∀ (shape : List ℕ) (i : ℕ), i + shape.length ≤ s.length →
    ∃ r, Onnx.expandFix s i shape = some r ∧ r.length = shape.length ∧ ∀ j < shape.length, r.getD j 0 = if shape.getD j 0 = 1 ∧ 1 < s.getD (i + j) 0 then s.getD (i + j) 0 else shape.getD j 0 := by
  intro shape
  induction shape with
  | nil => intro i _; exact ⟨[], rfl, rfl, by simp⟩
  | cons n ns ih =>
    intro i hi
    simp only [List.length_cons] at hi
    obtain ⟨r, h1, h2, h3⟩ := ih (i + 1) (by omega)
    have hm : s[i]? = some (s.getD i 0) := by rw [List.getD_eq_getElem _ _ (by omega), List.getElem?_eq_getElem]
    unfold Onnx.expandFix
    by_cases hn : n = 1
    · rw [if_pos hn, hm, Option.bind_some, h1, Option.map_some]
      refine ⟨_, rfl, by simp [h2], fun j hj => ?_⟩
      cases j with
      | zero => by_cases h : 1 < s.getD i 0 <;> simp [hn, h]
      | succ j =>
        have := h3 j (by simpa using hj)
        simp only [List.getD_cons_succ]
        rw [this, show i + 1 + j = i + (j + 1) by omega]
    · rw [if_neg hn, h1, Option.map_some]
      refine ⟨_, rfl, by simp [h2], fun j hj => ?_⟩
      cases j with
      | zero => simp [hn]
      | succ j =>
        have := h3 j (by simpa using hj)
        simp only [List.getD_cons_succ]
        rw [this, show i + 1 + j = i + (j + 1) by omega]

theorem expandFix_no_one (s : List ℕ) : ∀ (shape : List ℕ) (i : ℕ), 1 ∉ shape → Onnx.expandFix s i shape = some shape := by
  intro shape
  induction shape with
  | nil => intro i _; rfl
  | cons n ns ih =>
    intro i h
    simp only [List.mem_cons, not_or] at h
    rw [Onnx.expandFix, if_neg (Ne.symm h.1), ih _ h.2]; rfl

theorem zip_all_iff {a b : List ℕ} (h : a.length = b.length) : ((a.zip b).all fun q => decide (q.1 = q.2 ∨ q.1 = 1)) = true ↔ ∀ j < a.length, a.getD j 0 = b.getD j 0 ∨ a.getD j 0 = 1 := by
  rw [List.all_eq_true]
  constructor
  · intro H j hj
    have := H (a[j], b[j]'(by omega)) (by rw [List.mem_iff_getElem]; exact ⟨j, by simp; omega, by simp⟩)
    rw [List.getD_eq_getElem _ _ hj, List.getD_eq_getElem _ _ (by omega)]
    simpa using this
  · intro H q hq
    obtain ⟨j, hj, rfl⟩ := List.mem_iff_getElem.1 hq
    simp only [List.length_zip] at hj
    have := H j (by omega)
    rw [List.getD_eq_getElem _ _ (by omega), List.getD_eq_getElem _ _ (by omega)] at this
    simpa using this

end CrypTen

import Verif.Spec.Broadcast
import Mathlib.Algebra.BigOperators.Ring.Finset
import Mathlib.Algebra.BigOperators.Group.Finset.Sigma
import Mathlib.Data.List.GetD
import Mathlib.Tactic.Ring

/-!
# Sums over the entries of a tensor
-/

namespace CrypTen
open Finset

/-- The set of all indices of a tensor of shape `s`. -/
def idxSet (s : List ℕ) : Finset (List ℕ) := (allIdx s).toFinset

theorem mem_allIdx_iff {s idx : List ℕ} : idx ∈ allIdx s ↔ ValidIdx s idx := by
  induction s generalizing idx with
  | nil => simp [allIdx, ValidIdx]
  | cons n s ih =>
    simp only [allIdx, List.mem_flatMap, List.mem_range, List.mem_map, ih, ValidIdx]
    constructor
    · rintro ⟨i, hi, j, hj, rfl⟩
      exact .cons hi hj
    · intro h
      cases h with
      | cons hi hj => exact ⟨_, hi, _, hj, rfl⟩

theorem nodup_allIdx (s : List ℕ) : (allIdx s).Nodup := by
  induction s with
  | nil => simp [allIdx]
  | cons n s ih =>
    simp only [allIdx]
    refine List.nodup_flatMap.2 ⟨fun i _ => ih.map (List.cons_injective), ?_⟩
    refine List.Pairwise.imp ?_ (List.nodup_range (n := n))
    intro a b hab l h1 h2
    simp only [List.mem_map] at h1 h2
    obtain ⟨_, _, rfl⟩ := h1
    obtain ⟨_, _, h⟩ := h2
    exact hab (List.cons.inj h).1.symm

@[simp] theorem mem_idxSet {s idx : List ℕ} : idx ∈ idxSet s ↔ ValidIdx s idx := by simp [idxSet, mem_allIdx_iff]

theorem inner_eq_sum {R : Type} [Semiring R] (s : List ℕ) (x y : List ℕ → R) : inner s x y = ∑ i ∈ idxSet s, x i * y i := by
  rw [inner, idxSet, List.sum_toFinset _ (nodup_allIdx s)]

theorem validIdx_nil {idx : List ℕ} : ValidIdx [] idx ↔ idx = [] := by
  constructor
  · intro h; cases h; rfl
  · rintro rfl; exact .nil

theorem validIdx_cons {n : ℕ} {s idx : List ℕ} : ValidIdx (n :: s) idx ↔ ∃ i r, idx = i :: r ∧ i < n ∧ ValidIdx s r := by
  constructor
  · intro h
    cases h with
    | cons h1 h2 => exact ⟨_, _, rfl, h1, h2⟩
  · rintro ⟨i, r, rfl, h1, h2⟩
    exact .cons h1 h2

theorem ValidIdx.length {s idx : List ℕ} (h : ValidIdx s idx) : idx.length = s.length := (List.Forall₂.length_eq h).symm

/-- Validity, dimension by dimension. -/
theorem validIdx_iff {s idx : List ℕ} : ValidIdx s idx ↔ idx.length = s.length ∧ ∀ d, d < s.length → idx.getD d 0 < s.getD d 0 := by
  induction s generalizing idx with
  | nil => simp [validIdx_nil]
  | cons n s ih =>
    cases idx with
    | nil => simp [ValidIdx]
    | cons i r =>
      constructor
      · intro h
        cases h with
        | cons h1 h2 =>
          obtain ⟨h3, h4⟩ := ih.1 h2
          refine ⟨by simp [h3], fun d hd => ?_⟩
          cases d with
          | zero => simpa using h1
          | succ d => simpa using h4 d (by simpa using hd)
      · rintro ⟨h1, h2⟩
        refine .cons (by simpa using h2 0 (by simp)) (ih.2 ⟨by simpa using h1, fun d hd => ?_⟩)
        simpa using h2 (d + 1) (by simpa using hd)

/-- Two index lists of the same length with the same entries. -/
theorem ext_getD0 {a b : List ℕ} (hl : a.length = b.length) (h : ∀ d, d < a.length → a.getD d 0 = b.getD d 0) : a = b := by
  refine List.ext_getElem hl fun d h1 h2 => ?_
  have := h d h1
  rwa [List.getD_eq_getElem _ _ h1, List.getD_eq_getElem _ _ h2] at this

theorem getD_set0 (l : List ℕ) (a v d : ℕ) : (l.set a v).getD d 0 = if d = a ∧ d < l.length then v else l.getD d 0 := by
  by_cases hd : d < l.length
  · rw [List.getD_eq_getElem _ _ (by simpa using hd), List.getD_eq_getElem _ _ hd, List.getElem_set]
    by_cases h : a = d
    · simp [h, hd]
    · simp [h, Ne.symm h]
  · simp [List.getD_eq_default _ _ (not_lt.1 hd), List.getD_eq_default (l.set a v) 0 (by simpa using hd), hd]

variable {R : Type} [CommRing R]

/-- If output entry `j` is the sum of the input entries related to it and the back-propagated entry `i` is the sum of the gradient entries related to it, the two maps are adjoint. -/
theorem adjoint_rel (s s' : List ℕ) (P : List ℕ → List ℕ → Prop) [∀ i j, Decidable (P i j)] (dx dy g gx : List ℕ → R)
    (h1 : ∀ j, ValidIdx s' j → dy j = ∑ i ∈ idxSet s, if P i j then dx i else 0)
    (h2 : ∀ i, ValidIdx s i → gx i = ∑ j ∈ idxSet s', if P i j then g j else 0) : inner s dx gx = inner s' dy g := by
  rw [inner_eq_sum, inner_eq_sum]
  have e1 : ∀ i ∈ idxSet s, dx i * gx i = ∑ j ∈ idxSet s', if P i j then dx i * g j else 0 := by
    intro i hi
    rw [h2 i (mem_idxSet.1 hi), Finset.mul_sum]
    exact Finset.sum_congr rfl fun j _ => by split <;> simp
  have e2 : ∀ j ∈ idxSet s', dy j * g j = ∑ i ∈ idxSet s, if P i j then dx i * g j else 0 := by
    intro j hj
    rw [h1 j (mem_idxSet.1 hj), Finset.sum_mul]
    exact Finset.sum_congr rfl fun i _ => by split <;> simp
  rw [Finset.sum_congr rfl e1, Finset.sum_congr rfl e2, Finset.sum_comm]

/-- Copying along partial maps that are inverse to each other. -/
theorem adjoint_copy (s s' : List ℕ) (src src' : List ℕ → Option (List ℕ)) (dx dy g gx : List ℕ → R)
    (hs : ∀ i j, ValidIdx s i → ValidIdx s' j → (src j = some i ↔ src' i = some j))
    (hv : ∀ i j, ValidIdx s' j → src j = some i → ValidIdx s i) (hv' : ∀ i j, ValidIdx s i → src' i = some j → ValidIdx s' j)
    (h1 : ∀ j, ValidIdx s' j → dy j = (src j).elim 0 dx) (h2 : ∀ i, ValidIdx s i → gx i = (src' i).elim 0 g) : inner s dx gx = inner s' dy g := by
  classical
  refine adjoint_rel s s' (fun i j => src j = some i) dx dy g gx (fun j hj => ?_) fun i hi => ?_
  · rw [h1 j hj]
    cases hc : src j with
    | none => simp
    | some k =>
      rw [Finset.sum_eq_single k]
      · simp
      · intro b _ hb
        simp [Ne.symm hb]
      · intro hk
        exact absurd (mem_idxSet.2 (hv k j hj hc)) hk
  · rw [h2 i hi]
    have e : ∀ j ∈ idxSet s', (if src j = some i then g j else 0) = if src' i = some j then g j else 0 := by
      intro j hj
      simp only [hs i j hi (mem_idxSet.1 hj)]
    rw [Finset.sum_congr rfl e]
    cases hc : src' i with
    | none => simp
    | some k =>
      rw [Finset.sum_eq_single k]
      · simp
      · intro b _ hb
        simp [Ne.symm hb]
      · intro hk
        exact absurd (mem_idxSet.2 (hv' i k hi hc)) hk

/-- Copying along a bijection of the indices. -/
theorem adjoint_bij (s s' : List ℕ) (φ ψ : List ℕ → List ℕ) (dx dy g gx : List ℕ → R) (hφ : ∀ j, ValidIdx s' j → ValidIdx s (φ j) ∧ ψ (φ j) = j)
    (hψ : ∀ i, ValidIdx s i → ValidIdx s' (ψ i) ∧ φ (ψ i) = i) (h1 : ∀ j, ValidIdx s' j → dy j = dx (φ j)) (h2 : ∀ i, ValidIdx s i → gx i = g (ψ i)) :
    inner s dx gx = inner s' dy g := by
  refine adjoint_copy s s' (fun j => some (φ j)) (fun i => some (ψ i)) dx dy g gx (fun i j hi hj => ?_) ?_ ?_ (by simpa using h1) (by simpa using h2)
  · simp only [Option.some.injEq]
    constructor
    · rintro rfl; exact (hφ j hj).2
    · rintro rfl; exact (hψ i hi).2
  · intro i j hj h
    cases h; exact (hφ j hj).1
  · intro i j hi h
    cases h; exact (hψ i hi).1

/-- The sum over all entries, split along dimension `d`. -/
theorem sum_split_dim (d : ℕ) : ∀ (s : List ℕ) (a b : ℕ) (f : List ℕ → R), d < s.length →
    ∑ i ∈ idxSet (s.set d (a + b)), f i = ∑ i ∈ idxSet (s.set d a), f i + ∑ i ∈ idxSet (s.set d b), f (i.set d (i.getD d 0 + a)) := by
  classical
  intro s a b f hd
  have e : ∑ i ∈ idxSet (s.set d (a + b)), f i
      = ∑ i ∈ (idxSet (s.set d (a + b))).filter (fun i => i.getD d 0 < a), f i + ∑ i ∈ (idxSet (s.set d (a + b))).filter (fun i => ¬ i.getD d 0 < a), f i :=
    (Finset.sum_filter_add_sum_filter_not _ _ _).symm
  rw [e]
  congr 1
  · refine Finset.sum_congr ?_ fun _ _ => rfl
    ext i
    simp only [Finset.mem_filter, mem_idxSet, validIdx_iff, List.length_set, getD_set0]
    constructor
    · rintro ⟨⟨h1, h2⟩, h3⟩
      refine ⟨h1, fun k hk => ?_⟩
      have := h2 k hk
      split
      · rename_i h; rw [h.1]; exact h3
      · rename_i h; simpa [h] using this
    · rintro ⟨h1, h2⟩
      have h4 := h2 d hd
      simp only [hd, and_self, if_true] at h4
      refine ⟨⟨h1, fun k hk => ?_⟩, h4⟩
      have := h2 k hk
      split
      · rename_i h; rw [if_pos h] at this; omega
      · rename_i h; simpa [h] using this
  · symm
    refine Finset.sum_bij' (fun i _ => i.set d (i.getD d 0 + a)) (fun i _ => i.set d (i.getD d 0 - a)) ?_ ?_ ?_ ?_ ?_
    · intro i hi
      simp only [Finset.mem_filter, mem_idxSet, validIdx_iff, List.length_set, getD_set0] at hi ⊢
      obtain ⟨h1, h2⟩ := hi
      have h4 := h2 d hd
      simp only [hd, and_self, if_true] at h4
      refine ⟨⟨h1, fun k hk => ?_⟩, ?_⟩
      · have := h2 k hk
        by_cases hkd : k = d
        · subst hkd; rw [if_pos ⟨rfl, h1 ▸ hd⟩, if_pos ⟨rfl, hd⟩]; omega
        · simpa [hkd] using this
      · rw [if_pos ⟨trivial, h1 ▸ hd⟩]; omega
    · intro i hi
      simp only [Finset.mem_filter, mem_idxSet, validIdx_iff, List.length_set, getD_set0] at hi ⊢
      obtain ⟨⟨h1, h2⟩, h3⟩ := hi
      have h4 := h2 d hd
      simp only [hd, and_self, if_true] at h4
      refine ⟨h1, fun k hk => ?_⟩
      have := h2 k hk
      by_cases hkd : k = d
      · subst hkd; rw [if_pos ⟨rfl, h1 ▸ hd⟩, if_pos ⟨rfl, hd⟩]; omega
      · simpa [hkd] using this
    · intro i hi
      simp only [mem_idxSet, validIdx_iff, List.length_set] at hi
      refine ext_getD0 (by simp) fun k hk => ?_
      simp only [getD_set0, List.length_set]
      by_cases hkd : k = d
      · subst hkd; simp [hd, hi.1]
      · simp [hkd]
    · intro i hi
      simp only [Finset.mem_filter, mem_idxSet, validIdx_iff, List.length_set] at hi
      refine ext_getD0 (by simp) fun k hk => ?_
      simp only [getD_set0, List.length_set]
      by_cases hkd : k = d
      · subst hkd
        have := hi.2
        rw [if_pos ⟨rfl, hi.1.1 ▸ hd⟩, if_pos ⟨trivial, hi.1.1 ▸ hd⟩]; omega
      · simp [hkd]
    · intro i _; rfl

end CrypTen

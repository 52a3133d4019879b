import Verif.Spec.Broadcast
import Mathlib.Algebra.BigOperators.Ring.Finset
import Mathlib.Algebra.BigOperators.Group.List.Basic
import Mathlib.Data.List.Forall2
import Mathlib.Algebra.BigOperators.Group.Finset.Sigma
import Mathlib.Algebra.BigOperators.Ring.List
import Mathlib.Data.List.GetD
import Mathlib.Tactic.Ring

/-!
# C55: `_inverse_broadcast` is the adjoint of broadcasting
-/

namespace CrypTen
open Finset NdTensor
variable {R : Type} [CommSemiring R]

theorem mem_allIdx {s idx : List ℕ} : idx ∈ allIdx s ↔ ValidIdx s idx := by
  induction s generalizing idx with
  | nil => simp [allIdx, ValidIdx]
  | cons n s ih =>
    simp only [allIdx, List.mem_flatMap, List.mem_range, List.mem_map]
    constructor
    · rintro ⟨i, hi, l, hl, rfl⟩
      exact .cons hi (ih.1 hl)
    · intro h
      cases h with
      | cons h1 h2 => exact ⟨_, h1, _, ih.2 h2, rfl⟩

private theorem sumEntries_list (s : List ℕ) (f : List ℕ → R) : sumEntries s f = ((allIdx s).map f).sum := by
  induction s generalizing f with
  | nil => simp [sumEntries, allIdx]
  | cons n s ih =>
    rw [sumEntries, allIdx]
    induction n with
    | zero => simp
    | succ n ihn =>
      rw [Finset.sum_range_succ, ihn, List.range_succ, List.flatMap_append, List.map_append, List.sum_append, ih]
      simp [Function.comp_def]

private theorem inner_eq (s : List ℕ) (x y : List ℕ → R) : inner s x y = sumEntries s fun idx => x idx * y idx := (sumEntries_list s _).symm

private theorem sumEntries_congr {s : List ℕ} {f g : List ℕ → R} (h : ∀ idx, ValidIdx s idx → f idx = g idx) : sumEntries s f = sumEntries s g := by
  rw [sumEntries_list, sumEntries_list]
  congr 1
  exact List.map_congr_left fun idx hi => h idx (mem_allIdx.1 hi)

private theorem sumEntries_sum {ι : Type} (s : List ℕ) (S : Finset ι) (f : ι → List ℕ → R) : ∑ i ∈ S, sumEntries s (f i) = sumEntries s fun idx => ∑ i ∈ S, f i idx := by
  induction s generalizing f with
  | nil => rfl
  | cons n s ih =>
    simp only [sumEntries]
    rw [Finset.sum_comm]
    exact Finset.sum_congr rfl fun j _ => ih _

/-- removing a leading dimension -/
private theorem inner_sum0 (t : NdTensor R) (n : ℕ) (s : List ℕ) (ht : t.shape = n :: s) (y : List ℕ → R) :
    sumEntries t.shape (fun idx => t.data idx * y (idx.drop 1)) = sumEntries t.sum0.shape (fun idx => t.sum0.data idx * y idx) := by
  rw [ht, sumEntries, sumEntries_sum]
  simp only [sum0, ht, List.tail_cons, List.headD_cons, List.drop_succ_cons, List.drop_zero]
  congr 1
  funext idx
  rw [Finset.sum_mul]

private theorem removeLeading_adjoint : ∀ (k : ℕ) (t : NdTensor R) (y : List ℕ → R), k ≤ t.shape.length →
    (removeLeading k t).shape = t.shape.drop k
      ∧ sumEntries t.shape (fun idx => t.data idx * y (idx.drop k)) = sumEntries (removeLeading k t).shape (fun idx => (removeLeading k t).data idx * y idx) := by
  intro k
  induction k with
  | zero => intro t y _; simp [removeLeading]
  | succ k ih =>
    intro t y hk
    obtain ⟨n, s, hs⟩ : ∃ n s, t.shape = n :: s := by
      cases h : t.shape with
      | nil => rw [h] at hk; simp at hk
      | cons n s => exact ⟨n, s, rfl⟩
    have hs0 : t.sum0.shape = s := by simp [sum0, hs]
    obtain ⟨h1, h2⟩ := ih t.sum0 y (by rw [hs0]; rw [hs] at hk; simpa using hk)
    rw [removeLeading]
    refine ⟨by rw [h1, hs0, hs]; rfl, ?_⟩
    rw [← h2, ← inner_sum0 t n s hs fun idx => y (idx.drop k)]
    congr 1
    funext idx
    rw [List.drop_drop, Nat.add_comm]

/-- summing over a dimension the other factor does not depend on -/
private theorem inner_sumKeep : ∀ (d : ℕ) (s : List ℕ) (x y : List ℕ → R), d < s.length → (∀ idx i, y (idx.set d i) = y idx) →
    sumEntries s (fun idx => x idx * y idx) = sumEntries (s.set d 1) (fun idx => (∑ i ∈ range (s.getD d 0), x (idx.set d i)) * y idx) := by
  intro d
  induction d with
  | zero =>
    intro s x y hd hy
    cases s with
    | nil => simp at hd
    | cons n s =>
      simp only [List.set_cons_zero, sumEntries, List.getD_cons_zero, Finset.sum_range_one]
      rw [sumEntries_sum]
      congr 1
      funext idx
      rw [Finset.sum_mul]
      refine Finset.sum_congr rfl fun i _ => ?_
      rw [← hy (i :: idx) 0]; rfl
  | succ d ih =>
    intro s x y hd hy
    cases s with
    | nil => simp at hd
    | cons n s =>
      simp only [List.set_cons_succ, sumEntries, List.getD_cons_succ]
      refine Finset.sum_congr rfl fun j _ => ?_
      exact ih s (fun idx => x (j :: idx)) (fun idx => y (j :: idx)) (by simpa using hd) fun idx i => hy (j :: idx) i

private theorem stretchIdx_set (a idx : List ℕ) (d i : ℕ) (h : a.getD d 0 = 1) : stretchIdx a (idx.set d i) = stretchIdx a idx := by
  unfold stretchIdx
  induction d generalizing a idx with
  | zero =>
    cases a with
    | nil => simp
    | cons m a =>
      cases idx with
      | nil => simp
      | cons j idx =>
        have h : m = 1 := h
        simp [h]
  | succ d ih =>
    cases a with
    | nil => simp
    | cons m a =>
      cases idx with
      | nil => simp
      | cons j idx =>
        simp only [List.set_cons_succ, List.zipWith_cons_cons]
        rw [ih a idx h]

private theorem reduce_loop (a : List ℕ) (x : List ℕ → R) (k : ℕ) : ∀ (t : NdTensor R), k ≤ t.shape.length →
    ((List.range k).foldl (reduceDim a) t).shape.length = t.shape.length
      ∧ (∀ d, ((List.range k).foldl (reduceDim a) t).shape.getD d 0 = if d < k ∧ a.getD d 0 = 1 ∧ t.shape.getD d 0 > 1 then 1 else t.shape.getD d 0)
      ∧ sumEntries t.shape (fun idx => t.data idx * x (stretchIdx a idx))
        = sumEntries ((List.range k).foldl (reduceDim a) t).shape (fun idx => ((List.range k).foldl (reduceDim a) t).data idx * x (stretchIdx a idx)) := by
  induction k with
  | zero => intro t _; simp
  | succ k ih =>
    intro t hk
    obtain ⟨h1, h2, h3⟩ := ih t (by omega)
    rw [List.range_succ, List.foldl_append, List.foldl_cons, List.foldl_nil]
    obtain ⟨u, hu⟩ : ∃ u, (List.range k).foldl (reduceDim a) t = u := ⟨_, rfl⟩
    rw [hu] at h1 h2 h3 ⊢
    have hk' : u.shape.getD k 0 = t.shape.getD k 0 := by rw [h2]; simp
    unfold reduceDim
    by_cases hc : a.getD k 0 = 1 ∧ u.shape.getD k 0 > 1
    · rw [if_pos hc]
      refine ⟨by simp [sumKeep, h1], fun d => ?_, ?_⟩
      · simp only [sumKeep]
        by_cases hd : d = k
        · subst hd
          have : d < u.shape.length := by omega
          rw [hk'] at hc
          rw [if_pos ⟨by omega, hc⟩, List.getD_eq_getElem?_getD, List.getElem?_set_self this]; rfl
        · rw [List.getD_eq_getElem?_getD, List.getElem?_set_ne (Ne.symm hd), ← List.getD_eq_getElem?_getD, h2]
          have : d < k + 1 ↔ d < k := by omega
          simp only [this]
      · rw [h3]
        exact inner_sumKeep k u.shape u.data (fun idx => x (stretchIdx a idx)) (by omega) fun idx i => by rw [stretchIdx_set a idx k i hc.1]
    · rw [if_neg hc]
      refine ⟨h1, fun d => ?_, h3⟩
      rw [h2]
      by_cases hd : d = k
      · subst hd
        rw [hk'] at hc
        rw [if_neg (by omega), if_neg (fun h => hc h.2)]
      · have : d < k + 1 ↔ d < k := by omega
        simp only [this]

private theorem stretchIdx_valid {a idx : List ℕ} (h : ValidIdx a idx) : stretchIdx a idx = idx := by
  unfold stretchIdx
  induction h with
  | nil => rfl
  | cons h1 _ ih =>
    rw [List.zipWith_cons_cons, ih]
    congr 1
    split
    · omega
    · rfl

private theorem ext_getD {a b : List ℕ} (hl : a.length = b.length) (h : ∀ d, a.getD d 0 = b.getD d 0) : a = b := by
  refine List.ext_getElem hl fun d h1 h2 => ?_
  have := h d
  rwa [List.getD_eq_getElem _ _ h1, List.getD_eq_getElem _ _ h2] at this

private theorem stretches_getD {a b : List ℕ} (h : Stretches a b) : a.length = b.length ∧ ∀ d, a.getD d 0 = b.getD d 0 ∨ a.getD d 0 = 1 := by
  induction h with
  | nil => simp
  | cons h1 _ ih =>
    refine ⟨by simp [ih.1], fun d => ?_⟩
    cases d with
    | zero => simpa using h1
    | succ d => simpa using ih.2 d

/-- **C55.** Let `a` be a shape that broadcasts to the shape of the gradient, which has no empty dimension. Then `_inverse_broadcast` succeeds, the result has shape `a`, and it is the adjoint
of broadcasting: its inner product with any tensor of shape `a` is the inner product of the gradient with the broadcast tensor. -/
theorem C55_adjoint_partial (g : NdTensor R) (a : List ℕ) (h : BroadcastsTo a g.shape) (hpos : ∀ n ∈ g.shape, n ≠ 0) :
    ∃ r, inverseBroadcast g a = some r ∧ r.shape = a
      ∧ ∀ x : List ℕ → R, inner a r.data x = inner g.shape g.data (NdTensor.broadcast ⟨a, x⟩ g.shape).data := by
  unfold inverseBroadcast
  by_cases ha : a = []
  · subst ha
    rw [if_pos rfl]
    refine ⟨_, rfl, rfl, fun x => ?_⟩
    rw [inner_eq, inner_eq]
    have : ∀ idx : List ℕ, stretchIdx [] idx = [] := fun idx => by simp [stretchIdx]
    simp only [sumEntries, sumAll, NdTensor.broadcast, this]
    rw [sumEntries_list, sumEntries_list]
    rw [List.sum_map_mul_right]
  rw [if_neg ha]
  obtain ⟨hlen, hst⟩ := h
  obtain ⟨k, hk⟩ : ∃ k, g.shape.length - a.length = k := ⟨_, rfl⟩
  rw [hk] at hst ⊢
  obtain ⟨hs1, -⟩ := removeLeading_adjoint k g (fun _ => (0 : R)) (by omega)
  obtain ⟨hl, hget⟩ := stretches_getD hst
  obtain ⟨u, hu⟩ : ∃ u, removeLeading k g = u := ⟨_, rfl⟩
  rw [hu] at hs1
  have hul : u.shape.length = a.length := by rw [hs1, hl]
  simp only [hu]
  rw [if_pos hul]
  have hshape : ((List.range u.shape.length).foldl (reduceDim a) u).shape = a := by
    obtain ⟨h1, h2, -⟩ := reduce_loop a (fun _ => (0 : R)) u.shape.length u le_rfl
    refine ext_getD (by rw [h1, hul]) fun d => ?_
    rw [h2, hs1]
    by_cases hd : d < a.length
    swap
    · rw [if_neg (by rw [hs1] at hul; omega), List.getD_eq_default _ _ (by omega), List.getD_eq_default _ _ (by omega)]
    have hp : (g.shape.drop k).getD d 0 ≠ 0 := by
      have hd' : d < (g.shape.drop k).length := by omega
      rw [List.getD_eq_getElem _ _ hd']
      exact hpos _ (List.mem_of_mem_drop (List.getElem_mem hd'))
    rcases hget d with e | e
    · rw [e]; split <;> omega
    · rw [e]
      split <;> rename_i hc
      · rfl
      · by_contra hne
        exact hc ⟨by omega, rfl, by omega⟩
  refine ⟨_, rfl, hshape, fun x => ?_⟩
  obtain ⟨-, -, h3⟩ := reduce_loop a x u.shape.length u le_rfl
  obtain ⟨-, h4⟩ := removeLeading_adjoint k g (fun idx => x (stretchIdx a idx)) (by omega)
  rw [hu, h3, hshape] at h4
  rw [inner_eq, inner_eq]
  simp only [NdTensor.broadcast]
  rw [hk, h4]
  exact sumEntries_congr fun idx hi => by rw [stretchIdx_valid hi]

private theorem inner_single (s : List ℕ) (x : List ℕ → R) {i : List ℕ} (hi : ValidIdx s i) : inner s x (fun j => if j = i then 1 else 0) = x i := by
  rw [inner_eq]
  induction hi generalizing x with
  | nil => simp [sumEntries]
  | @cons n j s i h1 h2 ih =>
    rw [sumEntries, Finset.sum_eq_single j]
    · have := ih fun idx => x (j :: idx)
      simpa using this
    · intro b _ hb
      rw [sumEntries_list]
      refine List.sum_eq_zero fun y hy => ?_
      rw [List.mem_map] at hy
      obtain ⟨l, -, rfl⟩ := hy
      simp [hb]
    · intro hj
      exact absurd (Finset.mem_range.2 h1) hj

/-- **C55, entry by entry.** The entry `i` of the result is the sum of the gradient over exactly the entries that the broadcast copied from entry `i`. -/
theorem C55_entries_partial (g : NdTensor R) (a : List ℕ) (h : BroadcastsTo a g.shape) (hpos : ∀ n ∈ g.shape, n ≠ 0) :
    ∃ r, inverseBroadcast g a = some r ∧ r.shape = a
      ∧ ∀ i, ValidIdx a i → r.data i = (((allIdx g.shape).filter fun j => stretchIdx a (j.drop (g.shape.length - a.length)) = i).map g.data).sum := by
  obtain ⟨r, h1, h2, h3⟩ := C55_adjoint_partial g a h hpos
  refine ⟨r, h1, h2, fun i hi => ?_⟩
  have := h3 fun j => if j = i then 1 else 0
  rw [inner_single a r.data hi] at this
  rw [this, inner]
  simp only [NdTensor.broadcast]
  induction allIdx g.shape with
  | nil => rfl
  | cons j l ih =>
    rw [List.map_cons, List.sum_cons, ih, List.filter_cons]
    by_cases hj : stretchIdx a (j.drop (g.shape.length - a.length)) = i
    · simp [hj]
    · simp [hj]

/-- A gradient of shape 2×3×4 reduced to shape 3×1: the hypotheses hold, and each entry collects 8 entries. -/
example : BroadcastsTo [3, 1] [2, 3, 4] ∧ (∀ n ∈ [2, 3, 4], n ≠ 0)
    ∧ ((inverseBroadcast (⟨[2, 3, 4], fun _ => 1⟩ : NdTensor ℕ) [3, 1]).map fun r => (r.shape, r.data [2, 0])) = some ([3, 1], 8) := by
  refine ⟨⟨by simp, .cons (.inl rfl) (.cons (.inr rfl) .nil)⟩, by simp, by decide⟩

/-- **C55 fails for empty dimensions.** A tensor of shape 1 broadcasts to shape 0 (as in an addition with an empty tensor); the gradient that comes back has shape 0 instead of 1. -/
theorem C55_empty_wrong (f : List ℕ → R) : BroadcastsTo [1] [0] ∧ (inverseBroadcast ⟨[0], f⟩ [1]).map NdTensor.shape = some [0] := by
  refine ⟨⟨by simp, .cons (.inr rfl) .nil⟩, ?_⟩
  simp [inverseBroadcast, removeLeading, reduceDim]

end CrypTen

import Verif.Model.Shape
import Verif.Spec.ShapeGrad
import Verif.Lemmas.NdIdx

/-!
# Lemmas for the gradients of copying operations
-/

namespace CrypTen
namespace NdTensor

theorem normDim_lt {r : ℕ} {d : ℤ} {a : ℕ} (h : normDim r d = some a) : a < r := by
  unfold normDim at h
  split at h
  · rename_i hc
    simp only [Option.some.injEq] at h
    split at h <;> omega
  · simp at h

theorem normDim_nat {r a : ℕ} (h : a < r) : normDim r (a : ℤ) = some a := by
  unfold normDim
  rw [if_pos (by omega), if_neg (by omega)]
  simp

theorem normDim_nonneg {r : ℕ} {d : ℤ} {a : ℕ} (h : normDim r d = some a) (hd : 0 ≤ d) : d = a := by
  unfold normDim at h
  split at h
  · simp only [Option.some.injEq] at h
    split at h <;> omega
  · simp at h

/-- Row-major positions and indices correspond. -/
theorem flat_lt {s idx : List ℕ} (h : ValidIdx s idx) : flatIdx s idx < s.prod := by
  induction h with
  | nil => simp [flatIdx]
  | @cons n i s idx hi _ ih =>
    simp only [flatIdx, List.prod_cons]
    calc i * s.prod + flatIdx s idx < i * s.prod + s.prod := by omega
      _ = (i + 1) * s.prod := by ring
      _ ≤ n * s.prod := Nat.mul_le_mul_right _ hi

theorem unflat_flat {s idx : List ℕ} (h : ValidIdx s idx) : unflatIdx s (flatIdx s idx) = idx := by
  induction h with
  | nil => rfl
  | @cons n i s idx hi hv ih =>
    have hlt := flat_lt hv
    simp only [flatIdx, unflatIdx]
    have hp : 0 < s.prod := by omega
    rw [Nat.mul_comm i, Nat.mul_add_div hp, Nat.div_eq_of_lt hlt, Nat.mul_add_mod, Nat.mod_eq_of_lt hlt, ih]
    simp

theorem unflat_valid {s : List ℕ} {k : ℕ} (h : k < s.prod) : ValidIdx s (unflatIdx s k) := by
  induction s generalizing k with
  | nil => exact .nil
  | cons n s ih =>
    rw [List.prod_cons] at h
    have hp : 0 < s.prod := by
      rcases Nat.eq_zero_or_pos s.prod with h0 | h0
      · simp [h0] at h
      · exact h0
    exact .cons (Nat.div_lt_of_lt_mul (by rwa [Nat.mul_comm] at h)) (ih (Nat.mod_lt _ hp))

theorem flat_unflat {s : List ℕ} {k : ℕ} (h : k < s.prod) : flatIdx s (unflatIdx s k) = k := by
  induction s generalizing k with
  | nil => simp at h; simp [flatIdx, h]
  | cons n s ih =>
    rw [List.prod_cons] at h
    have hp : 0 < s.prod := by
      rcases Nat.eq_zero_or_pos s.prod with h0 | h0
      · simp [h0] at h
      · exact h0
    simp only [unflatIdx, flatIdx, ih (Nat.mod_lt _ hp)]
    rw [Nat.mul_comm]; exact Nat.div_add_mod k s.prod

end NdTensor

open NdTensor

variable {R C : Type} [CommRing R]

/-- An operation that copies entries along a partial map (other entries are a constant), with a backward function that copies back. -/
theorem isGradient_copy {fwd : NdTensor R → Option (NdTensor R × C)} {bwd : C → NdTensor R → Option (NdTensor R)}
    (h : ∀ x y c, fwd x = some (y, c) → ∃ (src src' : List ℕ → Option (List ℕ)) (v : R),
      (∀ x', x'.shape = x.shape → ∃ y', fwd x' = some (y', c) ∧ y'.shape = y.shape ∧ ∀ j, ValidIdx y.shape j → y'.data j = (src j).elim v x'.data)
      ∧ (∀ g, g.shape = y.shape → ∃ gx, bwd c g = some gx ∧ gx.shape = x.shape ∧ ∀ i, ValidIdx x.shape i → gx.data i = (src' i).elim 0 g.data)
      ∧ (∀ i j, ValidIdx x.shape i → ValidIdx y.shape j → (src j = some i ↔ src' i = some j))
      ∧ (∀ i j, ValidIdx y.shape j → src j = some i → ValidIdx x.shape i) ∧ (∀ i j, ValidIdx x.shape i → src' i = some j → ValidIdx y.shape j)) :
    IsGradient fwd bwd := by
  intro x y c g hf hg
  obtain ⟨src, src', v, h1, h2, h3, h4, h5⟩ := h x y c hf
  obtain ⟨gx, hb, hs, hd⟩ := h2 g hg
  refine ⟨gx, hb, hs, fun x' hx' => ?_⟩
  obtain ⟨y', hy', hys, hyd⟩ := h1 x' hx'
  obtain ⟨y0, hy0, _, hyd0⟩ := h1 x rfl
  rw [hf] at hy0
  obtain rfl : y = y0 := by simpa using hy0
  refine ⟨y', c, hy', hys, ?_⟩
  refine adjoint_copy x.shape y.shape src src' _ _ _ _ h3 h4 h5 (fun j hj => ?_) hd
  rw [hyd j hj, hyd0 j hj]
  cases src j <;> simp

/-- An operation that copies entries along a bijection of the indices. -/
theorem isGradient_bij {fwd : NdTensor R → Option (NdTensor R × C)} {bwd : C → NdTensor R → Option (NdTensor R)}
    (h : ∀ x y c, fwd x = some (y, c) → ∃ (φ ψ : List ℕ → List ℕ),
      (∀ x', x'.shape = x.shape → ∃ y', fwd x' = some (y', c) ∧ y'.shape = y.shape ∧ ∀ j, ValidIdx y.shape j → y'.data j = x'.data (φ j))
      ∧ (∀ g, g.shape = y.shape → ∃ gx, bwd c g = some gx ∧ gx.shape = x.shape ∧ ∀ i, ValidIdx x.shape i → gx.data i = g.data (ψ i))
      ∧ (∀ j, ValidIdx y.shape j → ValidIdx x.shape (φ j) ∧ ψ (φ j) = j) ∧ (∀ i, ValidIdx x.shape i → ValidIdx y.shape (ψ i) ∧ φ (ψ i) = i)) :
    IsGradient fwd bwd := by
  refine isGradient_copy fun x y c hf => ?_
  obtain ⟨φ, ψ, h1, h2, h3, h4⟩ := h x y c hf
  refine ⟨fun j => some (φ j), fun i => some (ψ i), 0, by simpa using h1, by simpa using h2, fun i j hi hj => ?_, ?_, ?_⟩
  · simp only [Option.some.injEq]
    constructor
    · rintro rfl; exact (h3 j hj).2
    · rintro rfl; exact (h4 i hi).2
  · intro i j hj hs
    cases hs; exact (h3 j hj).1
  · intro i j hi hs
    cases hs; exact (h4 i hi).1

end CrypTen

import Verif.Model.Conv
import Verif.Props.ShapeGrad2
import Mathlib.Algebra.BigOperators.Ring.Finset
import Mathlib.Algebra.BigOperators.Group.Finset.Sigma
import Mathlib.Tactic.Ring
import Mathlib.Tactic.Linarith

/-! # Lemmas about convolutions -/

namespace CrypTen
namespace Conv
open NdTensor ShapeGrad
variable {R : Type} [CommRing R]

theorem sum_idx_cons (n : ℕ) (s : List ℕ) (f : List ℕ → R) : ∑ i ∈ idxSet (n :: s), f i = ∑ a ∈ Finset.range n, ∑ i ∈ idxSet s, f (a :: i) := by
  rw [← sumEntries_eq_sum, sumEntries]
  exact Finset.sum_congr rfl fun a _ => sumEntries_eq_sum _ _

theorem sum_range_mul (a b : ℕ) (f : ℕ → R) : ∑ i ∈ Finset.range (a * b), f i = ∑ i ∈ Finset.range a, ∑ j ∈ Finset.range b, f (i * b + j) := by
  induction a with
  | zero => simp
  | succ a ih => rw [Nat.succ_mul, Finset.sum_range_add, ih, Finset.sum_range_succ]

theorem convSizes_length : ∀ {cs : List ConvDim} {ns ks os : List ℕ}, convSizes cs ns ks = some os → ns.length = cs.length ∧ ks.length = cs.length ∧ os.length = cs.length
  | [], [], [], os, h => by simp only [convSizes, Option.some.injEq] at h; subst h; simp
  | c :: cs, n :: ns, k :: ks, os, h => by
    rw [convSizes] at h
    split at h
    · cases hr : convSizes cs ns ks with
      | none => simp [hr] at h
      | some r =>
        simp only [hr, Option.map_some, Option.some.injEq] at h
        obtain ⟨h1, h2, h3⟩ := convSizes_length hr
        subst h; simp [h1, h2, h3]
    · simp at h
  | [], [], _ :: _, _, h => by simp [convSizes] at h
  | [], _ :: _, _, _, h => by simp [convSizes] at h
  | _ :: _, [], _, _, h => by simp [convSizes] at h
  | _ :: _, _ :: _, [], _, h => by simp [convSizes] at h

/-- A convolution's window, as a sum over the entries it hits. -/
theorem tap_elim : ∀ (cs : List ConvDim) (ns t u : List ℕ) (f : List ℕ → R), ns.length = cs.length → t.length = cs.length → u.length = cs.length →
    (tap cs ns t u).elim 0 f = ∑ i ∈ idxSet ns, if hits cs t u i then f i else 0
  | [], [], [], [], f, _, _, _ => by
    have : idxSet [] = {[]} := by ext k; simp [validIdx_nil]
    simp [tap, hits, this]
  | c :: cs, n :: ns, t :: ts, u :: us, f, h1, h2, h3 => by
    simp only [List.length_cons, Nat.add_right_cancel_iff] at h1 h2 h3
    have ih := fun f => tap_elim cs ns ts us f h1 h2 h3
    rw [sum_idx_cons]
    by_cases h : c.padding ≤ c.stride * t + c.dilation * u ∧ c.stride * t + c.dilation * u < n + c.padding
    · rw [tap, if_pos h, Finset.sum_eq_single (c.stride * t + c.dilation * u - c.padding)]
      · rw [show ∀ o : Option (List ℕ), (o.map fun r => (c.stride * t + c.dilation * u - c.padding) :: r).elim 0 f = o.elim 0 (fun r => f ((c.stride * t + c.dilation * u - c.padding) :: r)) by
          intro o; cases o <;> rfl, ih]
        refine Finset.sum_congr rfl fun i _ => ?_
        have : c.stride * t + c.dilation * u = c.stride * t + c.dilation * u - c.padding + c.padding := by omega
        simp [hits, ← this]
      · intro a _ ha
        refine Finset.sum_eq_zero fun i _ => ?_
        have : ¬ c.stride * t + c.dilation * u = a + c.padding := by omega
        simp [hits, this]
      · intro hn; exact absurd (Finset.mem_range.2 (by omega)) hn
    · rw [tap, if_neg h]
      refine (Finset.sum_eq_zero fun a ha => Finset.sum_eq_zero fun i _ => ?_).symm
      have ha' := Finset.mem_range.1 ha
      have : ¬ c.stride * t + c.dilation * u = a + c.padding := by omega
      simp [hits, this]
  | [], _ :: _, _, _, _, h, _, _ => by simp at h
  | [], [], _ :: _, _, _, _, h, _ => by simp at h
  | [], [], [], _ :: _, _, _, _, h => by simp at h
  | _ :: _, [], _, _, _, h, _, _ => by simp at h
  | _ :: _, _ :: _, [], _, _, _, h, _ => by simp at h
  | _ :: _, _ :: _, _ :: _, [], _, _, _, h => by simp at h

omit [CommRing R] in
theorem tap_swap : ∀ (cs : List ConvDim) (ns t u : List ℕ), ns.length = cs.length → t.length = cs.length → u.length = cs.length → tap (cs.map ConvDim.swap) ns u t = tap cs ns t u
  | [], [], [], [], _, _, _ => rfl
  | c :: cs, n :: ns, t :: ts, u :: us, h1, h2, h3 => by
    simp only [List.length_cons, Nat.add_right_cancel_iff] at h1 h2 h3
    simp only [List.map_cons, tap, tap_swap cs ns ts us h1 h2 h3, ConvDim.swap, Nat.add_comm (c.dilation * u)]
  | [], _ :: _, _, _, h, _, _ => by simp at h
  | [], [], _ :: _, _, _, h, _ => by simp at h
  | [], [], [], _ :: _, _, _, h => by simp at h
  | _ :: _, [], _, _, h, _, _ => by simp at h
  | _ :: _, _ :: _, [], _, _, h, _ => by simp at h
  | _ :: _, _ :: _, _ :: _, [], _, _, h => by simp at h

/-- The sizes of one dimension: `m = (a / s) + 1` windows. -/
theorem one_dim {a s m : ℕ} (hs : 1 ≤ s) (hm : m = a / s + 1) : (m - 1) * s ≤ a ∧ a < (m - 1) * s + s := by
  subst hm
  rw [Nat.add_sub_cancel]
  have := Nat.div_add_mod a s
  have := Nat.mod_lt a hs
  rw [Nat.mul_comm (a / s)]
  constructor <;> omega

/-- The output padding found by `_grad_input_padding` makes the transposed convolution return the size of the input. -/
theorem sizes_back : ∀ {cs : List ConvDim} {ns ks os : List ℕ}, convSizes cs ns ks = some os → ∃ ops, gradInputPadding cs os ns ks = some ops ∧ transSizes cs ops os ks = some ns
  | [], [], [], os, h => by simp only [convSizes, Option.some.injEq] at h; subst h; exact ⟨[], rfl, rfl⟩
  | c :: cs, n :: ns, k :: ks, os, h => by
    rw [convSizes] at h
    split at h
    · rename_i hc
      obtain ⟨hn, hk, hs, hd, hle⟩ := hc
      cases hr : convSizes cs ns ks with
      | none => simp [hr] at h
      | some r =>
        simp only [hr, Option.map_some, Option.some.injEq] at h
        subst h
        obtain ⟨ops, h1, h2⟩ := sizes_back hr
        obtain ⟨hb1, hb2⟩ := one_dim (a := n + 2 * c.padding - (c.dilation * (k - 1) + 1)) hs rfl
        generalize hm : (n + 2 * c.padding - (c.dilation * (k - 1) + 1)) / c.stride + 1 = m at *
        have hm1 : 1 ≤ m := by rw [← hm]; exact Nat.le_add_left _ _
        have e1 : ((m : ℤ) - 1) * c.stride = (((m - 1) * c.stride : ℕ) : ℤ) := by push_cast [Nat.cast_sub hm1]; ring
        have e2 : (c.dilation : ℤ) * ((k : ℤ) - 1) = ((c.dilation * (k - 1) : ℕ) : ℤ) := by push_cast [Nat.cast_sub hk]; ring
        have hmin : minSize c m k = (((m - 1) * c.stride : ℕ) : ℤ) - 2 * c.padding + 1 + ((c.dilation * (k - 1) : ℕ) : ℤ) := by rw [minSize, e1, e2]
        generalize hA : (m - 1) * c.stride = A at *
        generalize hD : c.dilation * (k - 1) = D at *
        refine ⟨((n : ℤ) - minSize c m k).toNat :: ops, ?_, ?_⟩
        · rw [gradInputPadding, if_neg (by omega), h1, Option.map_some]
        · have hop : ((n : ℤ) - minSize c m k).toNat = n + 2 * c.padding - (D + 1) - A := by omega
          rw [transSizes, hA, hD, if_pos ⟨hk, hs, hd, hm1, by omega, by rw [hop]; omega⟩, h2, Option.map_some, hop]
          congr 2; omega
    · simp at h
  | [], [], _ :: _, _, h => by simp [convSizes] at h
  | [], _ :: _, _, _, h => by simp [convSizes] at h
  | _ :: _, [], _, _, h => by simp [convSizes] at h
  | _ :: _, _ :: _, [], _, h => by simp [convSizes] at h

/-- With stride and dilation exchanged and the output as kernel there is room for the whole kernel. -/
theorem sizes_swap : ∀ {cs : List ConvDim} {ns ks os : List ℕ}, convSizes cs ns ks = some os → ∃ kk, convSizes (cs.map ConvDim.swap) ns os = some kk ∧ List.Forall₂ (· ≤ ·) ks kk
  | [], [], [], os, h => by simp only [convSizes, Option.some.injEq] at h; subst h; exact ⟨[], rfl, .nil⟩
  | c :: cs, n :: ns, k :: ks, os, h => by
    rw [convSizes] at h
    split at h
    · rename_i hc
      obtain ⟨hn, hk, hs, hd, hle⟩ := hc
      cases hr : convSizes cs ns ks with
      | none => simp [hr] at h
      | some r =>
        simp only [hr, Option.map_some, Option.some.injEq] at h
        subst h
        obtain ⟨kk, h1, h2⟩ := sizes_swap hr
        obtain ⟨hb1, hb2⟩ := one_dim (a := n + 2 * c.padding - (c.dilation * (k - 1) + 1)) hs rfl
        generalize hm : (n + 2 * c.padding - (c.dilation * (k - 1) + 1)) / c.stride + 1 = m at *
        have hm1 : 1 ≤ m := by rw [← hm]; exact Nat.le_add_left _ _
        refine ⟨((n + 2 * c.padding - (c.stride * (m - 1) + 1)) / c.dilation + 1) :: kk, ?_, .cons ?_ h2⟩
        · rw [List.map_cons, convSizes, if_pos, h1]
          · rfl
          · simp only [ConvDim.swap]
            rw [Nat.mul_comm c.stride]
            exact ⟨hn, hm1, hd, hs, by omega⟩
        · have : k - 1 ≤ (n + 2 * c.padding - (c.stride * (m - 1) + 1)) / c.dilation := by
            rw [Nat.le_div_iff_mul_le hd, Nat.mul_comm c.stride, Nat.mul_comm (k - 1)]
            omega
          omega
    · simp at h
  | [], [], _ :: _, _, h => by simp [convSizes] at h
  | [], _ :: _, _, _, h => by simp [convSizes] at h
  | _ :: _, [], _, _, h => by simp [convSizes] at h
  | _ :: _, _ :: _, [], _, h => by simp [convSizes] at h

end Conv
end CrypTen

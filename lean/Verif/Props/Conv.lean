import Verif.Lemmas.Conv2
import Verif.Model.Pool
import Mathlib.Algebra.Field.Basic
import Mathlib.Tactic.FieldSimp
import Mathlib.Algebra.BigOperators.Field

/-! # C63: gradients of convolutions and average pooling -/

namespace CrypTen
namespace Conv
open NdTensor ShapeGrad
variable {R : Type} [CommRing R]

/-- What an accepted convolution returns. -/
theorem conv_some {x k y : NdTensor R} {cs : List ConvDim} {G : ℕ} (h : conv x k cs G = some y) : ∃ B Cg O ns ks os, x.shape = B :: Cg * G :: ns ∧ k.shape = O :: Cg :: ks ∧ convSizes cs ns ks = some os ∧ 1 ≤ G ∧ 1 ≤ Cg ∧ 1 ≤ O ∧ O % G = 0
    ∧ y.shape = B :: O :: os ∧ ∀ x' k' : NdTensor R, x'.shape = x.shape → k'.shape = k.shape → ∃ y', conv x' k' cs G = some y' ∧ y'.shape = B :: O :: os
      ∧ ∀ b o t, y'.data (b :: o :: t) = ∑ c ∈ Finset.range Cg, ∑ u ∈ idxSet ks, (tap cs ns t u).elim 0 fun i => x'.data (b :: (o / (O / G) * Cg + c) :: i) * k'.data (o :: c :: u) := by
  unfold conv at h
  split at h
  · rename_i B C ns O Cg ks hx hk
    split at h
    · rename_i hc
      obtain ⟨h1, h2, h3, h4, h5⟩ := hc
      cases hs : convSizes cs ns ks with
      | none => simp [hs] at h
      | some os =>
        simp only [hs, Option.map_some, Option.some.injEq] at h
        refine ⟨B, Cg, O, ns, ks, os, by rw [hx, h2], hk, hs, h1, h3, h4, h5, by rw [← h], fun x' k' hx' hk' => ?_⟩
        unfold conv
        rw [hx', hk', hx, hk]
        simp only
        rw [if_pos ⟨h1, h2, h3, h4, h5⟩, hs, Option.map_some]
        exact ⟨_, rfl, rfl, fun b o t => by simp only [sumEntries_eq_sum]⟩
    · simp at h
  · simp at h

theorem inner3 (B C : ℕ) (ns : List ℕ) (a b : List ℕ → R) : inner (B :: C :: ns) a b = ∑ q ∈ Finset.range B, ∑ c ∈ Finset.range C, ∑ i ∈ idxSet ns, a (q :: c :: i) * b (q :: c :: i) := by
  rw [inner_eq_sum, sum_idx_cons]
  exact Finset.sum_congr rfl fun q _ => sum_idx_cons _ _ _

/-- Re-ordering of the sums in the gradient of the input. -/
theorem swap5 {α β γ δ ε : Type} (C : Finset α) (I : Finset β) (O : Finset γ) (T : Finset δ) (U : Finset ε) (F : α → β → γ → δ → ε → R) :
    ∑ c ∈ C, ∑ i ∈ I, ∑ o ∈ O, ∑ t ∈ T, ∑ u ∈ U, F c i o t u = ∑ o ∈ O, ∑ t ∈ T, ∑ c ∈ C, ∑ u ∈ U, ∑ i ∈ I, F c i o t u := by
  calc _ = ∑ c ∈ C, ∑ o ∈ O, ∑ i ∈ I, ∑ t ∈ T, ∑ u ∈ U, F c i o t u := Finset.sum_congr rfl fun c _ => Finset.sum_comm
    _ = ∑ o ∈ O, ∑ c ∈ C, ∑ i ∈ I, ∑ t ∈ T, ∑ u ∈ U, F c i o t u := Finset.sum_comm
    _ = _ := Finset.sum_congr rfl fun o _ => by
      calc _ = ∑ c ∈ C, ∑ t ∈ T, ∑ i ∈ I, ∑ u ∈ U, F c i o t u := Finset.sum_congr rfl fun c _ => Finset.sum_comm
        _ = ∑ t ∈ T, ∑ c ∈ C, ∑ i ∈ I, ∑ u ∈ U, F c i o t u := Finset.sum_comm
        _ = _ := Finset.sum_congr rfl fun t _ => Finset.sum_congr rfl fun c _ => Finset.sum_comm

/-- The transposed convolution is the transpose of the convolution with the same kernel. -/
theorem input_adjoint {cs : List ConvDim} {B Cg O G : ℕ} {ns ks os : List ℕ} (hs : convSizes cs ns ks = some os) (hG : 1 ≤ G) (hO : 1 ≤ O) (hOG : O % G = 0) (dx k g : List ℕ → R) :
    inner (B :: Cg * G :: ns) dx (fun
      | b :: c :: i => ∑ o ∈ Finset.range (O / G), sumEntries os fun t => sumEntries ks fun u =>
                if hits cs t u i then g (b :: (c / Cg * (O / G) + o) :: t) * k ((c / Cg * (O / G) + o) :: c % Cg :: u) else 0
      | _ => 0)
    = inner (B :: O :: os) (fun
      | b :: o :: t => ∑ c ∈ Finset.range Cg, ∑ u ∈ idxSet ks, (tap cs ns t u).elim 0 fun i => dx (b :: (o / (O / G) * Cg + c) :: i) * k (o :: c :: u)
      | _ => 0) g := by
  obtain ⟨l1, l2, l3⟩ := convSizes_length hs
  have hOG' : G * (O / G) = O := by rw [Nat.mul_comm]; exact Nat.div_mul_cancel (Nat.dvd_of_mod_eq_zero hOG)
  have hOg : 1 ≤ O / G := by
    rcases Nat.eq_zero_or_pos (O / G) with h | h
    · rw [h] at hOG'; omega
    · exact h
  rw [inner3, inner3]
  refine Finset.sum_congr rfl fun b _ => ?_
  rw [Nat.mul_comm Cg, sum_range_mul]
  rw [show Finset.range O = Finset.range (G * (O / G)) by rw [hOG'], sum_range_mul]
  refine Finset.sum_congr rfl fun γ _ => ?_
  have lhs : ∀ c ∈ Finset.range Cg, ∀ i ∈ idxSet ns, dx (b :: (γ * Cg + c) :: i) * (∑ o ∈ Finset.range (O / G), sumEntries os fun t => sumEntries ks fun u =>
                if hits cs t u i then g (b :: ((γ * Cg + c) / Cg * (O / G) + o) :: t) * k (((γ * Cg + c) / Cg * (O / G) + o) :: (γ * Cg + c) % Cg :: u) else 0)
      = ∑ o ∈ Finset.range (O / G), ∑ t ∈ idxSet os, ∑ u ∈ idxSet ks, if hits cs t u i then dx (b :: (γ * Cg + c) :: i) * k ((γ * (O / G) + o) :: c :: u) * g (b :: (γ * (O / G) + o) :: t) else 0 := by
    intro c hc i _
    have hc' := Finset.mem_range.1 hc
    have e1 : (γ * Cg + c) / Cg = γ := by rw [Nat.mul_comm, Nat.mul_add_div (by omega), Nat.div_eq_of_lt hc', Nat.add_zero]
    have e2 : (γ * Cg + c) % Cg = c := by rw [Nat.mul_comm, Nat.mul_add_mod, Nat.mod_eq_of_lt hc']
    rw [e1, e2, Finset.mul_sum]
    refine Finset.sum_congr rfl fun o _ => ?_
    rw [sumEntries_eq_sum, Finset.mul_sum]
    refine Finset.sum_congr rfl fun t _ => ?_
    rw [sumEntries_eq_sum, Finset.mul_sum]
    refine Finset.sum_congr rfl fun u _ => ?_
    split
    · ring
    · rw [mul_zero]
  have rhs : ∀ o ∈ Finset.range (O / G), ∀ t ∈ idxSet os, (∑ c ∈ Finset.range Cg, ∑ u ∈ idxSet ks, (tap cs ns t u).elim 0 fun i => dx (b :: ((γ * (O / G) + o) / (O / G) * Cg + c) :: i) * k ((γ * (O / G) + o) :: c :: u)) * g (b :: (γ * (O / G) + o) :: t)
      = ∑ c ∈ Finset.range Cg, ∑ u ∈ idxSet ks, ∑ i ∈ idxSet ns, if hits cs t u i then dx (b :: (γ * Cg + c) :: i) * k ((γ * (O / G) + o) :: c :: u) * g (b :: (γ * (O / G) + o) :: t) else 0 := by
    intro o ho t ht
    have e1 : (γ * (O / G) + o) / (O / G) = γ := by rw [Nat.mul_comm, Nat.mul_add_div hOg, Nat.div_eq_of_lt (Finset.mem_range.1 ho), Nat.add_zero]
    rw [e1, Finset.sum_mul]
    refine Finset.sum_congr rfl fun c _ => ?_
    rw [Finset.sum_mul]
    refine Finset.sum_congr rfl fun u hu => ?_
    rw [tap_elim cs ns t u _ l1 (by rw [(mem_idxSet.1 ht).length, l3]) (by rw [(mem_idxSet.1 hu).length, l2]), Finset.sum_mul]
    refine Finset.sum_congr rfl fun i _ => ?_
    split
    · rfl
    · rw [zero_mul]
  refine (Finset.sum_congr rfl fun c hc => Finset.sum_congr rfl (lhs c hc)).trans (Eq.trans ?_ (Finset.sum_congr rfl fun o ho => Finset.sum_congr rfl (rhs o ho)).symm)
  exact swap5 _ _ _ _ _ _

/-- Re-ordering of the sums in the gradient of the kernel. -/
theorem swap5' {α β γ δ ε : Type} (O : Finset α) (C : Finset β) (U : Finset γ) (B : Finset δ) (T : Finset ε) (F : α → β → γ → δ → ε → R) :
    ∑ o ∈ O, ∑ c ∈ C, ∑ u ∈ U, ∑ b ∈ B, ∑ t ∈ T, F o c u b t = ∑ b ∈ B, ∑ o ∈ O, ∑ t ∈ T, ∑ c ∈ C, ∑ u ∈ U, F o c u b t := by
  rw [Finset.sum_comm (s := B)]
  refine Finset.sum_congr rfl fun o _ => ?_
  rw [Finset.sum_comm' (s := B) (t := fun _ => T) (t' := T) (s' := fun _ => B) (by intros; tauto)]
  calc _ = ∑ c ∈ C, ∑ b ∈ B, ∑ u ∈ U, ∑ t ∈ T, F o c u b t := Finset.sum_congr rfl fun c _ => Finset.sum_comm
    _ = ∑ b ∈ B, ∑ c ∈ C, ∑ u ∈ U, ∑ t ∈ T, F o c u b t := Finset.sum_comm
    _ = ∑ b ∈ B, ∑ c ∈ C, ∑ t ∈ T, ∑ u ∈ U, F o c u b t := Finset.sum_congr rfl fun b _ => Finset.sum_congr rfl fun c _ => Finset.sum_comm
    _ = ∑ b ∈ B, ∑ t ∈ T, ∑ c ∈ C, ∑ u ∈ U, F o c u b t := Finset.sum_congr rfl fun b _ => Finset.sum_comm
    _ = _ := Finset.sum_comm

/-- The gradient functions of conv1d and conv2d. Whatever call the forward function accepts with a batch that is not empty, in one group or with one input channel per group: the backward function succeeds, returns gradients of the shapes of the input and of the kernel, and each is the transpose of the (linear) dependence of the output on that argument. -/
theorem C63_conv_partial (cs : List ConvDim) (groups : ℕ) (x k y g : NdTensor R) (c : Ctx R) (hf : convF cs groups x k = some (y, c)) (hg : g.shape = y.shape) (hB : x.shape.getD 0 0 ≠ 0) (hgr : groups = 1 ∨ k.shape.getD 1 0 = 1) :
    ∃ gx gk, convB c g = some (gx, gk) ∧ gx.shape = x.shape ∧ gk.shape = k.shape
      ∧ (∀ x' : NdTensor R, x'.shape = x.shape → ∃ y' c', convF cs groups x' k = some (y', c') ∧ y'.shape = y.shape
          ∧ inner x.shape (fun i => x'.data i - x.data i) gx.data = inner y.shape (fun j => y'.data j - y.data j) g.data)
      ∧ (∀ k' : NdTensor R, k'.shape = k.shape → ∃ y' c', convF cs groups x k' = some (y', c') ∧ y'.shape = y.shape
          ∧ inner k.shape (fun i => k'.data i - k.data i) gk.data = inner y.shape (fun j => y'.data j - y.data j) g.data) := by
  unfold convF at hf
  cases hc : conv x k cs groups with
  | none => simp [hc] at hf
  | some y0 =>
    simp only [hc, Option.map_some, Option.some.injEq, Prod.mk.injEq] at hf
    obtain ⟨rfl, rfl⟩ := hf
    obtain ⟨B, Cg, O, ns, ks, os, hx, hk, hs, hG, hCg, hO, hOG, hy, hall⟩ := conv_some hc
    obtain ⟨l1, l2, l3⟩ := convSizes_length hs
    obtain ⟨ops, hop, htr⟩ := sizes_back hs
    rw [hx, List.getD_cons_zero] at hB
    rw [hk, List.getD_cons_succ, List.getD_cons_zero] at hgr
    have hgs : g.shape = B :: O :: os := by rw [hg, hy]
    obtain ⟨gk, hgk1, hgk2, hgk3⟩ := gradKernel_spec (G := groups) hx hgs (Nat.pos_of_ne_zero hB) hCg hG hO rfl hOG hs
    have hct : ∃ gx, convTranspose g k cs ops groups = some gx ∧ gx.shape = B :: Cg * groups :: ns ∧ gx.data = fun
      | b :: c :: i => ∑ o ∈ Finset.range (O / groups), sumEntries os fun t => sumEntries ks fun u =>
                if hits cs t u i then g.data (b :: (c / Cg * (O / groups) + o) :: t) * k.data ((c / Cg * (O / groups) + o) :: c % Cg :: u) else 0
      | _ => 0 := by
      unfold convTranspose
      rw [hgs, hk]
      simp only
      rw [if_pos ⟨hG, trivial, hCg, hO, hOG⟩, htr, Option.map_some]
      exact ⟨_, rfl, rfl, rfl⟩
    obtain ⟨gx, hgx1, hgx2, hgx3⟩ := hct
    obtain ⟨y1, hy1, _, hyd⟩ := hall x k rfl rfl
    rw [hc] at hy1
    obtain rfl := Option.some.inj hy1
    refine ⟨gx, gk, ?_, by rw [hgx2, hx], by rw [hgk2, hk], fun x' hx' => ?_, fun k' hk' => ?_⟩
    · unfold convB
      simp only [hx, hk, hgs]
      rw [if_pos ⟨trivial, trivial, trivial⟩, if_neg, hop, Nat.mul_div_cancel _ hG]
      · simp only [Option.bind_eq_bind, Option.bind_some, hgx1, hgk1, Option.pure_def]
      · rintro ⟨h1, h2⟩
        rcases hgr with h | h
        · omega
        · rw [h] at h2; omega
    · obtain ⟨y', h1, h2, h3⟩ := hall x' k hx' rfl
      refine ⟨y', ⟨x', k, cs, groups⟩, by simp [convF, h1], by rw [h2, hy], ?_⟩
      rw [hgx3, hx, hy, input_adjoint hs hG hO hOG, inner3, inner3]
      refine Finset.sum_congr rfl fun b _ => Finset.sum_congr rfl fun o _ => Finset.sum_congr rfl fun t _ => ?_
      simp only [h3, hyd]
      rw [← Finset.sum_sub_distrib]
      congr 1
      refine Finset.sum_congr rfl fun c _ => ?_
      rw [← Finset.sum_sub_distrib]
      refine Finset.sum_congr rfl fun u _ => ?_
      cases tap cs ns t u with
      | none => simp
      | some i => simp only [Option.elim_some]; ring
    · obtain ⟨y', h1, h2, h3⟩ := hall x k' rfl hk'
      refine ⟨y', ⟨x, k', cs, groups⟩, by simp [convF, h1], by rw [h2, hy], ?_⟩
      rw [hk, hy, inner3, inner3]
      have lhs : ∀ o ∈ Finset.range O, ∀ c ∈ Finset.range Cg, ∀ u ∈ idxSet ks, (k'.data (o :: c :: u) - k.data (o :: c :: u)) * gk.data (o :: c :: u)
          = ∑ b ∈ Finset.range B, ∑ t ∈ idxSet os, (tap cs ns t u).elim 0 (fun i => x.data (b :: (o / (O / groups) * Cg + c) :: i)) * (k'.data (o :: c :: u) - k.data (o :: c :: u)) * g.data (b :: o :: t) := by
        intro o ho c hc u hu
        have ho' := Finset.mem_range.1 ho
        have hc' := Finset.mem_range.1 hc
        have hch : c * groups + o / (O / groups) = o / (O / groups) * Cg + c := by
          rcases hgr with h | h
          · subst h; rw [Nat.div_one, Nat.div_eq_of_lt ho']; omega
          · subst h; rw [show c = 0 by omega]; omega
        rw [hgk3 o c u ho' hc' (mem_idxSet.1 hu), hch, Finset.mul_sum]
        refine Finset.sum_congr rfl fun b _ => ?_
        rw [Finset.mul_sum]
        exact Finset.sum_congr rfl fun t _ => by ring
      rw [Finset.sum_congr rfl fun o ho => Finset.sum_congr rfl fun c hc => Finset.sum_congr rfl (lhs o ho c hc), swap5']
      refine Finset.sum_congr rfl fun b _ => Finset.sum_congr rfl fun o _ => Finset.sum_congr rfl fun t _ => ?_
      rw [h3, hyd, ← Finset.sum_sub_distrib, Finset.sum_mul]
      refine Finset.sum_congr rfl fun c _ => ?_
      rw [← Finset.sum_sub_distrib, Finset.sum_mul]
      refine Finset.sum_congr rfl fun u _ => ?_
      cases tap cs ns t u with
      | none => simp
      | some i => simp only [Option.elim_some]; ring

/-- A concrete case: a vector of four padded by one, kernel of two entries, stride 2. The forward result, and both gradients. -/
example : ((convF [⟨2, 1, 1⟩] 1 (⟨[1, 1, 4], fun i => (i.getD 2 0 : ℤ) + 1⟩ : NdTensor ℤ) ⟨[1, 1, 2], fun i => 10 * (i.getD 2 0 : ℤ) + 1⟩).map fun r => (r.1.shape, (List.range 3).map fun t => r.1.data [0, 0, t]))
      = some ([1, 1, 3], [11, 35, 4])
    ∧ ((convB ⟨⟨[1, 1, 4], fun i => (i.getD 2 0 : ℤ) + 1⟩, ⟨[1, 1, 2], fun i => 10 * (i.getD 2 0 : ℤ) + 1⟩, [⟨2, 1, 1⟩], 1⟩ (⟨[1, 1, 3], fun i => (i.getD 2 0 : ℤ) + 1⟩ : NdTensor ℤ)).map
        fun r => (r.1.shape, (List.range 4).map fun t => r.1.data [0, 0, t], r.2.shape, (List.range 2).map fun u => r.2.data [0, 0, u])) = some ([1, 1, 4], [11, 2, 22, 3], [1, 1, 2], [16, 7]) := by
  decide +kernel

/-- Other groupings are refused: with several groups of several channels the backward function raises for every call the forward function accepts. -/
theorem C63_conv_groups_wrong (cs : List ConvDim) (groups : ℕ) (x k y g : NdTensor R) (c : Ctx R) (hf : convF cs groups x k = some (y, c)) (h1 : groups ≠ 1) (h2 : k.shape.getD 1 0 ≠ 1) : convB c g = none := by
  unfold convF at hf
  cases hc : conv x k cs groups with
  | none => simp [hc] at hf
  | some y0 =>
    simp only [hc, Option.map_some, Option.some.injEq, Prod.mk.injEq] at hf
    obtain ⟨rfl, rfl⟩ := hf
    obtain ⟨B, Cg, O, ns, ks, os, hx, hk, hs, hG, hCg, hO, hOG, hy, hall⟩ := conv_some hc
    rw [hk, List.getD_cons_succ, List.getD_cons_zero] at h2
    unfold convB
    simp only [hx, hk]
    split
    · split
      · rw [if_pos]
        rename_i hx' _ _ _
        have : Cg * groups ≥ 2 * groups := Nat.mul_le_mul_right _ (by omega)
        simp only [List.cons.injEq] at hx'
        obtain ⟨-, rfl, -⟩ := hx'
        exact ⟨by omega, by omega⟩
      · rfl
    · rfl

/-- An empty batch is accepted by the forward function; the backward function raises. -/
theorem C63_conv_empty_batch_wrong (cs : List ConvDim) (groups : ℕ) (x k y g : NdTensor R) (c : Ctx R) (hf : convF cs groups x k = some (y, c)) (h0 : x.shape.getD 0 0 = 0) : convB c g = none := by
  have key : ∀ (C O r : ℕ) (ks : List ℕ), gradKernel x g cs 0 C O r ks = none := by
    intro C O r ks
    have hconv : ∀ a b : NdTensor R, conv a b (cs.map ConvDim.swap) (C * 0) = none := by
      intro a b
      unfold conv
      split
      · rw [if_neg (by simp)]
      · rfl
    simp only [gradKernel, hconv, Option.bind_eq_bind, Option.bind_none]
    simp
  unfold convF at hf
  cases hc : conv x k cs groups with
  | none => simp [hc] at hf
  | some y0 =>
    simp only [hc, Option.map_some, Option.some.injEq, Prod.mk.injEq] at hf
    obtain ⟨rfl, rfl⟩ := hf
    obtain ⟨B, Cg, O, ns, ks, os, hx, hk, hs, hG, hCg, hO, hOG, hy, hall⟩ := conv_some hc
    rw [hx, List.getD_cons_zero] at h0
    subst h0
    unfold convB
    simp only [hx, hk]
    split
    · rename_i e1 e2 e3
      simp only [List.cons.injEq] at e1
      obtain ⟨rfl, -⟩ := e1
      split
      · split
        · rfl
        · simp [key]
      · rfl
    · rfl

example : (convF [⟨1, 0, 1⟩] 1 (⟨[0, 1, 4], fun _ => (0 : ℤ)⟩ : NdTensor ℤ) ⟨[1, 1, 2], fun _ => 1⟩).isSome ∧ (convF [⟨1, 0, 1⟩] 2 (⟨[1, 4, 4], fun _ => (0 : ℤ)⟩ : NdTensor ℤ) ⟨[2, 2, 2], fun _ => 1⟩).isSome := by
  decide +kernel

section
variable {K : Type} [Field K]

/-- Average pooling of inputs with a batch dimension: the gradient function is the transpose of the pooling, for every kernel size, stride and padding. -/
theorem C63_avg_pool (ks : List ℕ) (stride : Option (List ℕ)) (padding : List ℕ) (ceilMode : Bool) : IsGradient (avgPoolF (K := K) ks stride padding ceilMode) avgPoolB := by
  intro x y c g hf hg
  have hall : ∃ B C ns os, x.shape = B :: C :: ns ∧ 1 ≤ C ∧ convSizes (poolDims (stride.getD ks) padding) ns ks = some os ∧ c = (x.shape, ks, padding, stride.getD ks) ∧ y.shape = B :: C :: os
      ∧ ∀ x' : NdTensor K, x'.shape = x.shape → ∃ y', avgPoolF ks stride padding ceilMode x' = some (y', c) ∧ y'.shape = B :: C :: os
        ∧ ∀ b c t, y'.data (b :: c :: t) = (∑ u ∈ idxSet ks, (tap (poolDims (stride.getD ks) padding) ns t u).elim 0 fun i => x'.data (b :: c :: i)) / (ks.prod : K) := by
    unfold avgPoolF avgPool at hf
    split at hf
    · rename_i B C ns hx
      split at hf
      · rename_i hc
        cases hs : convSizes (poolDims (stride.getD ks) padding) ns ks with
        | none => simp [hs] at hf
        | some os =>
          simp only [hs, Option.map_some, Option.some.injEq, Prod.mk.injEq] at hf
          obtain ⟨rfl, rfl⟩ := hf
          refine ⟨B, C, ns, os, hx, hc.1, hs, rfl, rfl, fun x' hx' => ?_⟩
          unfold avgPoolF avgPool
          rw [hx', hx]
          simp only
          rw [if_pos hc, hs, Option.map_some, Option.map_some]
          exact ⟨_, rfl, rfl, fun b c t => by simp only [sumEntries_eq_sum]⟩
      · simp at hf
    · simp at hf
  obtain ⟨B, C, ns, os, hx, hC, hs, rfl, hy, hall⟩ := hall
  obtain ⟨ops, hop, htr⟩ := sizes_back hs
  obtain ⟨y1, hy1, _, hyd⟩ := hall x rfl
  rw [hf] at hy1
  obtain rfl : y = y1 := by simpa using hy1
  have hgs : g.shape = B :: C :: os := by rw [hg, hy]
  have hCC : C / C = 1 := Nat.div_self hC
  obtain ⟨gx, hgx1, hgx2, hgx3⟩ : ∃ gx, avgPoolB (x.shape, ks, padding, stride.getD ks) g = some gx ∧ gx.shape = B :: 1 * C :: ns ∧ gx.data = fun
      | b :: c :: i => ∑ o ∈ Finset.range (C / C), sumEntries os fun t => sumEntries ks fun u =>
                if hits (poolDims (stride.getD ks) padding) t u i then g.data (b :: (c / 1 * (C / C) + o) :: t) * (avgKernel C ks : NdTensor K).data ((c / 1 * (C / C) + o) :: c % 1 :: u) else 0
      | _ => 0 := by
    unfold avgPoolB
    simp only [hx, hgs, hop, Option.bind_eq_bind, Option.bind_some]
    unfold convTranspose
    simp only [hgs, avgKernel]
    rw [if_pos ⟨hC, trivial, le_refl 1, hC, Nat.mod_self C⟩, htr, Option.map_some]
    exact ⟨_, rfl, rfl, rfl⟩
  refine ⟨gx, hgx1, by rw [hgx2, hx, Nat.one_mul], fun x' hx' => ?_⟩
  obtain ⟨y', h1, h2, h3⟩ := hall x' hx'
  refine ⟨y', _, h1, by rw [h2, hy], ?_⟩
  have := input_adjoint (B := B) (Cg := 1) (G := C) (O := C) hs hC hC (Nat.mod_self C) (fun i => x'.data i - x.data i) (avgKernel C ks : NdTensor K).data g.data
  rw [Nat.one_mul] at this
  rw [hgx3, hx, this, hy, inner3, inner3]
  refine Finset.sum_congr rfl fun b _ => Finset.sum_congr rfl fun o _ => Finset.sum_congr rfl fun t _ => ?_
  simp only [h3, hyd, hCC, Nat.div_one, Finset.sum_range_one, Nat.mul_one, Nat.add_zero]
  rw [← sub_div, ← Finset.sum_sub_distrib, Finset.sum_div]
  congr 1
  refine Finset.sum_congr rfl fun u _ => ?_
  cases tap (poolDims (stride.getD ks) padding) ns t u with
  | none => simp
  | some i => simp only [Option.elim_some, avgKernel]; ring

/-- A concrete case: windows of two with stride 2 over a height of five and a width of four. -/
example : ((avgPoolF [2, 2] none [0, 0] false (⟨[1, 1, 5, 4], fun i => (i.getD 2 0 : ℚ)⟩ : NdTensor ℚ)).map fun r => (r.1.shape, r.1.data [0, 0, 1, 1])) = some ([1, 1, 2, 2], 5 / 2)
    ∧ ((avgPoolB ([1, 1, 5, 4], [2, 2], [0, 0], [2, 2]) (⟨[1, 1, 2, 2], fun _ => (1 : ℚ)⟩ : NdTensor ℚ)).map fun r => (r.shape, r.data [0, 0, 3, 3], r.data [0, 0, 4, 3])) = some ([1, 1, 5, 4], 1 / 4, 0) := by
  decide +kernel

/-- Without a batch dimension the gradient may have another shape than the input: for an input of one channel, height five and width four it has height four. -/
theorem C63_avg_pool_unbatched_wrong (g : NdTensor K) (hg : g.shape = [1, 2, 2]) : (avgPoolB3 ([1, 5, 4], [2, 2], [0, 0], [2, 2]) g).map NdTensor.shape = some [1, 4, 4] := by
  unfold avgPoolB3
  simp only [hg]
  simp [poolDims, gradInputPadding, minSize, convTranspose, avgKernel, transSizes]

/-- With gradients enabled `ceil_mode=True` is ignored: windows of two with stride 2 over five entries give two outputs, where `ceil_mode` asks for three (`C48_shape_ceil`). -/
theorem C63_avg_pool_ceil_wrong (x : NdTensor K) (hx : x.shape = [1, 1, 5, 5]) : (avgPoolF [2, 2] none [0, 0] true x).map (fun r => r.1.shape) = some [1, 1, 2, 2] ∧ poolOutShape 5 2 0 0 2 1 true = 3 := by
  refine ⟨?_, by decide⟩
  unfold avgPoolF avgPool
  rw [hx]
  simp [poolDims, convSizes]
end

end Conv
end CrypTen

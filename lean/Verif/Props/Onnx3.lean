import Verif.Props.Onnx2
import Verif.Lemmas.Conv
import Verif.Props.Logic

/-!
# C66: layers imported from ONNX — global pooling, convolution, pooling, clipping, matrix products
-/

namespace CrypTen
namespace Onnx
open NdTensor ShapeGrad OnnxSpec
variable {R : Type}

/-! ## GlobalAveragePool -/

theorem zeroAt_range_drop (b c r : ℕ) (i : List ℕ) (hi : i.length + 2 = r) : zeroAt ((List.range r).drop 2) (b :: c :: i) = b :: c :: List.replicate i.length 0 := by
  have hm : ∀ d, d ∈ (List.range r).drop 2 ↔ 2 ≤ d ∧ d < r := fun d => by
    rw [List.mem_iff_getElem]
    constructor
    · rintro ⟨k, hk, rfl⟩
      simp only [List.length_drop, List.length_range] at hk
      simp only [List.getElem_drop, List.getElem_range]
      omega
    · rintro ⟨h1, h2⟩
      exact ⟨d - 2, by simp; omega, by simp; omega⟩
  refine ext_getD0 (by simp [zeroAt]) fun m hm' => ?_
  have hlt : m < (b :: c :: i).length := by simpa [zeroAt] using hm'
  rw [zeroAt, getD_mapIdx _ _ hlt]
  match m, hlt with
  | 0, _ => rw [if_neg (by rw [hm]; omega)]; rfl
  | 1, _ => rw [if_neg (by rw [hm]; omega)]; rfl
  | m + 2, hlt =>
    simp only [List.length_cons] at hlt
    rw [if_pos ((hm _).2 ⟨by omega, by omega⟩)]
    simp only [List.getD_cons_succ]
    rw [List.getD_eq_getElem _ _ (by simp; omega), List.getElem_replicate]

/-- C66 (`GlobalAveragePool`): for every tensor with at least three dimensions, none of them empty, the result holds the means over all dimensions from the third on. -/
theorem C66_globalAveragePool [Field R] (x : NdTensor R) (h : 2 < x.shape.length) (hpos : ∀ n ∈ x.shape, 0 < n) : ∃ y, globalAveragePool x = some y ∧ IsGlobalAveragePool x y := by
  obtain ⟨B, C, ns, hs⟩ : ∃ B C ns, x.shape = B :: C :: ns := by
    match hx : x.shape with
    | [] => simp [hx] at h
    | [_] => simp [hx] at h
    | B :: C :: ns => exact ⟨B, C, ns, rfl⟩
  have hB : 0 < B := hpos B (by simp [hs])
  have hC : 0 < C := hpos C (by simp [hs])
  have hf := fold_sumKeep x ((List.range x.shape.length).drop 2) fun d hd => List.mem_range.1 (List.mem_of_mem_drop hd)
  have hsh : (gapSum x).shape = B :: C :: List.replicate ns.length 1 := by
    rw [gapSum, hf.1, hs]
    refine ext_getD0 (by simp) fun m hm => ?_
    have hlt : m < (B :: C :: ns).length := by simpa using hm
    have hmem : ∀ d, d ∈ (List.range (B :: C :: ns).length).drop 2 → 2 ≤ d := fun d hd => by
      obtain ⟨k, hk, rfl⟩ := List.mem_iff_getElem.1 hd
      simp [List.getElem_drop]
    rw [getD_mapIdx _ _ hlt]
    match m, hlt with
    | 0, _ => rw [if_neg (fun hc => by have := hmem _ hc; omega)]; rfl
    | 1, _ => rw [if_neg (fun hc => by have := hmem _ hc; omega)]; rfl
    | m + 2, hlt =>
      simp only [List.length_cons] at hlt
      rw [if_pos]
      · simp only [List.getD_cons_succ]
        rw [List.getD_eq_getElem _ _ (by simp; omega), List.getElem_replicate]
      · rw [List.mem_iff_getElem]
        exact ⟨m, by simp; omega, by simp; omega⟩
  refine ⟨_, by rw [globalAveragePool, if_pos h, if_neg (by rw [hs]; simp; omega)], ?_, fun b c hb hc => ?_⟩
  · show (gapSum x).shape = _
    rw [hsh, hs]; simp
  · simp only [hs, List.length_cons, List.getD_cons_zero, List.getD_cons_succ, List.drop_succ_cons, List.drop_zero, List.prod_cons] at hb hc ⊢
    rw [show ns.length + 1 + 1 - 2 = ns.length by omega]
    congr 1
    · rw [gapSum, hf.2]
      · rw [hs, Conv.sum_idx_cons, Finset.sum_eq_single b, Conv.sum_idx_cons, Finset.sum_eq_single c]
        · rw [← List.sum_toFinset _ (nodup_allIdx ns)]
          refine Finset.sum_congr rfl fun i hi => ?_
          have hl : i.length = ns.length := (mem_allIdx_iff.1 (List.mem_toFinset.1 hi)).length
          rw [zeroAt_range_drop b c _ i (by simp [hl]), if_pos (by rw [hl])]
        · intro c' _ hne
          refine Finset.sum_eq_zero fun i hi => ?_
          have hl : i.length = ns.length := (mem_allIdx_iff.1 (List.mem_toFinset.1 hi)).length
          rw [zeroAt_range_drop b c' _ i (by simp [hl]), if_neg]
          simpa using fun h => absurd h hne
        · intro hn; exact absurd (Finset.mem_range.2 hc) hn
        · intro b' _ hne
          rw [Conv.sum_idx_cons]
          refine Finset.sum_eq_zero fun c' _ => Finset.sum_eq_zero fun i hi => ?_
          have hl : i.length = ns.length := (mem_allIdx_iff.1 (List.mem_toFinset.1 hi)).length
          rw [zeroAt_range_drop b' c' _ i (by simp [hl]), if_neg]
          simpa using fun h => absurd h hne
        · intro hn; exact absurd (Finset.mem_range.2 hb) hn
      · show ValidIdx (gapSum x).shape _
        rw [hsh]
        refine .cons hb (.cons hc (List.forall₂_iff_get.2 ⟨by simp, fun k k1 k2 => by simp⟩))
    · rw [← Nat.mul_assoc, Nat.mul_div_cancel_left _ (Nat.mul_pos hB hC)]

example : ∃ y, globalAveragePool (⟨[1, 1, 2, 2], fun i => (i.getD 2 0 * 2 + i.getD 3 0 : ℕ)⟩ : NdTensor ℚ) = some y ∧ y.shape = [1, 1, 1, 1] ∧ y.data [0, 0, 0, 0] = 3 / 2 := by
  refine ⟨_, rfl, rfl, ?_⟩
  show ((∑ a ∈ Finset.range 2, ∑ b ∈ Finset.range 2, ((b * 2 + a : ℕ) : ℚ)) / ((4 / (1 * 1) : ℕ) : ℚ)) = 3 / 2
  simp [Finset.sum_range_succ]; norm_num

/-! ## Conv -/

theorem zipDims_some : ∀ (r : ℕ) (ss ps ds : List ℕ), ss.length = r → ps.length = r → ds.length = r →
    ∃ cs, zipDims ss ps ds = some cs ∧ cs.map ConvDim.stride = ss ∧ cs.map ConvDim.padding = ps ∧ cs.map ConvDim.dilation = ds := by
  intro r
  induction r with
  | zero =>
    intro ss ps ds h1 h2 h3
    rw [List.length_eq_zero_iff.1 h1, List.length_eq_zero_iff.1 h2, List.length_eq_zero_iff.1 h3]
    exact ⟨[], rfl, rfl, rfl, rfl⟩
  | succ r ih =>
    intro ss ps ds h1 h2 h3
    match ss, ps, ds, h1, h2, h3 with
    | s :: ss, p :: ps, d :: ds, h1, h2, h3 =>
      obtain ⟨cs, q1, q2, q3, q4⟩ := ih ss ps ds (by simpa using h1) (by simpa using h2) (by simpa using h3)
      exact ⟨⟨s, p, d⟩ :: cs, by simp [zipDims, q1], by simp [q2], by simp [q3], by simp [q4]⟩

theorem everySecond_getD : ∀ (r : ℕ) (ps : List ℕ), ps.length = 2 * r → (everySecond ps).length = r ∧ ∀ k < r, (everySecond ps).getD k 0 = ps.getD (2 * k) 0 := by
  intro r
  induction r with
  | zero =>
    intro ps h
    rw [List.length_eq_zero_iff.1 (by omega : ps.length = 0)]
    exact ⟨rfl, by simp⟩
  | succ r ih =>
    intro ps h
    match ps, h with
    | a :: b :: l, h =>
      obtain ⟨h1, h2⟩ := ih l (by simp at h; omega)
      refine ⟨by simp [everySecond, h1], fun k hk => ?_⟩
      cases k with
      | zero => rfl
      | succ k => rw [everySecond, List.getD_cons_succ, h2 k (by omega), show 2 * (k + 1) = 2 * k + 1 + 1 by omega, List.getD_cons_succ, List.getD_cons_succ]

/-- Position `d` of kernel entry `u` at output position `t`. -/
def posAt (cs : List ConvDim) (t u : List ℕ) (d : ℕ) : ℕ := (cs.map ConvDim.stride).getD d 0 * t.getD d 0 + (cs.map ConvDim.dilation).getD d 0 * u.getD d 0

theorem tap_padded [Zero R] : ∀ (cs : List ConvDim) (ns t u : List ℕ) (f : List ℕ → R), ns.length = cs.length → t.length = cs.length → u.length = cs.length →
    (Conv.tap cs ns t u).elim 0 f = if ∀ d < cs.length, (cs.map ConvDim.padding).getD d 0 ≤ posAt cs t u d ∧ posAt cs t u d - (cs.map ConvDim.padding).getD d 0 < ns.getD d 0 then
      f ((List.range cs.length).map fun d => posAt cs t u d - (cs.map ConvDim.padding).getD d 0) else 0
  | [], ns, t, u, f, h1, h2, h3 => by
    rw [List.length_eq_zero_iff.1 h1, List.length_eq_zero_iff.1 h2, List.length_eq_zero_iff.1 h3]
    rw [if_pos (by simp)]
    rfl
  | c :: cs, n :: ns, t :: ts, u :: us, f, h1, h2, h3 => by
    simp only [List.length_cons, Nat.add_right_cancel_iff] at h1 h2 h3
    have ih := fun f => tap_padded cs ns ts us f h1 h2 h3
    have p0 : posAt (c :: cs) (t :: ts) (u :: us) 0 = c.stride * t + c.dilation * u := rfl
    have p1 : ∀ d, posAt (c :: cs) (t :: ts) (u :: us) (d + 1) = posAt cs ts us d := fun d => by simp [posAt]
    have hc : (∀ d < (c :: cs).length, ((c :: cs).map ConvDim.padding).getD d 0 ≤ posAt (c :: cs) (t :: ts) (u :: us) d ∧ posAt (c :: cs) (t :: ts) (u :: us) d - ((c :: cs).map ConvDim.padding).getD d 0 < (n :: ns).getD d 0)
        ↔ (c.padding ≤ c.stride * t + c.dilation * u ∧ c.stride * t + c.dilation * u < n + c.padding) ∧ ∀ d < cs.length, (cs.map ConvDim.padding).getD d 0 ≤ posAt cs ts us d ∧ posAt cs ts us d - (cs.map ConvDim.padding).getD d 0 < ns.getD d 0 := by
      constructor
      · intro h
        refine ⟨?_, fun d hd => ?_⟩
        · have := h 0 (by simp)
          rw [p0] at this
          simp only [List.map_cons, List.getD_cons_zero] at this
          omega
        · have := h (d + 1) (by simp; omega)
          rw [p1] at this
          simpa using this
      · rintro ⟨h1, h2⟩ d hd
        cases d with
        | zero => rw [p0]; simp only [List.map_cons, List.getD_cons_zero]; omega
        | succ d => rw [p1]; simpa using h2 d (by simpa using hd)
    have hr : (List.range (c :: cs).length).map (fun d => posAt (c :: cs) (t :: ts) (u :: us) d - ((c :: cs).map ConvDim.padding).getD d 0)
        = (c.stride * t + c.dilation * u - c.padding) :: (List.range cs.length).map fun d => posAt cs ts us d - (cs.map ConvDim.padding).getD d 0 := by
      rw [List.length_cons, List.range_succ_eq_map, List.map_cons, List.map_map]
      simp only [List.cons.injEq]
      refine ⟨by rw [p0]; rfl, List.map_congr_left fun d _ => ?_⟩
      simp [p1]
    rw [hr]
    by_cases h : c.padding ≤ c.stride * t + c.dilation * u ∧ c.stride * t + c.dilation * u < n + c.padding
    · rw [Conv.tap, if_pos h]
      rw [show ∀ o : Option (List ℕ), (o.map fun r => (c.stride * t + c.dilation * u - c.padding) :: r).elim 0 f = o.elim 0 (fun r => f ((c.stride * t + c.dilation * u - c.padding) :: r)) by
        intro o; cases o <;> rfl, ih]
      by_cases h' : ∀ d < cs.length, (cs.map ConvDim.padding).getD d 0 ≤ posAt cs ts us d ∧ posAt cs ts us d - (cs.map ConvDim.padding).getD d 0 < ns.getD d 0
      · rw [if_pos h', if_pos (hc.2 ⟨h, h'⟩)]
      · rw [if_neg h', if_neg fun hh => h' (hc.1 hh).2]
    · rw [Conv.tap, if_neg h, if_neg fun hh => h (hc.1 hh).1]
      rfl
  | _ :: _, [], _, _, _, h, _, _ => by simp at h
  | _ :: _, _ :: _, [], _, _, _, h, _ => by simp at h
  | _ :: _, _ :: _, _ :: _, [], _, _, _, h => by simp at h

theorem convSizes_some : ∀ (cs : List ConvDim) (ns ks : List ℕ), ns.length = cs.length → ks.length = cs.length →
    (∀ d < cs.length, 1 ≤ ns.getD d 0 ∧ 1 ≤ ks.getD d 0 ∧ 1 ≤ (cs.map ConvDim.stride).getD d 0 ∧ 1 ≤ (cs.map ConvDim.dilation).getD d 0
      ∧ (cs.map ConvDim.dilation).getD d 0 * (ks.getD d 0 - 1) + 1 ≤ ns.getD d 0 + 2 * (cs.map ConvDim.padding).getD d 0) →
    ∃ os, Conv.convSizes cs ns ks = some os ∧ os.length = cs.length
      ∧ ∀ d < cs.length, (os.getD d 0 - 1) * (cs.map ConvDim.stride).getD d 0 + (cs.map ConvDim.dilation).getD d 0 * (ks.getD d 0 - 1) + 1 ≤ ns.getD d 0 + 2 * (cs.map ConvDim.padding).getD d 0
        ∧ ns.getD d 0 + 2 * (cs.map ConvDim.padding).getD d 0 < os.getD d 0 * (cs.map ConvDim.stride).getD d 0 + (cs.map ConvDim.dilation).getD d 0 * (ks.getD d 0 - 1) + 1
  | [], [], [], _, _, _ => ⟨[], rfl, rfl, by simp⟩
  | c :: cs, n :: ns, k :: ks, h1, h2, h => by
    obtain ⟨os, q1, q2, q3⟩ := convSizes_some cs ns ks (by simpa using h1) (by simpa using h2) fun d hd => by
      simpa using h (d + 1) (by simp; omega)
    have h0 := h 0 (by simp)
    simp only [List.map_cons, List.getD_cons_zero] at h0
    refine ⟨_, by rw [Conv.convSizes, if_pos h0, q1, Option.map_some], by simp [q2], fun d hd => ?_⟩
    cases d with
    | zero =>
      simp only [List.map_cons, List.getD_cons_zero]
      have := Conv.one_dim h0.2.2.1 (rfl : (n + 2 * c.padding - (c.dilation * (k - 1) + 1)) / c.stride + 1 = _)
      generalize hm : (n + 2 * c.padding - (c.dilation * (k - 1) + 1)) / c.stride = m at this ⊢
      rw [Nat.add_sub_cancel] at this ⊢
      rw [Nat.add_mul, Nat.one_mul]
      have := h0.2.2.2.2
      generalize m * c.stride = ms at *
      generalize c.dilation * (k - 1) = dk at *
      omega
    | succ d => simpa using q3 d (by simpa using hd)
  | [], _ :: _, _, h, _, _ => by simp at h
  | [], [], _ :: _, _, h, _ => by simp at h
  | _ :: _, [], _, h, _, _ => by simp at h
  | _ :: _, _ :: _, [], _, h, _ => by simp at h

/-- The convolution with one padding per dimension, at both ends. -/
theorem conv_isConv [CommRing R] (x w : NdTensor R) (strides pads dilations : List ℕ) (group : ℕ) (B O Cg : ℕ) (ns ks : List ℕ) (r : ℕ) (cs : List ConvDim)
    (hx : x.shape = B :: Cg * group :: ns) (hw : w.shape = O :: Cg :: ks) (hns : ns.length = r) (hks : ks.length = r) (hcl : cs.length = r)
    (z2 : cs.map ConvDim.stride = strides) (hpd : ∀ d < r, (cs.map ConvDim.padding).getD d 0 = pads.getD d 0) (hpe : ∀ d < r, pads.getD (r + d) 0 = pads.getD d 0)
    (z4 : cs.map ConvDim.dilation = dilations) (hg : 1 ≤ group) (hCg : 1 ≤ Cg) (hO : 1 ≤ O) (hdiv : group ∣ O)
    (hfit : ∀ d < r, 1 ≤ ns.getD d 0 ∧ 1 ≤ ks.getD d 0 ∧ 1 ≤ strides.getD d 0 ∧ 1 ≤ dilations.getD d 0 ∧ dilations.getD d 0 * (ks.getD d 0 - 1) + 1 ≤ ns.getD d 0 + pads.getD d 0 + pads.getD (r + d) 0) :
    ∃ y, Conv.conv x w cs group = some y ∧ IsConv x w y none strides pads dilations group ∧ ∃ os, y.shape = B :: O :: os ∧ os.length = r := by
  obtain ⟨os, o1, o2, o3⟩ := convSizes_some cs ns ks (by omega) (by omega) fun d hd => by
    rw [z2, z4, hpd d (by omega)]
    have := hfit d (by omega)
    rw [hpe d (by omega)] at this
    refine ⟨this.1, this.2.1, this.2.2.1, this.2.2.2.1, ?_⟩
    have := this.2.2.2.2
    omega
  obtain ⟨y0, hy0, hys, hyd⟩ : ∃ y0, Conv.conv x w cs group = some y0 ∧ y0.shape = B :: O :: os ∧ ∀ b o t, y0.data (b :: o :: t) =
      ∑ c ∈ Finset.range Cg, sumEntries ks fun u => (Conv.tap cs ns t u).elim 0 fun i => x.data (b :: (o / (O / group) * Cg + c) :: i) * w.data (o :: c :: u) := by
    refine ⟨⟨B :: O :: os, fun
      | b :: o :: t => ∑ c ∈ Finset.range Cg, sumEntries ks fun u => (Conv.tap cs ns t u).elim 0 fun i => x.data (b :: (o / (O / group) * Cg + c) :: i) * w.data (o :: c :: u)
      | _ => 0⟩, ?_, rfl, fun b o t => rfl⟩
    · simp only [Conv.conv, hx, hw]
      rw [if_pos ⟨hg, trivial, hCg, hO, Nat.mod_eq_zero_of_dvd hdiv⟩, o1, Option.map_some]
      congr 2
  refine ⟨y0, hy0, ?_, os, hys, by omega⟩
  · have hxr : x.shape.length - 2 = r := by rw [hx]; simp [hns]
    simp only [IsConv, hxr]
    rw [hys]
    refine ⟨by rw [hx]; simp [o2, hns, hcl], by rw [hx]; rfl, by rw [hw]; rfl, fun d hd => ?_, fun b o t ht => ?_⟩
    · have := o3 d (by omega)
      rw [z2, z4, hpd d hd] at this
      simp only [hx, hw, List.getD_cons_succ]
      rw [hpe d hd]
      rw [Nat.add_assoc (ns.getD d 0), ← Nat.two_mul]
      exact this
    · have ho : o < O := by cases ht with | cons _ h => cases h with | cons h _ => exact h
      have htl : t.length = r := by have := ht.length; simp at this; omega
      rw [hyd, Option.elim_none, zero_add]
      simp only [hw, List.getD_cons_zero, List.getD_cons_succ, List.drop_succ_cons, List.drop_zero]
      refine Finset.sum_congr rfl fun c _ => ?_
      rw [sumEntries_eq_sum, idxSet, List.sum_toFinset _ (nodup_allIdx ks)]
      refine congrArg List.sum (List.map_congr_left fun u hu => ?_)
      have hul : u.length = r := by rw [(mem_allIdx_iff.1 hu).length, hks]
      rw [tap_padded cs ns t u _ (by omega) (by omega) (by omega)]
      have hpos : ∀ d, posAt cs t u d = strides.getD d 0 * t.getD d 0 + dilations.getD d 0 * u.getD d 0 := fun d => by rw [posAt, z2, z4]
      rw [paddedEntry]
      have hcond : (∀ d < cs.length, (cs.map ConvDim.padding).getD d 0 ≤ posAt cs t u d ∧ posAt cs t u d - (cs.map ConvDim.padding).getD d 0 < ns.getD d 0)
          ↔ ∀ d < ((List.range r).map fun d => strides.getD d 0 * t.getD d 0 + dilations.getD d 0 * u.getD d 0).length,
            pads.getD d 0 ≤ ((List.range r).map fun d => strides.getD d 0 * t.getD d 0 + dilations.getD d 0 * u.getD d 0).getD d 0
              ∧ ((List.range r).map fun d => strides.getD d 0 * t.getD d 0 + dilations.getD d 0 * u.getD d 0).getD d 0 - pads.getD d 0 < x.shape.getD (d + 2) 0 := by
        rw [hcl, List.length_map, List.length_range]
        refine forall_congr' fun d => forall_congr' fun hd => ?_
        rw [hpd d hd, hpos, getD_map_range _ _ hd, hx]
        rfl
      have hidx : ((List.range cs.length).map fun d => posAt cs t u d - (cs.map ConvDim.padding).getD d 0)
          = ((List.range r).map fun d => strides.getD d 0 * t.getD d 0 + dilations.getD d 0 * u.getD d 0).mapIdx fun d p => p - pads.getD d 0 := by
        rw [hcl]
        refine ext_getD0 (by simp) fun m hm => ?_
        have hm' : m < r := by simpa using hm
        rw [getD_map_range _ _ hm', getD_mapIdx _ _ (by simpa using hm'), getD_map_range _ _ hm', hpd m hm', hpos]
      by_cases hc : ∀ d < cs.length, (cs.map ConvDim.padding).getD d 0 ≤ posAt cs t u d ∧ posAt cs t u d - (cs.map ConvDim.padding).getD d 0 < ns.getD d 0
      · rw [if_pos hc, if_pos (hcond.1 hc), hidx]
      · rw [if_neg hc, if_neg fun h => hc (hcond.2 h), zero_mul]

/-- Adding the bias. -/
theorem _root_.CrypTen.OnnxSpec.IsConv.bias' [CommRing R] {x w y y0 : NdTensor R} {bias : Option (NdTensor R)} {strides pads dilations : List ℕ} {group : ℕ}
    (h : IsConv x w y0 none strides pads dilations group) (hs : y.shape = y0.shape)
    (hd : ∀ b o t, ValidIdx y0.shape (b :: o :: t) → y.data (b :: o :: t) = (bias.elim 0 fun v => v.data [o]) + y0.data (b :: o :: t)) : IsConv x w y bias strides pads dilations group := by
  obtain ⟨h1, h2, h3, h4, h5⟩ := h
  refine ⟨by rw [hs]; exact h1, by rw [hs]; exact h2, by rw [hs]; exact h3, by rw [hs]; exact h4, fun b o t ht => ?_⟩
  rw [hs] at ht
  rw [hd b o t ht, h5 b o t ht, Option.elim_none, zero_add]

theorem _root_.CrypTen.OnnxSpec.IsConv.bias [CommRing R] {x w y y0 : NdTensor R} {bias : Option (NdTensor R)} {strides pads dilations : List ℕ} {group O : ℕ}
    (h : IsConv x w y0 none strides pads dilations group) (hs : y.shape = y0.shape) (hO : y0.shape.getD 1 0 = O)
    (hd : ∀ b o t, o < O → y.data (b :: o :: t) = (bias.elim 0 fun v => v.data [o]) + y0.data (b :: o :: t)) : IsConv x w y bias strides pads dilations group := by
  refine h.bias' hs fun b o t ht => hd b o t ?_
  rw [← hO]
  generalize y0.shape = s at ht
  cases ht with | cons _ h => cases h with | cons h _ => exact h

/-- C66 (`Conv`): for every input and every kernel with one or two spatial dimensions, all strides, dilations and groups, and every bias, the imported layer computes the convolution that ONNX prescribes, provided that all three lists are given and the paddings agree at both ends of every dimension and, with two dimensions, with each other. Missing: other paddings (`C66_conv_pads_wrong`, `C66_conv_asymmetric_wrong`), lists left out (`C66_conv_default_wrong`). -/
theorem C66_conv_partial [CommRing R] (x w : NdTensor R) (bias : Option (NdTensor R)) (strides pads dilations : List ℕ) (group : ℕ) (B O Cg : ℕ) (ns ks : List ℕ) (r : ℕ)
    (hx : x.shape = B :: Cg * group :: ns) (hw : w.shape = O :: Cg :: ks) (hr : r = 1 ∨ r = 2) (hns : ns.length = r) (hks : ks.length = r)
    (hss : strides.length = r) (hps : pads.length = 2 * r) (hds : dilations.length = r) (hpad : ∀ p ∈ pads, p = pads.getD 0 0)
    (hg : 1 ≤ group) (hCg : 1 ≤ Cg) (hO : 1 ≤ O) (hdiv : group ∣ O) (hb : ∀ t, bias = some t → t.shape = [O])
    (hfit : ∀ d < r, 1 ≤ ns.getD d 0 ∧ 1 ≤ ks.getD d 0 ∧ 1 ≤ strides.getD d 0 ∧ 1 ≤ dilations.getD d 0 ∧ dilations.getD d 0 * (ks.getD d 0 - 1) + 1 ≤ ns.getD d 0 + pads.getD d 0 + pads.getD (r + d) 0) :
    ∃ y, conv ⟨some strides, some pads, some dilations, some group⟩ x w bias = some y ∧ IsConv x w y bias strides pads dilations group := by
  have hp : ∀ k < 2 * r, pads.getD k 0 = pads.getD 0 0 := fun k hk => by
    rw [List.getD_eq_getElem _ _ (by omega)]
    exact hpad _ (List.getElem_mem _)
  obtain ⟨e1, e2⟩ := everySecond_getD r pads hps
  obtain ⟨cs, z1, z2, z3, z4⟩ := zipDims_some r strides (everySecond pads) dilations hss e1 hds
  have hcl : cs.length = r := by rw [← hss, ← z2]; simp
  have hpd : ∀ d < r, (cs.map ConvDim.padding).getD d 0 = pads.getD d 0 := fun d hd => by rw [z3, e2 d hd, hp _ (by omega), hp d (by omega)]
  obtain ⟨y0, hy0, hc, os, hys, _⟩ := conv_isConv x w strides pads dilations group B O Cg ns ks r cs hx hw hns hks hcl z2 hpd (fun d hd => by rw [hp _ (by omega), hp d (by omega)])
    z4 hg hCg hO hdiv hfit
  obtain ⟨y, hy, hyshape, hydata⟩ : ∃ y, addBias y0 bias = some y ∧ y.shape = y0.shape ∧ ∀ b o t, o < O → y.data (b :: o :: t) = (bias.elim 0 fun v => v.data [o]) + y0.data (b :: o :: t) := by
    cases bias with
    | none => exact ⟨y0, rfl, rfl, fun b o t _ => by simp⟩
    | some v =>
      have hv := hb v rfl
      refine ⟨⟨y0.shape, fun idx => y0.data idx + v.data [if O = 1 then 0 else idx.getD 1 0]⟩, ?_, rfl, fun b o t ho => ?_⟩
      · simp only [addBias, hv]
        rw [if_pos (Or.inl (by rw [hys]; rfl))]
      · show _ + v.data [_] = _
        rw [add_comm]
        congr 3
        by_cases h1 : O = 1
        · rw [if_pos h1]; omega
        · rw [if_neg h1]; rfl
  refine ⟨y, ?_, ?_⟩
  · simp only [conv, convFromOnnx, Option.bind_some, z1, Option.map_some, Option.getD_some]
    rw [if_neg (by rw [hw]; simp only [List.length_cons, hks]; omega), hy0, Option.bind_some, hy]
  · exact hc.bias hyshape (by rw [hys]; rfl) hydata

/-- A 3 × 3 image, a 2 × 2 kernel, padding 1 and stride 2 meet the conditions. -/
example : ∃ y, conv ⟨some [2, 2], some [1, 1, 1, 1], some [1, 1], some 1⟩ (⟨[1, 1, 3, 3], fun _ => 1⟩ : NdTensor ℤ) ⟨[1, 1, 2, 2], fun _ => 1⟩ (some ⟨[1], fun _ => 7⟩) = some y ∧ y.shape = [1, 1, 2, 2] ∧ y.data [0, 0, 1, 1] = 11 := ⟨_, rfl, rfl, by decide⟩

/-- The code violates the property: the pads (0, 1, 0, 1) ask for one column of zeros on either side; the layer pads neither dimension, as it takes every second number. -/
theorem C66_conv_pads_wrong [CommRing R] (x w : NdTensor R) (hx : x.shape = [1, 1, 1, 1]) (hw : w.shape = [1, 1, 1, 1]) :
    ∃ y, conv ⟨some [1, 1], some [0, 1, 0, 1], some [1, 1], some 1⟩ x w none = some y ∧ y.shape = [1, 1, 1, 1] ∧ ¬IsConv x w y none [1, 1] [0, 1, 0, 1] [1, 1] 1 := by
  have e : conv ⟨some [1, 1], some [0, 1, 0, 1], some [1, 1], some 1⟩ x w none = Conv.conv x w [⟨1, 0, 1⟩, ⟨1, 0, 1⟩] 1 := by
    simp [conv, convFromOnnx, zipDims, everySecond, hw, addBias]
  rw [e, Conv.conv]
  simp only [hx, hw]
  refine ⟨_, rfl, rfl, fun h => ?_⟩
  have := (h.2.2.2.1 1 (by simp [hx])).2
  simp [hx, hw] at this

/-- The code violates the property: the paddings at the ends are ignored; with one dimension and pads (0, 1) the last output is missing. -/
theorem C66_conv_asymmetric_wrong [CommRing R] (x w : NdTensor R) (hx : x.shape = [1, 1, 1]) (hw : w.shape = [1, 1, 1]) :
    ∃ y, conv ⟨some [1], some [0, 1], some [1], some 1⟩ x w none = some y ∧ y.shape = [1, 1, 1] ∧ ¬IsConv x w y none [1] [0, 1] [1] 1 := by
  have e : conv ⟨some [1], some [0, 1], some [1], some 1⟩ x w none = Conv.conv x w [⟨1, 0, 1⟩] 1 := by
    simp [conv, convFromOnnx, zipDims, everySecond, hw, addBias]
  rw [e, Conv.conv]
  simp only [hx, hw]
  refine ⟨_, rfl, rfl, fun h => ?_⟩
  have := (h.2.2.2.1 0 (by simp [hx])).2
  simp [hx, hw] at this

/-- Lists that ONNX allows to leave out (strides and dilations 1, no padding) must be present. -/
theorem C66_conv_default_wrong [CommRing R] (a : ConvAttrs) (x w : NdTensor R) (bias : Option (NdTensor R)) (h : a.strides = none ∨ a.pads = none ∨ a.dilations = none) : conv a x w bias = none := by
  obtain ⟨s, p, d, g⟩ := a
  rcases h with h | h | h <;> simp only at h <;> subst h
  · rfl
  · cases s <;> rfl
  · cases s <;> cases p <;> rfl

/-! ## MaxPool and AveragePool -/

/-- C66 (pooling): with a square kernel, equal strides, equal paddings and dilation 1 the imported layer pools as the node prescribes. Missing: everything else; most of it is not noticed (`C66_pool_kernel_wrong`, `C66_pool_pads_wrong`, `C66_pool_dilation_wrong`). -/
theorem C66_pool_partial (k s p : ℕ) (dil : Option (List ℕ)) (hd : dil.getD [1, 1] = [1, 1]) (ceil cip : Option ℤ) :
    ∃ l, poolFromOnnx ⟨[k, k], some [s, s], some [p, p, p, p], dil, ceil, cip⟩ = some l ∧ IsPoolGeo [k, k] [s, s] [p, p, p, p] (dil.getD [1, 1]) (ceil.getD 0 > 0) l.geo := by
  refine ⟨⟨k, s, p, ceil.getD 0 > 0⟩, ?_, rfl, rfl, rfl, hd, rfl⟩
  simp [poolFromOnnx, allTheSame]

theorem C66_pool_no_pads (k s : ℕ) (ceil cip : Option ℤ) :
    ∃ l, poolFromOnnx ⟨[k, k], some [s, s], none, none, ceil, cip⟩ = some l ∧ IsPoolGeo [k, k] [s, s] [0, 0, 0, 0] [1, 1] (ceil.getD 0 > 0) l.geo := by
  refine ⟨⟨k, s, 0, ceil.getD 0 > 0⟩, ?_, rfl, rfl, rfl, rfl, rfl⟩
  simp [poolFromOnnx, allTheSame]

/-- Different strides are refused. -/
theorem C66_pool_strides_raises (k : List ℕ) (s s' : ℕ) (h : s ≠ s') (pads dil : Option (List ℕ)) (ceil cip : Option ℤ) : poolFromOnnx ⟨k, some [s, s'], pads, dil, ceil, cip⟩ = none := by
  simp [poolFromOnnx, allTheSame, h]

/-- The code violates the property: a kernel that is not square is accepted, and pooling uses a square one. -/
theorem C66_pool_kernel_wrong (k k' s : ℕ) (h : k ≠ k') : ∃ l, poolFromOnnx ⟨[k, k'], some [s, s], none, none, none, none⟩ = some l ∧ l.geo.k1 = k ∧ ¬IsPoolGeo [k, k'] [s, s] [0, 0, 0, 0] [1, 1] false l.geo := by
  refine ⟨⟨k, s, 0, false⟩, by simp [poolFromOnnx, allTheSame], rfl, fun hc => h ?_⟩
  have := hc.1
  simp [PoolLayer.geo] at this
  exact this.symm

/-- The code violates the property: only the first padding is used, for both dimensions. -/
theorem C66_pool_pads_wrong (k s p p' : ℕ) (h : p ≠ p') : ∃ l, poolFromOnnx ⟨[k, k], some [s, s], some [p, p', p, p'], none, none, none⟩ = some l ∧ l.geo.p1 = p ∧ ¬IsPoolGeo [k, k] [s, s] [p, p', p, p'] [1, 1] false l.geo := by
  refine ⟨⟨k, s, p, false⟩, by simp [poolFromOnnx, allTheSame], rfl, fun hc => h ?_⟩
  have := hc.2.2.1
  simp [PoolLayer.geo] at this
  exact this.symm

/-- The code violates the property: the dilations of a node are ignored. -/
theorem C66_pool_dilation_wrong (k s d d' : ℕ) (h : d ≠ 1) : ∃ l, poolFromOnnx ⟨[k, k], some [s, s], none, some [d, d'], none, none⟩ = some l ∧ l.geo.d0 = 1 ∧ ¬IsPoolGeo [k, k] [s, s] [0, 0, 0, 0] [d, d'] false l.geo := by
  refine ⟨⟨k, s, 0, false⟩, by simp [poolFromOnnx, allTheSame], rfl, fun hc => h ?_⟩
  have := hc.2.2.2.1
  simp [PoolLayer.geo] at this
  exact this.1

/-- The code violates the property: unless `count_include_pad` is 1 (the default is 0), padding does not count in the mean; so the four means of an image with one entry, padded on all sides, are that entry. The layer, which ignores the attribute, returns a quarter of it. -/
theorem C66_average_pool_wrong {K : Type} [Field K] (cip : Option ℤ) (x : NdTensor K) (hx : x.shape = [1, 1, 1, 1]) :
    ∃ l y, poolFromOnnx ⟨[2, 2], some [1, 1], some [1, 1, 1, 1], none, none, cip⟩ = some l
      ∧ Conv.avgPool x [l.geo.k0, l.geo.k1] [l.geo.s0, l.geo.s1] [l.geo.p0, l.geo.p1] = some y ∧ y.shape = [1, 1, 2, 2] ∧ y.data [0, 0, 0, 0] = x.data [0, 0, 0, 0] / 4 := by
  refine ⟨⟨2, 1, 1, false⟩, ?_⟩
  simp only [PoolLayer.geo, Conv.avgPool, hx]
  refine ⟨_, by simp [poolFromOnnx, allTheSame], rfl, rfl, ?_⟩
  simp [sumEntries, Finset.sum_range_succ, Conv.tap, Conv.poolDims]

/-! ## Clip -/

/-- C66 (`Clip` with both bounds): the imported layer limits every entry to the bounds, exactly, for bounds that the encoding represents and entries not too far from them. Missing: a bound left out (`C66_clip_wrong`). -/
theorem C66_clip_partial {n : ℕ} [NeZero n] {ι : Type} {D : ℕ} (hD : 0 < D) (x : AST n ι) (hx : StdScale D x.scale) (a b : ℤ) (hab : a ≤ b)
    (hfa : Fits (a : ℚ)) (hfb : Fits (b : ℚ)) (hfd : Fits ((b - a : ℤ) : ℚ)) (hf1 : ∀ i, Fits (x.scale * x.value i - a)) (hf2 : ∀ i, Fits (x.scale * x.value i - b)) :
    let lo : ℚ := a / x.scale
    let hi : ℚ := b / x.scale
    SatX (x.hardtanh D (clipBounds (some lo) (some hi)).1 (clipBounds (some lo) (some hi)).2) fun z => ∀ i, IsClip (some lo) (some hi) (x.value i) (z.value i) := by
  intro lo hi
  have hs := hx.pos hD
  have hs' : (0 : ℚ) < x.scale := by exact_mod_cast hs
  have hlo : x.scale * lo = (a : ℚ) := by show (x.scale : ℚ) * (a / x.scale) = a; field_simp
  have hhi : x.scale * hi = (b : ℚ) := by show (x.scale : ℚ) * (b / x.scale) = b; field_simp
  have hle : lo ≤ hi := div_le_div_of_nonneg_right (by exact_mod_cast hab) hs'.le
  refine SatX.mono (C23_hardtanh hD x hx lo hi lo hi hle ?_ ?_ ?_ ?_ ?_ ?_ ?_) fun z hz i => ?_
  · rw [hlo, truncQ_intCast]
  · rw [hhi, truncQ_intCast]
  · rw [hlo]; exact hfa
  · rw [hhi]; exact hfb
  · rw [mul_sub, hlo, hhi]; exact_mod_cast hfd
  · intro i; rw [mul_sub, hlo]; exact hf1 i
  · intro i; rw [mul_sub, hhi]; exact hf2 i
  · show z.value i = min (max (x.value i) lo) hi
    rw [hz.2 i, max_min_distrib_left, max_comm lo, max_eq_right hle]

/-- Two parties hold 3, clipped to the bounds 0 and 1. -/
example (x : AST 2 Unit) (hs : x.scale = 2 ^ 16) (hv : ∀ i, x.value i = 3) :
    SatX (x.hardtanh (2 ^ 16) (clipBounds (some ((0 : ℤ) / x.scale)) (some ((2 ^ 16 : ℤ) / x.scale))).1 (clipBounds (some ((0 : ℤ) / x.scale)) (some ((2 ^ 16 : ℤ) / x.scale))).2)
      fun z => ∀ i, IsClip (some ((0 : ℤ) / x.scale)) (some ((2 ^ 16 : ℤ) / x.scale)) (x.value i) (z.value i) := by
  refine C66_clip_partial (by norm_num) x (Or.inr hs) 0 (2 ^ 16) (by norm_num) ?_ ?_ ?_ ?_ ?_ <;> (try intro i) <;> (try rw [hs, hv]) <;> constructor <;> norm_num

/-- The code violates the property: a bound that is left out does not limit anything in ONNX; the layer takes -1 and 1. -/
theorem C66_clip_wrong (lo hi : Option ℚ) (h : lo = none ∨ hi = none) : ∃ v, ¬IsClip lo hi v (max (clipBounds lo hi).1 (min v (clipBounds lo hi).2)) := by
  rcases h with rfl | rfl
  · cases hi with
    | none => exact ⟨2, by simp [IsClip, clipBounds]⟩
    | some b =>
      refine ⟨min b 0 - 2, fun h => ?_⟩
      have h1 : min (min b 0 - 2) b = min b 0 - 2 := min_eq_left (by have := min_le_left b 0; linarith)
      simp only [IsClip, clipBounds, Option.getD_none, Option.getD_some] at h
      rw [h1] at h
      have := le_max_left (-1 : ℚ) (min b 0 - 2)
      have := min_le_right b 0
      linarith
  · cases lo with
    | none => exact ⟨2, by simp [IsClip, clipBounds]⟩
    | some a =>
      refine ⟨max a 0 + 2, fun h => ?_⟩
      have h0 := le_max_left a 0
      have h1 := le_max_right a 0
      simp only [IsClip, clipBounds, Option.getD_none, Option.getD_some] at h
      rw [max_eq_left (by linarith : a ≤ max a 0 + 2), min_eq_right (by linarith : (1 : ℚ) ≤ max a 0 + 2)] at h
      rcases max_choice a 1 with h2 | h2 <;> rw [h2] at h <;> linarith

/-! ## Gemm -/

theorem addTo_some [Add R] (y c : NdTensor R) (h : BroadcastsTo c.shape y.shape) : ∃ z, addTo y c = some z ∧ z.shape = y.shape ∧ ∀ idx, z.data idx = y.data idx + (c.broadcast y.shape).data idx := by
  refine ⟨⟨y.shape, fun idx => y.data idx + (c.broadcast y.shape).data idx⟩, ?_, rfl, fun _ => rfl⟩
  rw [addTo, NdTensor.expand, if_pos]
  · rfl
  · refine ⟨h.1, ?_⟩
    rw [List.all_eq_true]
    intro q hq
    have := List.forall₂_zip h.2 (a := q.1) (b := q.2) (by simpa using hq)
    simpa using this

/-- C66 (`Gemm`): with alpha, beta and the third input present the imported layer returns `alpha * A' * B' + beta * C`. Missing: each of them may be left out in ONNX (`C66_gemm_wrong`). -/
theorem C66_gemm_partial [CommRing R] (alpha beta : R) (transA transB : Option Bool) (a b c : NdTensor R) (m k n : ℕ)
    (ha : a.shape = if transA.getD false then [k, m] else [m, k]) (hb : b.shape = if transB.getD false then [n, k] else [k, n]) (hc : BroadcastsTo c.shape [m, n]) :
    ∃ y, gemm (some alpha) (some beta) transA transB a b (some c) = some y ∧ IsGemm (some alpha) (some beta) (transA.getD false) (transB.getD false) a b y (some c) := by
  have ht : ∀ (t : NdTensor R) (p q : ℕ) (f : Bool), t.shape = (if f then [q, p] else [p, q]) →
      ∃ t' : NdTensor R, (if f then t.t else some t) = some t' ∧ t'.shape = [p, q] ∧ ∀ i j, t'.data [i, j] = t.data (if f then [j, i] else [i, j]) := by
    intro t p q f hs
    cases f with
    | false => exact ⟨t, by simp, by simpa using hs, fun i j => by simp⟩
    | true =>
      simp only [if_true] at hs
      refine ⟨⟨[p, q], fun idx => t.data ((idx.set 0 (idx.getD 1 0)).set 1 (idx.getD 0 0))⟩, ?_, rfl, fun i j => by simp⟩
      simp only [if_true, NdTensor.t, NdTensor.transpose, hs]
      rfl
  obtain ⟨a', ea, sa, da⟩ := ht a m k _ ha
  obtain ⟨b', eb, sb, db⟩ := ht b k n _ hb
  have em : matmul a' b' = some ⟨[m, n], fun idx => ∑ l ∈ Finset.range k, a'.data [idx.getD 0 0, l] * b'.data [l, idx.getD 1 0]⟩ := by
    simp [matmul, sa, sb]
  obtain ⟨z, hz, hzs, hzd⟩ := addTo_some (⟨[m, n], fun idx => (∑ l ∈ Finset.range k, a'.data [idx.getD 0 0, l] * b'.data [l, idx.getD 1 0]) * alpha⟩ : NdTensor R) { c with data := fun idx => c.data idx * beta } hc
  refine ⟨z, ?_, m, k, n, ha, hb, hzs, fun t h => by injection h with h; subst h; exact hc, fun i _ j _ => ?_⟩
  · simp only [gemm, Option.bind_some]
    rw [ea, Option.bind_some, eb, Option.bind_some, em, Option.bind_some]
    exact hz
  · rw [hzd]
    simp only [List.getD_cons_zero, List.getD_cons_succ, Option.getD_some, Option.elim_some]
    rw [mul_comm _ alpha]
    congr 1
    · congr 1
      exact Finset.sum_congr rfl fun l _ => by rw [da, db]
    · exact mul_comm _ _

theorem C66_gemm_wrong [CommRing R] (alpha beta : Option R) (transA transB : Option Bool) (a b : NdTensor R) (c : Option (NdTensor R)) (h : alpha = none ∨ beta = none ∨ c = none) : gemm alpha beta transA transB a b c = none := by
  rcases h with rfl | rfl | rfl
  · rfl
  · cases alpha <;> rfl
  · cases alpha <;> cases beta <;> rfl

/-- `A` is 1 × 2, `B` is given transposed, `C` is a scalar. -/
example : ∃ y, gemm (some 2) (some 3) none (some true) (⟨[1, 2], fun i => (i.getD 1 0 : ℤ) + 1⟩ : NdTensor ℤ) ⟨[1, 2], fun i => (i.getD 1 0 : ℤ) + 10⟩ (some ⟨[], fun _ => 100⟩) = some y ∧ y.shape = [1, 1] ∧ y.data [0, 0] = 364 := ⟨_, rfl, rfl, by decide⟩

/-! ## Sum and Mean -/

/-- The code violates the property: the ONNX operators `Sum` and `Mean` add or average several tensors entry by entry; the classes of these names, which reduce one tensor along axes, are used for them, and so the node raises because it has no axes. `ReduceSum` and `ReduceMean` go to the same classes, rightly. -/
theorem C66_sum_operator_wrong (hasClass : String → Bool) (h1 : hasClass "ReduceSum" = false) (h2 : hasClass "ReduceMean" = false) :
    operatorClass "Sum" hasClass = operatorClass "ReduceSum" hasClass ∧ operatorClass "Mean" hasClass = operatorClass "ReduceMean" hasClass ∧ operatorClass "Sum" hasClass = some .reduceSum := by
  refine ⟨?_, ?_, rfl⟩ <;> simp [operatorClass, h1, h2]

end Onnx
end CrypTen

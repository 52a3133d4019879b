import Verif.Lemmas.Conv

/-! # The gradient of a convolution with respect to its kernel, step by step -/

namespace CrypTen
namespace Conv
open NdTensor ShapeGrad
variable {R : Type} [CommRing R]

omit [CommRing R] in
theorem reshape_of (t : NdTensor R) (s : List ℕ) (h : s.prod = t.shape.prod) : t.reshape (s.map fun n : ℕ => (n : ℤ)) = some (t.reshapeTo s) := by
  rw [reshape, ← h, inferSize_nat, Option.map_some]

omit [CommRing R] in
theorem reshape_two (t : NdTensor R) {a b c d : ℕ} {sp : List ℕ} (ht : t.shape = a :: b :: sp) {i j : ℕ} {r : List ℕ} (hr : ValidIdx sp r) :
    (t.reshapeTo (c :: d :: sp)).data (i :: j :: r) = t.data ((i * d + j) / b :: (i * d + j) % b :: r) := by
  have hf := flat_lt hr
  have hP : 0 < sp.prod := by omega
  simp only [reshapeTo, ht, flatIdx, unflatIdx, List.prod_cons]
  have e1 : i * (d * sp.prod) + (j * sp.prod + flatIdx sp r) = (i * d + j) * sp.prod + flatIdx sp r := by ring
  rw [e1]
  generalize i * d + j = q
  have e2 : (q * sp.prod + flatIdx sp r) / sp.prod = q := by rw [Nat.mul_comm, Nat.mul_add_div hP, Nat.div_eq_of_lt hf, Nat.add_zero]
  have e3 : (q * sp.prod + flatIdx sp r) % sp.prod = flatIdx sp r := by rw [Nat.mul_comm, Nat.mul_add_mod, Nat.mod_eq_of_lt hf]
  have e4 : (q * sp.prod + flatIdx sp r) / (b * sp.prod) = q / b := by rw [Nat.mul_comm b, ← Nat.div_div_eq_div_mul, e2]
  have e5 : (q * sp.prod + flatIdx sp r) % (b * sp.prod) / sp.prod = q % b := by rw [Nat.mod_mul_left_div_self, e2]
  have e6 : (q * sp.prod + flatIdx sp r) % (b * sp.prod) % sp.prod = flatIdx sp r := by rw [Nat.mod_mul_left_mod, e3]
  rw [e4, e5, e6, unflat_flat hr]

omit [CommRing R] in
theorem reshape_one (t : NdTensor R) {a c d : ℕ} {sp : List ℕ} (ht : t.shape = a :: sp) {i j : ℕ} {r : List ℕ} (hr : ValidIdx sp r) :
    (t.reshapeTo (c :: d :: sp)).data (i :: j :: r) = t.data ((i * d + j) :: r) := by
  have hf := flat_lt hr
  have hP : 0 < sp.prod := by omega
  simp only [reshapeTo, ht, flatIdx, unflatIdx, List.prod_cons]
  have e1 : i * (d * sp.prod) + (j * sp.prod + flatIdx sp r) = (i * d + j) * sp.prod + flatIdx sp r := by ring
  rw [e1]
  generalize i * d + j = q
  have e2 : (q * sp.prod + flatIdx sp r) / sp.prod = q := by rw [Nat.mul_comm, Nat.mul_add_div hP, Nat.div_eq_of_lt hf, Nat.add_zero]
  have e3 : (q * sp.prod + flatIdx sp r) % sp.prod = flatIdx sp r := by rw [Nat.mul_comm, Nat.mul_add_mod, Nat.mod_eq_of_lt hf]
  rw [e2, e3, unflat_flat hr]

theorem narrowAll_of : ∀ {ks kk : List ℕ} (p : List ℕ) (x : NdTensor R), List.Forall₂ (· ≤ ·) ks kk → x.shape = p ++ kk → ∃ y, narrowAll p.length ks x = some y ∧ y.shape = p ++ ks ∧ y.data = x.data
  | [], [], p, x, _, hx => ⟨x, rfl, hx, rfl⟩
  | k :: ks, k' :: kk, p, x, h, hx => by
    rw [List.forall₂_cons] at h
    have hd : p.length < x.shape.length := by rw [hx]; simp
    have hg : x.shape.getD p.length 0 = k' := by rw [hx]; simp
    have hn : x.narrow p.length 0 k = some ⟨x.shape.set p.length k, fun idx => x.data (idx.set p.length (idx.getD p.length 0 + 0))⟩ := by
      have := narrow_of (x := x) (dim := p.length) (start := 0) (length := k) (d := p.length) (st := 0) (normDim_nat hd)
        (by rw [hg]; unfold normStart; split
            · rename_i h0; rw [show k' = 0 by omega]
            · exact normDim_nat (a := 0) (by omega)) (by omega) (by rw [hg]; have := h.1; omega)
      simpa using this
    obtain ⟨y, h1, h2, h3⟩ := narrowAll_of (p ++ [k]) ⟨x.shape.set p.length k, fun idx => x.data (idx.set p.length (idx.getD p.length 0 + 0))⟩ h.2 (by simp [hx])
    refine ⟨y, ?_, by simpa using h2, ?_⟩
    · rw [narrowAll, hn, Option.bind_some]
      simpa using h1
    · rw [h3]; funext idx; simp only [Nat.add_zero, set_getD_self]

theorem gradKernel_spec {x g : NdTensor R} {cs : List ConvDim} {B C O r G : ℕ} {ns ks os : List ℕ} (hx : x.shape = B :: C :: ns) (hg : g.shape = B :: O :: os) (hB : 0 < B) (hr : 1 ≤ r) (hG : 1 ≤ G) (hO : 1 ≤ O)
    (hC : C = r * G) (hOG : O % G = 0) (hsz : convSizes cs ns ks = some os) :
    ∃ gk, gradKernel x g cs B C O r ks = some gk ∧ gk.shape = O :: r :: ks
      ∧ ∀ o c u, o < O → c < r → ValidIdx ks u → gk.data (o :: c :: u) = ∑ b ∈ Finset.range B, ∑ t ∈ idxSet os, (tap cs ns t u).elim 0 (fun i => x.data (b :: (c * G + o / (O / G)) :: i)) * g.data (b :: o :: t) := by
  obtain ⟨kk, hkk, hle⟩ := sizes_swap hsz
  obtain ⟨l1, l2, l3⟩ := convSizes_length hsz
  obtain ⟨l4, l5, l6⟩ := convSizes_length hkk
  rw [List.length_map] at l4 l5 l6
  have hOG' : O / G * G = O := Nat.div_mul_cancel (Nat.dvd_of_mod_eq_zero hOG)
  have hOg : 1 ≤ O / G := by rcases Nat.eq_zero_or_pos (O / G) with h | h; · rw [h] at hOG'; omega
                             · exact h
  have hrp : (repeatChannels g r).shape = B :: O * r :: os := by simp [repeatChannels, hg]
  have hg2 : (repeatChannels g r).reshape ((((repeatChannels g r).shape.getD 0 0 * (repeatChannels g r).shape.getD 1 0 : ℕ) : ℤ) :: 1 :: ((repeatChannels g r).shape.drop 2).map fun n : ℕ => (n : ℤ))
      = some ((repeatChannels g r).reshapeTo (B * (O * r) :: 1 :: os)) := by
    rw [← reshape_of _ _ (by rw [hrp]; simp; ring), hrp]; rfl
  have hx2 : x.reshape (1 :: ((B * C : ℕ) : ℤ) :: (x.shape.drop 2).map fun n : ℕ => (n : ℤ)) = some (x.reshapeTo (1 :: B * C :: ns)) := by
    rw [← reshape_of _ _ (by rw [hx]; simp; ring), hx]; rfl
  generalize hgd : (repeatChannels g r).reshapeTo (B * (O * r) :: 1 :: os) = g2 at hg2
  have hgs : g2.shape = B * (O * r) :: 1 :: os := by rw [← hgd]; rfl
  have hgv : ∀ m t, ValidIdx os t → g2.data (m :: 0 :: t) = g.data (m / (O * r) :: m % (O * r) % O :: t) := by
    intro m t ht
    rw [← hgd, reshape_two _ hrp ht]
    rw [Nat.mul_one, Nat.add_zero]
    simp only [repeatChannels, hg]
  generalize hxd : x.reshapeTo (1 :: B * C :: ns) = x2 at hx2
  have hxs : x2.shape = 1 :: B * C :: ns := by rw [← hxd]; rfl
  have hxv : ∀ m i, ValidIdx ns i → x2.data (0 :: m :: i) = x.data (m / C :: m % C :: i) := by
    intro m i hi
    rw [← hxd, reshape_two _ hx hi, Nat.zero_mul, Nat.zero_add]
  have hdiv : B * (O * r) = C * B * (O / G) := by rw [hC]; nth_rw 1 [← hOG']; ring
  have hCB : 1 ≤ C * B := Nat.mul_pos (by rw [hC]; exact Nat.mul_pos hr hG) hB
  have hq : B * (O * r) / (C * B) = O / G := by rw [hdiv, Nat.mul_div_cancel_left _ hCB]
  obtain ⟨y, hy, hys, hyd⟩ : ∃ y, conv x2 g2 (cs.map ConvDim.swap) (C * B) = some y ∧ y.shape = 1 :: B * (O * r) :: kk
      ∧ ∀ m u, y.data (0 :: m :: u) = ∑ c ∈ Finset.range 1, sumEntries os fun t => (tap (cs.map ConvDim.swap) ns u t).elim 0 fun i => x2.data (0 :: (m / (O / G) * 1 + c) :: i) * g2.data (m :: c :: t) := by
    unfold conv
    rw [hxs, hgs, ← hq]
    simp only
    rw [if_pos ⟨hCB, by ring, le_refl 1, Nat.mul_pos hB (Nat.mul_pos hO hr), by rw [hdiv, Nat.mul_mod_right]⟩, hkk, Option.map_some]
    exact ⟨_, rfl, rfl, fun _ _ => rfl⟩
  have hyv : ∀ m u, u.length = cs.length → y.data (0 :: m :: u) = ∑ t ∈ idxSet os, (tap cs ns t u).elim 0 (fun i => x.data ((m / (O / G)) / C :: (m / (O / G)) % C :: i)) * g.data (m / (O * r) :: m % (O * r) % O :: t) := by
    intro m u hu
    rw [hyd]
    simp only [Finset.sum_range_one, Nat.mul_one, Nat.add_zero]
    rw [sumEntries_eq_sum]
    refine Finset.sum_congr rfl fun t ht => ?_
    have ht' := mem_idxSet.1 ht
    have htl : t.length = cs.length := by rw [ht'.length, l3]
    rw [tap_swap cs ns t u l1 htl hu, tap_elim _ _ _ _ _ l1 htl hu, tap_elim _ _ _ _ _ l1 htl hu, Finset.sum_mul]
    refine Finset.sum_congr rfl fun i hi => ?_
    rw [hgv m t ht']
    split
    · rw [hxv _ _ (mem_idxSet.1 hi)]
    · rw [zero_mul]
  have hy2 : y.reshape ((B : ℤ) :: ((y.shape.getD 1 0 / B : ℕ) : ℤ) :: (y.shape.drop 2).map fun n : ℕ => (n : ℤ)) = some (y.reshapeTo (B :: O * r :: kk)) := by
    rw [← reshape_of _ _ (by rw [hys]; simp; ring), hys]
    simp only [List.getD_cons_succ, List.getD_cons_zero]
    rw [Nat.mul_div_cancel_left _ hB]; rfl
  generalize hy2d : y.reshapeTo (B :: O * r :: kk) = y2 at hy2
  have hy2s : y2.shape = B :: O * r :: kk := by rw [← hy2d]; rfl
  have hy2v : ∀ b q u, ValidIdx kk u → b < B → q < O * r → y2.data (b :: q :: u) = y.data (0 :: (b * (O * r) + q) :: u) := by
    intro b q u hu hb hq
    have hlt : b * (O * r) + q < B * (O * r) := by
      calc b * (O * r) + q < b * (O * r) + O * r := by omega
        _ = (b + 1) * (O * r) := by ring
        _ ≤ B * (O * r) := Nat.mul_le_mul_right _ hb
    rw [← hy2d, reshape_two _ hys hu, Nat.div_eq_of_lt hlt, Nat.mod_eq_of_lt hlt]
  have hy3 : y2.sumDim 0 false = some ⟨O * r :: kk, fun idx => (y2.sumKeep 0).data (idx.insertIdx 0 0)⟩ := by
    unfold sumDim
    rw [show (0 : ℤ) = ((0 : ℕ) : ℤ) from rfl, normDim_nat (by rw [hy2s]; simp), Option.bind_some, if_neg (by simp), hy2s]; rfl
  generalize hy3d : (⟨O * r :: kk, fun idx => (y2.sumKeep 0).data (idx.insertIdx 0 0)⟩ : NdTensor R) = y3 at hy3
  have hy3s : y3.shape = O * r :: kk := by rw [← hy3d]
  have hy3v : ∀ q u, y3.data (q :: u) = ∑ b ∈ Finset.range B, y2.data (b :: q :: u) := by
    intro q u
    rw [← hy3d]
    simp [sumKeep, hy2s]
  have hy4 : y3.reshape ((r : ℤ) :: (O : ℤ) :: (y3.shape.drop 1).map fun n : ℕ => (n : ℤ)) = some (y3.reshapeTo (r :: O :: kk)) := by
    rw [← reshape_of _ _ (by rw [hy3s]; simp; ring), hy3s]; rfl
  generalize hy4d : y3.reshapeTo (r :: O :: kk) = y4 at hy4
  have hy4s : y4.shape = r :: O :: kk := by rw [← hy4d]; rfl
  have hy4v : ∀ c o u, ValidIdx kk u → y4.data (c :: o :: u) = y3.data ((c * O + o) :: u) := by
    intro c o u hu
    rw [← hy4d, reshape_one _ hy3s hu]
  have hy5 : y4.transpose 0 1 = some ⟨O :: r :: kk, fun idx => y4.data ((idx.set 0 (idx.getD 1 0)).set 1 (idx.getD 0 0))⟩ := by
    have := transpose_of (x := y4) (d1 := 0) (d2 := 1) (a := 0) (b := 1) (normDim_nat (a := 0) (by rw [hy4s]; simp)) (normDim_nat (a := 1) (by rw [hy4s]; simp))
    rw [this, hy4s]; rfl
  obtain ⟨gk, h1, h2, h3⟩ := narrowAll_of [O, r] ⟨O :: r :: kk, fun idx => y4.data ((idx.set 0 (idx.getD 1 0)).set 1 (idx.getD 0 0))⟩ hle rfl
  refine ⟨gk, ?_, h2, ?_⟩
  · unfold gradKernel
    simp only [Option.bind_eq_bind]
    rw [hg2, Option.bind_some, hx2, Option.bind_some, hy, Option.bind_some, if_neg (by omega), hy2, Option.bind_some, hy3, Option.bind_some, hy4, Option.bind_some, hy5, Option.bind_some]
    exact h1
  · intro o c u ho hc hu
    have huk : ValidIdx kk u := by
      refine validIdx_iff.2 ⟨by rw [hu.length, l2, l6], fun d hd => ?_⟩
      have := (validIdx_iff.1 hu).2 d (by omega)
      have hle' := List.Forall₂.get hle (i := d) (by omega) hd
      rw [List.getD_eq_getElem kk _ hd]
      rw [List.getD_eq_getElem ks _ (by omega)] at this
      simp only [List.get_eq_getElem] at hle'
      omega
    have hco : c * O + o < O * r := by
      calc c * O + o < c * O + O := by omega
        _ = (c + 1) * O := by ring
        _ ≤ r * O := Nat.mul_le_mul_right _ hc
        _ = O * r := by ring
    rw [h3]
    show y4.data (c :: o :: u) = _
    rw [hy4v _ _ _ huk, hy3v]
    refine Finset.sum_congr rfl fun b hb => ?_
    rw [hy2v b _ u huk (Finset.mem_range.1 hb) hco, hyv _ _ (by rw [hu.length, l2])]
    have e1 : (b * (O * r) + (c * O + o)) / (O * r) = b := by
      rw [Nat.mul_comm b, Nat.mul_add_div (by omega), Nat.div_eq_of_lt hco, Nat.add_zero]
    have e2 : (b * (O * r) + (c * O + o)) % (O * r) % O = o := by
      rw [Nat.mul_comm b, Nat.mul_add_mod, Nat.mod_eq_of_lt hco, Nat.mul_comm c, Nat.mul_add_mod, Nat.mod_eq_of_lt ho]
    have hoq : o / (O / G) < G := by rw [Nat.div_lt_iff_lt_mul hOg, Nat.mul_comm, hOG']; exact ho
    have hcG : c * G + o / (O / G) < C := by
      rw [hC]
      calc c * G + o / (O / G) < c * G + G := by omega
        _ = (c + 1) * G := by ring
        _ ≤ r * G := Nat.mul_le_mul_right _ hc
    have e3 : (b * (O * r) + (c * O + o)) / (O / G) = C * b + (c * G + o / (O / G)) := by
      have : b * (O * r) + (c * O + o) = (O / G) * (C * b + c * G) + o := by
        rw [hC]
        calc b * (O * r) + (c * O + o) = (b * r + c) * O + o := by ring
          _ = (b * r + c) * (O / G * G) + o := by rw [hOG']
          _ = _ := by ring
      rw [this, Nat.mul_add_div hOg]; ring
    have hCpos : 0 < C := Nat.lt_of_le_of_lt (Nat.zero_le _) hcG
    rw [e1, e2, e3, Nat.mul_add_div hCpos, Nat.div_eq_of_lt hcG, Nat.add_zero, Nat.mul_add_mod, Nat.mod_eq_of_lt hcG]

end Conv
end CrypTen

import Verif.Model.Layers
import Verif.Spec.Layers
import Verif.Props.Program
import Verif.Props.Reciprocal
import Verif.Props.BinaryTensor

/-!
# C91: layers that are built directly
-/

namespace CrypTen.Layers
open NdTensor OnnxSpec
variable {R : Type}

/-! ## Adding a bias -/

theorem broadcastRev_left : ∀ a b : List ℕ, b.length ≤ a.length → (∀ k < b.length, b.getD k 0 = 1 ∨ b.getD k 0 = a.getD k 0) → Grad.broadcastRev a b = some a
  | [], [], _, _ => rfl
  | _ :: _, [], _, _ => rfl
  | [], _ :: _, h, _ => by simp at h
  | m :: a, q :: b, h, hk => by
    have h0 := hk 0 (by simp)
    simp only [List.getD_cons_zero] at h0
    rw [Grad.broadcastRev, if_pos (by tauto), broadcastRev_left a b (by simpa using h) fun k hk' => by simpa using hk (k + 1) (by simpa using hk')]
    rfl

theorem stretch_self : ∀ {s idx : List ℕ}, ValidIdx s idx → stretchIdx s idx = idx
  | _, _, .nil => rfl
  | _, _, .cons (a := n) (b := i) h t => by
    have := stretch_self t
    simp only [stretchIdx, List.zipWith_cons_cons] at this ⊢
    rw [this]
    congr 1
    split
    · omega
    · rfl

theorem broadcast_self (t : NdTensor R) {idx : List ℕ} (h : ValidIdx t.shape idx) : (t.broadcast t.shape).data idx = t.data idx := by
  show t.data _ = _
  rw [Nat.sub_self, List.drop_zero, stretch_self h]

theorem fits_refl (s : List ℕ) : Onnx.Fits s s := ⟨le_rfl, fun _ _ => .inr rfl⟩

/-- Adding something that can be stretched to the shape of the first operand. -/
theorem addB_fits [Add R] (y b : NdTensor R) (h : Onnx.Fits b.shape y.shape) : ∃ z, addB y b = some z ∧ z.shape = y.shape ∧
    ∀ idx, ValidIdx y.shape idx → z.data idx = y.data idx + (b.broadcast y.shape).data idx := by
  have e : Grad.broadcastRev y.shape.reverse b.shape.reverse = some y.shape.reverse := by
    refine broadcastRev_left _ _ (by simpa using h.1) fun k hk => ?_
    have hk' : k < b.shape.length := by simpa using hk
    have hl := h.1
    have := h.2 k (by omega)
    rw [dimR, dimR, List.getD_eq_getElem _ _ hk, List.getD_eq_getElem _ _ (by simp; omega)] at this
    rw [List.getD_eq_getElem _ _ hk, List.getD_eq_getElem _ _ (by simp; omega)]
    exact this
  refine ⟨⟨y.shape, fun idx => (y.broadcast y.shape).data idx + (b.broadcast y.shape).data idx⟩, ?_, rfl, fun idx hi => ?_⟩
  · simp only [addB, e, Option.bind_eq_bind, Option.bind_some, List.reverse_reverse, Onnx.expand_of_fits h, Onnx.expand_of_fits (fits_refl y.shape)]
    rfl
  · show (y.broadcast y.shape).data idx + _ = _
    rw [broadcast_self y hi]

/-! ## Linear -/

/-- **C91, `Linear`**: for every input with at least one dimension whose last size is the number of input features, `x A^T + b` along that dimension. -/
theorem C91_linear [CommRing R] (inF outF : ℕ) (bias : Bool) (w b : List ℕ → R) (x : NdTensor R) (s : List ℕ) (hx : x.shape = s ++ [inF]) :
    ∃ y, (Linear.init inF outF bias w b).forward x = some y ∧ IsLinear ⟨[outF, inF], w⟩ (if bias then some ⟨[outF], b⟩ else none) x y := by
  obtain ⟨wt, hwt, hws, hwd⟩ : ∃ wt, (⟨[outF, inF], w⟩ : NdTensor R).t = some wt ∧ wt.shape = [inF, outF] ∧ ∀ l j, wt.data [l, j] = w [j, l] :=
    ⟨_, rfl, rfl, fun l j => rfl⟩
  obtain ⟨y0, hy0, hys, hyd⟩ : ∃ y0, matmulLast x wt = some y0 ∧ y0.shape = s ++ [outF] ∧
      ∀ idx j, y0.data (idx ++ [j]) = ∑ l ∈ Finset.range inF, x.data (idx ++ [l]) * w [j, l] := by
    refine ⟨⟨s ++ [outF], fun idx => ∑ l ∈ Finset.range inF, x.data (idx.dropLast ++ [l]) * wt.data [l, idx.getLastD 0]⟩, ?_, rfl, fun idx j => ?_⟩
    · simp [matmulLast, hx, hws]
    · simp [hwd]
  cases bias with
  | false =>
    refine ⟨y0, ?_, s, inF, outF, rfl, hx, hys, fun idx j _ _ => ?_⟩
    · simp [Linear.init, Linear.forward, hwt, hy0]
    · rw [hyd]; simp
  | true =>
    have hf : Onnx.Fits (⟨[outF], b⟩ : NdTensor R).shape y0.shape := by
      rw [hys]
      refine ⟨by simp, fun k _ => ?_⟩
      cases k with
      | zero => exact .inr (by simp [dimR])
      | succ k => exact .inl (by simp [dimR])
    obtain ⟨z, hz, hzs, hzd⟩ := addB_fits y0 ⟨[outF], b⟩ hf
    refine ⟨z, ?_, s, inF, outF, rfl, hx, hzs.trans hys, fun idx j hi hj => ?_⟩
    · simp [Linear.init, Linear.forward, hwt, hy0, hz]
    · have hv : ValidIdx y0.shape (idx ++ [j]) := by
        rw [hys]; exact List.rel_append hi (.cons hj .nil)
      rw [hzd _ hv, hyd, hys]
      show _ + b _ = _ + b _
      congr 2
      have hl := hi.length
      simp only [List.length_append, List.length_cons, List.length_nil, Nat.zero_add, Nat.add_sub_cancel]
      rw [← hl, List.drop_left]
      simp only [stretchIdx, List.zipWith_cons_cons, List.zipWith_nil_left]
      congr 1
      split
      · omega
      · rfl

/-- Anything else is refused. -/
theorem C91_linear_refused [CommRing R] (inF outF : ℕ) (bias : Bool) (w b : List ℕ → R) (x : NdTensor R) (hx : x.shape = [] ∨ ∃ s k, k ≠ inF ∧ x.shape = s ++ [k]) :
    (Linear.init inF outF bias w b).forward x = none := by
  have hm : ∀ wt : NdTensor R, wt.shape = [inF, outF] → matmulLast x wt = none := fun wt hw => by
    rcases hx with hx | ⟨s, k, hk, hx⟩
    · simp [matmulLast, hx]
    · simp [matmulLast, hx, hw, hk]
  simp only [Linear.init, Linear.forward]
  show (Option.bind (some _) _) = none
  rw [Option.bind_some]
  show Option.bind (matmulLast x _) _ = none
  rw [hm _ rfl]
  rfl

/-- `MatMul` with a parameter multiplies by it, without one it multiplies the two tensors of its input; everything else is refused. -/
theorem C91_matmul [CommRing R] (x w : NdTensor R) (s : List ℕ) (k m : ℕ) (hx : x.shape = s ++ [k]) (hw : w.shape = [k, m]) :
    ∃ y, matMul (some w) (.tensor x) = some y ∧ matMul none (.list [x, w]) = some y ∧ y.shape = s ++ [m] ∧
      ∀ idx j, y.data (idx ++ [j]) = ∑ l ∈ Finset.range k, x.data (idx ++ [l]) * w.data [l, j] := by
  refine ⟨⟨s ++ [m], fun idx => ∑ l ∈ Finset.range k, x.data (idx.dropLast ++ [l]) * w.data [l, idx.getLastD 0]⟩, ?_, ?_, rfl, fun idx j => ?_⟩
  · simp [matMul, matmulLast, hx, hw]
  · simp [matMul, matmulLast, hx, hw]
  · simp

theorem C91_matmul_refused [CommRing R] (w : NdTensor R) (x : NdTensor R) (xs : List (NdTensor R)) :
    matMul (some w) (.list xs) = none ∧ matMul none (.tensor x) = none ∧ (xs.length ≠ 2 → matMul none (.list xs) = none) := by
  refine ⟨rfl, rfl, fun h => ?_⟩
  match xs, h with
  | [], _ => rfl
  | [_], _ => rfl
  | [_, _], h => simp at h
  | _ :: _ :: _ :: _, _ => rfl

/-! ## Conv1d and Conv2d -/

theorem read_length {r : ℕ} {s : Size} {l : List ℕ} (h : s.read r = some l) : l.length = r := by
  cases s with
  | int v => simp only [Size.read, Option.some.injEq] at h; rw [← h]; simp
  | tuple vs =>
    simp only [Size.read] at h
    split at h
    · next e => simp only [Option.some.injEq] at h; rw [← h]; exact e
    · simp at h

theorem convCall_isConv [CommRing R] (r : ℕ) (l : ConvLayer R) (x : NdTensor R) (ss ps ds ks ns : List ℕ) (B O Cg : ℕ) (hs : l.stride.read r = some ss) (hp : l.padding.read r = some ps)
    (hd : l.dilation.read r = some ds) (hx : x.shape = B :: Cg * l.groups :: ns) (hw : l.weight.shape = O :: Cg :: ks) (hns : ns.length = r) (hks : ks.length = r)
    (hg : 1 ≤ l.groups) (hCg : 1 ≤ Cg) (hO : 1 ≤ O) (hdiv : l.groups ∣ O)
    (hfit : ∀ d < r, 1 ≤ ns.getD d 0 ∧ 1 ≤ ks.getD d 0 ∧ 1 ≤ ss.getD d 0 ∧ 1 ≤ ds.getD d 0 ∧ ds.getD d 0 * (ks.getD d 0 - 1) + 1 ≤ ns.getD d 0 + 2 * ps.getD d 0) :
    ∃ y, convCall r l x = some y ∧ IsConv x l.weight y none ss (ps ++ ps) ds l.groups ∧ ∃ os, y.shape = B :: O :: os ∧ os.length = r := by
  have hpl := read_length hp
  obtain ⟨cs, z1, z2, z3, z4⟩ := Onnx.zipDims_some r ss ps ds (read_length hs) hpl (read_length hd)
  have hcl : cs.length = r := by rw [← read_length hs, ← z2]; simp
  have ha : ∀ d < r, (ps ++ ps).getD d 0 = ps.getD d 0 := fun d h => by
    rw [List.getD_append _ _ _ _ (by omega)]
  have hb : ∀ d < r, (ps ++ ps).getD (r + d) 0 = ps.getD d 0 := fun d h => by
    rw [List.getD_append_right _ _ _ _ (by omega), hpl, Nat.add_sub_cancel_left]
  obtain ⟨y, hy, hc, ho⟩ := Onnx.conv_isConv x l.weight ss (ps ++ ps) ds l.groups B O Cg ns ks r cs hx hw hns hks hcl z2 (fun d h => by rw [z3, ha d h])
    (fun d h => by rw [hb d h, ha d h]) z4 hg hCg hO hdiv fun d h => by
      rw [ha d h, hb d h]
      obtain ⟨a1, a2, a3, a4, a5⟩ := hfit d h
      exact ⟨a1, a2, a3, a4, by omega⟩
  exact ⟨y, by simp [convCall, hs, hp, hd, z1, hy], hc, ho⟩

/-- The arguments are those of a layer, and the input and the kernel are not empty; the kernel is not larger than the padded input. -/
structure ConvOk (r inC outC groups : ℕ) (kernel stride padding dilation : Size) (ks ss ps ds ns : List ℕ) : Prop where
  hkernel : kernel.read r = some ks
  hstride : stride.read r = some ss
  hpadding : padding.read r = some ps
  hdilation : dilation.read r = some ds
  hgroups : 1 ≤ groups
  hin : groups ∣ inC
  hout : groups ∣ outC
  inPos : 1 ≤ inC
  outPos : 1 ≤ outC
  sizes : ns.length = r
  fit : ∀ d < r, 1 ≤ ns.getD d 0 ∧ 1 ≤ ks.getD d 0 ∧ 1 ≤ ss.getD d 0 ∧ 1 ≤ ds.getD d 0 ∧ ds.getD d 0 * (ks.getD d 0 - 1) + 1 ≤ ns.getD d 0 + 2 * ps.getD d 0

theorem ConvOk.torch {r inC outC groups : ℕ} {kernel stride padding dilation : Size} {ks ss ps ds ns : List ℕ} (h : ConvOk r inC outC groups kernel stride padding dilation ks ss ps ds ns) :
    torchConv r inC outC kernel stride padding dilation groups = some (outC :: inC / groups :: ks) := by
  rw [torchConv, if_pos ⟨h.hgroups, Nat.mod_eq_zero_of_dvd h.hin, Nat.mod_eq_zero_of_dvd h.hout⟩, h.hkernel, h.hstride, h.hpadding, h.hdilation]
  rfl

/-- **C91, `Conv1d`** with whole numbers for stride and padding: the cross-correlation with the padded input, plus the bias of the channel. -/
theorem C91_conv1d_partial [CommRing R] (inC outC : ℕ) (kernel dilation : Size) (st pd groups : ℕ) (bias : Bool) (w b : List ℕ → R) (ks ds ns : List ℕ) (B : ℕ)
    (h : ConvOk 1 inC outC groups kernel (.int st) (.int pd) dilation ks [st] [pd] ds ns) (x : NdTensor R) (hx : x.shape = B :: inC :: ns) :
    ∃ l y, conv1dInit inC outC kernel (.int st) (.int pd) dilation groups bias w b = some l ∧ conv1dForward l x = some y ∧
      IsConv x ⟨outC :: inC / groups :: ks, w⟩ y (if bias then some ⟨[outC], b⟩ else none) [st] [pd, pd] ds groups := by
  have hi : inC = inC / groups * groups := (Nat.div_mul_cancel h.hin).symm
  refine ⟨⟨⟨outC :: inC / groups :: ks, w⟩, if bias then some ⟨[outC], b⟩ else none, .int st, .int pd, dilation, groups⟩, ?_⟩
  obtain ⟨y, hy, hc, os, hys, hol⟩ := convCall_isConv 1 ⟨⟨outC :: inC / groups :: ks, w⟩, if bias then some ⟨[outC], b⟩ else none, .int st, .int pd, dilation, groups⟩ x [st] [pd] ds ks ns B outC
    (inC / groups) h.hstride h.hpadding h.hdilation (by rw [hx, ← hi]) rfl h.sizes (read_length h.hkernel) h.hgroups
    (Nat.div_pos (Nat.le_of_dvd (by have := h.inPos; omega) h.hin) (by have := h.hgroups; omega)) h.outPos h.hout h.fit
  obtain ⟨m, rfl⟩ : ∃ m, os = [m] := by
    match os, hol with
    | [m], _ => exact ⟨m, rfl⟩
  cases bias with
  | false =>
    refine ⟨y, by simp [conv1dInit, Size.isInt, h.torch], ?_, hc⟩
    simp only [conv1dForward, hy, Option.bind_eq_bind, Option.bind_some]
    rfl
  | true =>
    have hu : (⟨[outC], b⟩ : NdTensor R).unsqueeze (-1) = some ⟨[outC, 1], fun idx => b (idx.eraseIdx 1)⟩ := rfl
    obtain ⟨z, hz, hzs, hzd⟩ := addB_fits y ⟨[outC, 1], fun idx => b (idx.eraseIdx 1)⟩ (by
      rw [hys]
      refine ⟨by simp, fun k hk => ?_⟩
      match k with
      | 0 => exact .inl (by simp [dimR])
      | 1 => exact .inr (by simp [dimR])
      | k + 2 => exact .inl (by simp [dimR]))
    refine ⟨z, by simp [conv1dInit, Size.isInt, h.torch], ?_, hc.bias' hzs fun bb o t ht => ?_⟩
    · simp only [if_true] at hy
      simp only [conv1dForward, hy, Option.bind_eq_bind, Option.bind_some, if_true, hu, hz]
    · rw [hzd _ ht, add_comm]
      rw [hys] at ht ⊢
      obtain ⟨_, ht'⟩ := List.forall₂_cons.1 ht
      obtain ⟨ho, ht'⟩ := List.forall₂_cons.1 ht'
      obtain ⟨i, t2, hi2, ht2, rfl⟩ := List.forall₂_cons_left_iff.1 ht'
      obtain rfl := List.forall₂_nil_left_iff.1 ht2
      show b _ + _ = b _ + _
      congr 2
      simp only [stretchIdx, List.length_cons, List.length_nil, List.drop_succ_cons, List.drop_zero, List.zipWith_cons_cons, List.zipWith_nil_left, if_true]
      split
      · next e => simp; omega
      · rfl

/-- **C91, `Conv2d`**: the same with two spatial dimensions; strides, paddings, dilations and sizes of the kernel are numbers or pairs of numbers. -/
theorem C91_conv2d [CommRing R] (inC outC : ℕ) (kernel stride padding dilation : Size) (groups : ℕ) (bias : Bool) (w b : List ℕ → R) (ks ss ps ds ns : List ℕ) (B : ℕ)
    (h : ConvOk 2 inC outC groups kernel stride padding dilation ks ss ps ds ns) (x : NdTensor R) (hx : x.shape = B :: inC :: ns) :
    ∃ l y, conv2dInit inC outC kernel stride padding dilation groups bias w b = some l ∧ conv2dForward l x = some y ∧
      IsConv x ⟨outC :: inC / groups :: ks, w⟩ y (if bias then some ⟨[outC], b⟩ else none) ss (ps ++ ps) ds groups := by
  have hi : inC = inC / groups * groups := (Nat.div_mul_cancel h.hin).symm
  refine ⟨⟨⟨outC :: inC / groups :: ks, w⟩, if bias then some ⟨[outC], b⟩ else none, stride, padding, dilation, groups⟩, ?_⟩
  obtain ⟨y, hy, hc, os, hys, hol⟩ := convCall_isConv 2 ⟨⟨outC :: inC / groups :: ks, w⟩, if bias then some ⟨[outC], b⟩ else none, stride, padding, dilation, groups⟩ x ss ps ds ks ns B outC
    (inC / groups) h.hstride h.hpadding h.hdilation (by rw [hx, ← hi]) rfl h.sizes (read_length h.hkernel) h.hgroups
    (Nat.div_pos (Nat.le_of_dvd (by have := h.inPos; omega) h.hin) (by have := h.hgroups; omega)) h.outPos h.hout h.fit
  obtain ⟨m, m', rfl⟩ : ∃ m m', os = [m, m'] := by
    match os, hol with
    | [m, m'], _ => exact ⟨m, m', rfl⟩
  cases bias with
  | false =>
    refine ⟨y, by simp [conv2dInit, h.torch], ?_, hc⟩
    simp only [conv2dForward, hy, Option.bind_eq_bind, Option.bind_some]
    rfl
  | true =>
    have hu : (⟨[outC], b⟩ : NdTensor R).unsqueeze (-1) = some ⟨[outC, 1], fun idx => b (idx.eraseIdx 1)⟩ := rfl
    have hu' : (⟨[outC, 1], fun idx => b (idx.eraseIdx 1)⟩ : NdTensor R).unsqueeze (-1) = some ⟨[outC, 1, 1], fun idx => b ((idx.eraseIdx 2).eraseIdx 1)⟩ := rfl
    obtain ⟨z, hz, hzs, hzd⟩ := addB_fits y ⟨[outC, 1, 1], fun idx => b ((idx.eraseIdx 2).eraseIdx 1)⟩ (by
      rw [hys]
      refine ⟨by simp, fun k hk => ?_⟩
      match k with
      | 0 => exact .inl (by simp [dimR])
      | 1 => exact .inl (by simp [dimR])
      | 2 => exact .inr (by simp [dimR])
      | k + 3 => exact .inl (by simp [dimR]))
    refine ⟨z, by simp [conv2dInit, h.torch], ?_, hc.bias' hzs fun bb o t ht => ?_⟩
    · simp only [if_true] at hy
      simp only [conv2dForward, hy, Option.bind_eq_bind, Option.bind_some, if_true, hu, hu', hz]
    · rw [hzd _ ht, add_comm]
      rw [hys] at ht ⊢
      obtain ⟨_, ht'⟩ := List.forall₂_cons.1 ht
      obtain ⟨ho, ht'⟩ := List.forall₂_cons.1 ht'
      obtain ⟨i, t2, hi2, ht2, rfl⟩ := List.forall₂_cons_left_iff.1 ht'
      obtain ⟨i', t3, hi3, ht3, rfl⟩ := List.forall₂_cons_left_iff.1 ht2
      obtain rfl := List.forall₂_nil_left_iff.1 ht3
      show b _ + _ = b _ + _
      congr 2
      simp only [stretchIdx, List.length_cons, List.length_nil, List.drop_succ_cons, List.drop_zero, List.zipWith_cons_cons, List.zipWith_nil_left, if_true]
      split
      · next e => simp; omega
      · rfl

/-- Channels that are not multiples of the groups, and tuples of the wrong length, are refused. -/
theorem C91_conv_refused (r inC outC groups : ℕ) (kernel stride padding dilation : Size)
    (h : groups = 0 ∨ ¬groups ∣ inC ∨ ¬groups ∣ outC ∨ kernel.read r = none ∨ stride.read r = none ∨ padding.read r = none ∨ dilation.read r = none) :
    torchConv r inC outC kernel stride padding dilation groups = none := by
  unfold torchConv
  split
  · next hc =>
    rcases h with h | h | h | h | h | h | h
    · omega
    · exact absurd (Nat.dvd_of_mod_eq_zero hc.2.1) h
    · exact absurd (Nat.dvd_of_mod_eq_zero hc.2.2) h
    · rw [h]; rfl
    · rw [h]; cases kernel.read r <;> rfl
    · rw [h]; cases kernel.read r <;> cases stride.read r <;> rfl
    · rw [h]; cases kernel.read r <;> cases stride.read r <;> cases padding.read r <;> rfl
  · rfl

/-- The code violates the documentation ("stride controls the stride, a single number or a one-element tuple"): `Conv1d` refuses tuples for the stride and for the padding, which torch
accepts. -/
theorem C91_conv1d_tuple_wrong (inC outC : ℕ) (kernel stride padding dilation : Size) (groups : ℕ) (bias : Bool) (w b : List ℕ → R) (h : (∃ v, stride = .tuple v) ∨ ∃ v, padding = .tuple v) :
    conv1dInit inC outC kernel stride padding dilation groups bias w b = none := by
  unfold conv1dInit
  rcases h with ⟨v, rfl⟩ | ⟨v, rfl⟩
  · rfl
  · cases stride <;> rfl

/-- A 3 × 3 image with two channels in two groups, kernel 2 × 2, stride (2, 1), padding 1. -/
example : ConvOk 2 2 2 2 (.int 2) (.tuple [2, 1]) (.int 1) (.int 1) [2, 2] [2, 1] [1, 1] [1, 1] [3, 3] :=
  ⟨rfl, rfl, rfl, rfl, by decide, by decide, by decide, by decide, by decide, rfl, by decide⟩

/-- The bias of a channel is added to that channel. -/
example : ∃ l y, conv1dInit 1 2 (.int 2) (.int 1) (.int 0) (.int 1) 1 true (fun _ => 1) (fun i => 10 * (i.getD 0 0 : ℤ)) = some l ∧
    conv1dForward l ⟨[1, 1, 3], fun i => (i.getD 2 0 : ℤ)⟩ = some y ∧ y.shape = [1, 2, 2] ∧ y.data [0, 1, 1] = 13 := ⟨_, _, rfl, rfl, rfl, by decide⟩

example : ∃ y, (Linear.init 2 2 true (fun i => (i.getD 0 0 : ℤ) + 2 * i.getD 1 0) (fun i => 100 * (i.getD 0 0 : ℤ))).forward ⟨[1, 3, 2], fun i => (i.getD 1 0 : ℤ) + i.getD 2 0⟩ = some y ∧
    y.shape = [1, 3, 2] ∧ y.data [0, 2, 1] = 111 := ⟨_, rfl, rfl, by decide⟩

/-! ## On shares -/

section Shares
variable {n k : ℕ} {β : Type}

/-- The products that `x.matmul(weight.t())` sums. -/
theorem bilinear_linear (inF outF : ℕ) (x : β × Fin inF → ℚ) (w : Fin outF × Fin inF → ℚ) (t : β) (j : Fin outF) :
    bilinearQ (linearOp β inF outF) x w (t, j) = ∑ l, x (t, l) * w (j, l) := by
  rw [bilinearQ, linearOp, List.map_map, ← List.ofFn_eq_map, List.sum_ofFn]
  rfl

/-- **C91, `Linear` on shares**: with encrypted parameters the whole layer loses less than `n` units in the last place, for any number of features. -/
theorem C91_linear_encrypted [NeZero n] (hn : n < 2 ^ 60) (hk0 : 0 < k) (hk : k ≤ 62) (inF outF : ℕ) (x : AST n (β × Fin inF)) (w : AST n (Fin outF × Fin inF)) (b : AST n (Fin outF))
    (hx : x.scale = 2 ^ k) (hw : w.scale = 2 ^ k) (hb : b.scale = 2 ^ k) (hfit : ∀ t j, 2 ^ k * 2 ^ k * |∑ l, x.value (t, l) * w.value (j, l)| < 2 ^ 63)
    (hfit' : ∀ t j, 2 ^ k * (|∑ l, x.value (t, l) * w.value (j, l)| + |b.value j| + n / 2 ^ k) < 2 ^ 63) :
    Sat (linearShares x w (some b)) fun z => z.scale = 2 ^ k ∧ ∀ t j, |z.value (t, j) - ((∑ l, x.value (t, l) * w.value (j, l)) + b.value j)| < n / 2 ^ k := by
  have hp : (0 : ℚ) < 2 ^ k := by positivity
  refine Sat.bind (C56_mul_equal_scales hn (linearOp β inF outF) x w k hk0 hk hx hw fun i => ?_) fun y hy => ?_
  · obtain ⟨t, j⟩ := i
    rw [bilinear_linear, scaleQ_of hx, scaleQ_of hw]
    refine fits_of_abs (le_refl _) ?_
    rw [abs_mul, abs_of_pos (by positivity : (0 : ℚ) < 2 ^ k * 2 ^ k)]
    exact hfit t j
  have hys : y.scale = 2 ^ k := hy.1.trans hx
  have hyv : ∀ t j, |y.value (t, j) - ∑ l, x.value (t, l) * w.value (j, l)| < n / 2 ^ k := fun t j => by
    have := hy.2 (t, j)
    rwa [bilinear_linear, scaleQ_of hx] at this
  have hmax : max y.scale (b.reindex fun i : β × Fin outF => i.2).scale = 2 ^ k := by
    show max y.scale b.scale = _
    rw [hys, hb, max_self]
  refine (C56_add y (b.reindex fun i : β × Fin outF => i.2) ⟨by rw [hys]; exact Nat.two_pow_pos k, by show 0 < b.scale; rw [hb]; exact Nat.two_pow_pos k,
    Or.inl (by show y.scale ∣ b.scale; rw [hys, hb])⟩ fun i => ?_).sat.mono fun z hz => ⟨hz.1.trans hmax, fun t j => ?_⟩
  · obtain ⟨t, j⟩ := i
    rw [hmax]
    push_cast
    refine fits_scaled (b := |∑ l, x.value (t, l) * w.value (j, l)| + |b.value j| + n / 2 ^ k) ?_ hp (hfit' t j)
    rw [show (b.reindex fun i : β × Fin outF => i.2).value (t, j) = b.value j from by rw [value_reindex]]
    have h1 := abs_near (hyv t j).le (le_refl _)
    exact (abs_add_le _ _).trans (by linarith)
  · have hv : z.value (t, j) = y.value (t, j) + b.value j := by rw [hz.2, value_reindex]
    rw [hv, add_sub_add_right_eq_sub]
    exact hyv t j

/-- Two inputs with two features each. -/
example : let x : AST 2 (Fin 2 × Fin 2) := ⟨fun p i => if p = 0 then ![![70000, 2], ![-70000, 65536]] i.1 i.2 else ![![1, -3], ![0, 7]] i.1 i.2, 2 ^ 16⟩
    let w : AST 2 (Fin 3 × Fin 2) := ⟨fun p _ => if p = 0 then 65536 else 5, 2 ^ 16⟩
    let b : AST 2 (Fin 3) := ⟨fun p _ => if p = 0 then 6553600 else 5, 2 ^ 16⟩
    (∀ t j, 2 ^ 16 * 2 ^ 16 * |∑ l, x.value (t, l) * w.value (j, l)| < 2 ^ 63) ∧
    ∀ t j, 2 ^ 16 * (|∑ l, x.value (t, l) * w.value (j, l)| + |b.value j| + 2 / 2 ^ 16) < 2 ^ 63 := by decide +kernel

end Shares

end CrypTen.Layers

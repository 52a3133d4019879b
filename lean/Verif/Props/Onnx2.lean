import Verif.Props.Onnx1

/-!
# C66: layers imported from ONNX — sums, gathering, padding, global pooling
-/

namespace CrypTen
namespace Onnx
open NdTensor ShapeGrad OnnxSpec
variable {R : Type}

theorem sum_filter_allIdx [AddCommMonoid R] (s : List ℕ) (p : List ℕ → Bool) (f : List ℕ → R) :
    (((allIdx s).filter p).map f).sum = ∑ i ∈ idxSet s, if p i then f i else 0 := by
  have h : ∀ l : List (List ℕ), ((l.filter p).map f).sum = (l.map fun i => if p i then f i else 0).sum := by
    intro l
    induction l with
    | nil => rfl
    | cons a l ih =>
      by_cases ha : p a
      · rw [List.filter_cons_of_pos ha]; simp [ih, ha]
      · rw [List.filter_cons_of_neg ha]; simp [ih, ha]
  rw [h, idxSet, List.sum_toFinset _ (nodup_allIdx s)]

/-- Index 0 in the dimensions `ds`. -/
def zeroAt (ds : List ℕ) (i : List ℕ) : List ℕ := i.mapIdx fun d v => if d ∈ ds then 0 else v

theorem zeroAt_snoc (ds : List ℕ) (d : ℕ) (i : List ℕ) : zeroAt (ds ++ [d]) i = (zeroAt ds i).set d 0 := by
  refine ext_getD0 (by simp [zeroAt]) fun m hm => ?_
  have hm' : m < i.length := by simpa [zeroAt] using hm
  rw [getD_set0]
  simp only [zeroAt, getD_mapIdx _ _ hm', List.length_mapIdx, List.mem_append, List.mem_singleton]
  by_cases h1 : m = d
  · subst h1; simp [hm']
  · simp [h1]

theorem fold_sumKeep [AddCommMonoid R] (x : NdTensor R) : ∀ ds : List ℕ, (∀ d ∈ ds, d < x.shape.length) →
    (ds.foldl sumKeep x).shape = x.shape.mapIdx (fun d n => if d ∈ ds then 1 else n)
      ∧ ∀ idx, ValidIdx (ds.foldl sumKeep x).shape idx → (ds.foldl sumKeep x).data idx = ∑ i ∈ idxSet x.shape, if zeroAt ds i = idx then x.data i else 0 := by
  intro ds
  induction ds using List.reverseRecOn with
  | nil =>
    intro _
    have e' : ∀ l : List ℕ, l.mapIdx (fun _ n => n) = l := fun l => by
      refine ext_getD0 (by simp) fun m hm => ?_
      rw [getD_mapIdx _ _ (by simpa using hm)]
    have e : ∀ l : List ℕ, zeroAt [] l = l := fun l => by simp [zeroAt, e']
    refine ⟨by simp [e'], fun idx hidx => ?_⟩
    simp only [e, List.foldl_nil] at hidx ⊢
    rw [Finset.sum_ite_eq' (idxSet x.shape) idx x.data, if_pos]
    exact List.mem_toFinset.2 (mem_allIdx_iff.2 hidx)
  | append_singleton ds d ih =>
    intro hds
    obtain ⟨h1, h2⟩ := ih fun d' hd' => hds d' (by simp [hd'])
    have hd : d < x.shape.length := hds d (by simp)
    rw [List.foldl_append, List.foldl_cons, List.foldl_nil]
    generalize hy : ds.foldl sumKeep x = y at h1 h2
    have hyl : y.shape.length = x.shape.length := by rw [h1]; simp
    refine ⟨?_, fun idx hidx => ?_⟩
    · show y.shape.set d 1 = _
      rw [h1]
      refine ext_getD0 (by simp) fun m hm => ?_
      have hm' : m < x.shape.length := by simpa using hm
      rw [getD_set0, getD_mapIdx _ _ hm', getD_mapIdx _ _ hm']
      simp only [List.length_mapIdx, List.mem_append, List.mem_singleton]
      by_cases h : m = d
      · subst h; simp [hm']
      · simp [h]
    · change ValidIdx (y.shape.set d 1) idx at hidx
      obtain ⟨q1, q2⟩ := validIdx_iff.1 hidx
      simp only [List.length_set] at q1 q2
      have hi0 : idx.getD d 0 = 0 := by
        have := q2 d (by omega)
        rw [getD_set0, if_pos ⟨rfl, by omega⟩] at this
        omega
      show ∑ a ∈ Finset.range (y.shape.getD d 0), y.data (idx.set d a) = _
      have hv : ∀ a ∈ Finset.range (y.shape.getD d 0), ValidIdx y.shape (idx.set d a) := fun a ha => by
        refine validIdx_iff.2 ⟨by simp [q1], fun m hm => ?_⟩
        have := q2 m hm
        rw [getD_set0] at this ⊢
        by_cases hmd : m = d
        · subst hmd; rw [if_pos ⟨rfl, by omega⟩]; exact Finset.mem_range.1 ha
        · rw [if_neg (by tauto)] at this ⊢; exact this
      rw [Finset.sum_congr rfl fun a ha => h2 _ (hv a ha), Finset.sum_comm]
      refine Finset.sum_congr rfl fun i hi => ?_
      have hiv : ValidIdx x.shape i := mem_allIdx_iff.1 (List.mem_toFinset.1 hi)
      have hzl : (zeroAt ds i).length = y.shape.length := by simp [zeroAt, hiv.length, hyl]
      have hzd : (zeroAt ds i).getD d 0 < y.shape.getD d 0 := by
        have := (validIdx_iff.1 hiv).2 d hd
        rw [h1, getD_mapIdx _ _ hd, zeroAt, getD_mapIdx _ _ (by rw [hiv.length]; exact hd)]
        by_cases h : d ∈ ds <;> simp only [h, if_true, if_false] <;> omega
      rw [zeroAt_snoc]
      by_cases hc : (zeroAt ds i).set d 0 = idx
      · rw [if_pos hc]
        rw [Finset.sum_eq_single ((zeroAt ds i).getD d 0)]
        · rw [if_pos]
          rw [← hc, List.set_set]
          exact (set_getD_self _ _).symm
        · intro a _ hne
          rw [if_neg]
          intro h
          refine hne ?_
          rw [h, getD_set0, if_pos ⟨rfl, by omega⟩]
        · intro h
          exact absurd (Finset.mem_range.2 hzd) h
      · rw [if_neg hc]
        refine Finset.sum_eq_zero fun a _ => ?_
        rw [if_neg]
        intro h
        refine hc ?_
        rw [h, List.set_set, ← hi0]
        exact set_getD_self _ _

theorem zipIdx_filter (ds l : List ℕ) : ((l.zipIdx.filter fun q => ¬q.2 ∈ ds).map Prod.fst) = ((List.range l.length).filter (· ∉ ds)).map fun d => l.getD d 0 := by
  have h : l.zipIdx = (List.range l.length).map fun d => (l.getD d 0, d) := by
    refine List.ext_getElem (by simp) fun n h1 h2 => ?_
    simp only [List.length_zipIdx] at h1
    simp [h1]
  rw [h, List.filter_map, List.map_map]
  rfl

theorem getD_map_filter (s ds : List ℕ) {d : ℕ} (hd : d < s.length) (hn : d ∉ ds) :
    (((List.range s.length).filter (· ∉ ds)).map fun d => s.getD d 0).getD (((List.range s.length).filter (· ∉ ds)).idxOf d) 0 = s.getD d 0 := by
  have hm : d ∈ (List.range s.length).filter (· ∉ ds) := by simp [hd, hn]
  have hlt := List.idxOf_lt_length_iff.2 hm
  rw [List.getD_eq_getElem _ _ (by simpa using hlt), List.getElem_map, List.getElem_idxOf]

/-- C66 (`ReduceSum`): for every tensor and every choice of distinct axes the imported layer returns the sums ONNX prescribes, with dimensions of size 1 or without them; the default is to keep them. Missing: without axes (ONNX: all) importing raises. -/
theorem C66_reduceSum_partial [AddCommMonoid R] (x : NdTensor R) (axes : List ℤ) (ds : List ℕ) (h : List.Forall₂ (AxisOf x.shape.length) axes ds) (hn : ds.Nodup) (keepdims : Option ℤ) :
    ∃ y, reduceSum (some axes) keepdims x = some y ∧ IsReduceSum x y (· ∈ ds) (decide (keepdims = none ∨ keepdims = some 1)) := by
  have hm : axes.mapM (normDim x.shape.length) = some ds := mapM_forall₂.2 (h.imp fun a b hab => axisOf_iff.1 hab)
  have hds : ∀ d ∈ ds, d < x.shape.length := fun d hd => by
    obtain ⟨k, hk, rfl⟩ := List.mem_iff_getElem.1 hd
    exact ((List.forall₂_iff_get.1 h).2 k (by rw [h.length_eq]; exact hk) hk).1
  have hkeep : keepdimsAttr keepdims = decide (keepdims = none ∨ keepdims = some 1) := by
    unfold keepdimsAttr
    cases keepdims with
    | none => rfl
    | some v => by_cases hv : v = 1 <;> simp [hv]
  obtain ⟨h1, h2⟩ := fold_sumKeep x ds hds
  rw [reduceSum, Option.bind_some, sumDims, hm, Option.bind_some, if_pos hn, hkeep]
  by_cases hk : keepdims = none ∨ keepdims = some 1
  · simp only [hk, decide_true, if_true]
    refine ⟨_, rfl, h1, fun idx hidx => ?_⟩
    rw [h2 idx hidx, sum_filter_allIdx]
    refine Finset.sum_congr rfl fun i _ => ?_
    simp only [reduceIdx, zeroAt, if_true, decide_eq_true_eq]
    congr
  · simp only [hk, decide_false, Bool.false_eq_true, if_false]
    refine ⟨_, rfl, (zipIdx_filter ds x.shape).symm, fun idx hidx => ?_⟩
    simp only at hidx ⊢
    obtain ⟨hil, hiv⟩ := validIdx_iff.1 hidx
    simp only [List.length_map] at hil hiv
    rw [h2]
    · rw [sum_filter_allIdx]
      refine Finset.sum_congr rfl fun i hi => ?_
      have hiv : ValidIdx x.shape i := mem_allIdx_iff.1 (List.mem_toFinset.1 hi)
      have hll : i.length = x.shape.length := hiv.length
      have : (zeroAt ds i = (List.range x.shape.length).map fun d => if d ∈ ds then 0 else idx.getD (((List.range x.shape.length).filter (· ∉ ds)).idxOf d) 0) ↔ reduceIdx (· ∈ ds) false i = idx := by
        rw [reduceIdx, if_neg (by simp), zipIdx_filter, hll]
        constructor
        · intro heq
          refine ext_getD0 (by simp [hil]) fun k hk => ?_
          simp only [List.length_map] at hk
          rw [List.getD_eq_getElem _ _ (by simpa using hk), List.getElem_map]
          have hmem : ((List.range x.shape.length).filter (· ∉ ds))[k] < x.shape.length ∧ ((List.range x.shape.length).filter (· ∉ ds))[k] ∉ ds := by
            have hm := List.getElem_mem hk
            rw [List.mem_filter] at hm
            exact ⟨List.mem_range.1 hm.1, of_decide_eq_true hm.2⟩
          have := congrArg (fun l => l.getD (((List.range x.shape.length).filter (· ∉ ds))[k]) 0) heq
          simp only [zeroAt] at this
          rw [getD_mapIdx _ _ (by omega), getD_map_range _ _ hmem.1, if_neg hmem.2, if_neg hmem.2] at this
          rw [this]
          congr 1
          exact List.Nodup.idxOf_getElem (List.Nodup.filter _ List.nodup_range) k hk
        · intro heq
          refine ext_getD0 (by simp [zeroAt, hll]) fun m hm => ?_
          have hm' : m < i.length := by simpa [zeroAt] using hm
          rw [zeroAt, getD_mapIdx _ _ hm', getD_map_range _ _ (by omega)]
          by_cases hmd : m ∈ ds
          · simp [hmd]
          · rw [if_neg hmd, if_neg hmd, ← heq]
            have := getD_map_filter i ds hm' hmd
            rw [hll] at this
            exact this.symm
      by_cases hc : reduceIdx (· ∈ ds) false i = idx
      · rw [if_pos (this.2 hc), if_pos (by simpa using hc)]
      · rw [if_neg (fun h => hc (this.1 h)), if_neg (by simpa using hc)]
    · rw [h1]
      refine validIdx_iff.2 ⟨by simp, fun m hm => ?_⟩
      have hm' : m < x.shape.length := by simpa using hm
      rw [getD_mapIdx _ _ hm', getD_map_range _ _ hm']
      by_cases hmd : m ∈ ds
      · simp [hmd]
      · rw [if_neg hmd, if_neg hmd]
        have hmem : m ∈ (List.range x.shape.length).filter (· ∉ ds) := by simp [hm', hmd]
        have := hiv _ (List.idxOf_lt_length_iff.2 hmem)
        rwa [getD_map_filter x.shape ds hm' hmd] at this

theorem C66_reduceSum_no_axes_wrong [AddCommMonoid R] (keepdims : Option ℤ) (x : NdTensor R) : reduceSum none keepdims x = none := rfl

/-- Sums over the first and the last dimension of three. -/
example : ∃ y, reduceSum (some [0, -1]) (some 0) (⟨[2, 2, 2], fun i => i.getD 0 0 * 100 + i.getD 1 0 * 10 + i.getD 2 0⟩ : NdTensor ℕ) = some y ∧ y.shape = [2] ∧ y.data [1] = 242 := ⟨_, rfl, rfl, by decide⟩
example : List.Forall₂ (AxisOf 3) [0, -1] [0, 2] := .cons ⟨by decide, Or.inl rfl⟩ (.cons ⟨by decide, Or.inr rfl⟩ .nil)

/-! ## Gather -/

theorem inBounds_iff (n : ℕ) (index : NdTensor ℤ) : inBounds n index = true ↔ ∀ i, ValidIdx index.shape i → ∃ k, AxisOf n (index.data i) k := by
  have e : (List.range index.shape.prod).map (fun k => index.data (unflatIdx index.shape k)) = (allIdx index.shape).map index.data := by
    rw [allIdx_eq, List.map_map]; rfl
  rw [inBounds, e, List.all_map, List.all_eq_true]
  constructor
  · intro h i hi
    have := h i (mem_allIdx_iff.2 hi)
    obtain ⟨k, hk⟩ := Option.isSome_iff_exists.1 this
    exact ⟨k, axisOf_iff.2 hk⟩
  · intro h i hi
    obtain ⟨k, hk⟩ := h i (mem_allIdx_iff.1 hi)
    exact Option.isSome_iff_exists.2 ⟨k, axisOf_iff.1 hk⟩

/-- C66 (`Gather` with an axis): for every tensor, every axis and every tensor of indices within the dimension (negative ones count from the end) the imported layer gathers what ONNX prescribes, and it raises if an index is outside. Missing: a node without axis (see `C66_gather_default_wrong`). -/
theorem C66_gather_partial (axis : ℤ) (d : ℕ) (x : NdTensor R) (index : NdTensor ℤ) (h : AxisOf x.shape.length axis d) :
    ((∀ i, ValidIdx index.shape i → ∃ k, AxisOf (x.shape.getD d 0) (index.data i) k) → ∃ y, gather (some axis) x index = some y ∧ IsGather x y index d)
      ∧ (¬(∀ i, ValidIdx index.shape i → ∃ k, AxisOf (x.shape.getD d 0) (index.data i) k) → gather (some axis) x index = none) := by
  have hd := axisOf_iff.1 h
  have hne : ¬((some axis : Option ℤ) = none ∨ x.shape = []) := by
    have := h.1
    rintro (h | h)
    · cases h
    · rw [h] at this; simp at this
  have e : gather (some axis) x index = if inBounds (x.shape.getD d 0) index then
        some { shape := x.shape.take d ++ index.shape ++ x.shape.drop (d + 1)
               data := fun idx => x.data (idx.take d ++ ((normDim (x.shape.getD d 0) (index.data ((idx.drop d).take index.shape.length))).getD 0 :: idx.drop (d + index.shape.length))) }
      else none := by
    rw [gather, take, if_neg hne, Option.getD_some, hd, Option.bind_some]
  refine ⟨fun hb => ?_, fun hb => ?_⟩
  · rw [e, if_pos ((inBounds_iff _ _).2 hb)]
    refine ⟨_, rfl, rfl, fun a i b ha hi hbv => ?_⟩
    obtain ⟨k, hk⟩ := hb i hi
    refine ⟨k, hk, ?_⟩
    have hal : a.length = d := by rw [ha.length, List.length_take]; have := h.1; omega
    have e1 : (a ++ i ++ b).take d = a := by rw [List.append_assoc]; exact List.take_left' hal
    have e2 : ((a ++ i ++ b).drop d).take index.shape.length = i := by rw [List.append_assoc, List.drop_left' hal]; exact List.take_left' hi.length
    have e3 : (a ++ i ++ b).drop (d + index.shape.length) = b := List.drop_left' (by simp [hal, hi.length])
    show x.data _ = _
    rw [e1, e2, e3, axisOf_iff.1 hk, Option.getD_some]
  · rw [e, if_neg]
    exact fun hc => hb ((inBounds_iff _ _).1 hc)

/-- The last and the first column of a matrix. -/
example : ∃ y, gather (some 1) (⟨[2, 3], fun i => i.getD 0 0 * 10 + i.getD 1 0⟩ : NdTensor ℕ) ⟨[2], fun i => if i = [0] then -1 else 0⟩ = some y ∧ y.shape = [2, 2] ∧ y.data [1, 0] = 12 ∧ y.data [1, 1] = 10 :=
  ⟨_, rfl, rfl, rfl, rfl⟩

/-- The code violates the property: without the attribute the axis is 0 in ONNX, but the layer gathers from the flattened tensor; gathering row 1 of a matrix gives entry (0, 1). -/
theorem C66_gather_default_wrong (x : NdTensor R) (hx : x.shape = [2, 3]) : ∃ y, gather none x ⟨[1], fun _ => 1⟩ = some y ∧ y.shape = [1] ∧ y.data [0] = x.data [0, 1] ∧ ¬IsGather x y ⟨[1], fun _ => 1⟩ 0 := by
  refine ⟨⟨[1], fun _ => x.data (unflatIdx x.shape ((normDim x.shape.prod 1).getD 0))⟩, ?_, rfl, ?_, fun h => ?_⟩
  · rw [gather, take, if_pos (Or.inl rfl), if_pos]
    rw [hx]; decide
  · rw [hx]; rfl
  · have := h.1
    simp [hx] at this

/-! ## Pad -/

theorem padPairs_nat : ∀ (pads : List ℕ) (r : ℕ), pads.length = 2 * r →
    ∃ ps, padPairs (pads.map fun n : ℕ => (n : ℤ)) = some ps ∧ ps.length = r ∧ ∀ k < r, ps.getD k (0, 0) = ((pads.getD (2 * k) 0 : ℤ), (pads.getD (2 * k + 1) 0 : ℤ)) := by
  intro pads r
  induction r generalizing pads with
  | zero => intro h; rw [List.length_eq_zero_iff.1 (by omega : pads.length = 0)]; exact ⟨[], rfl, rfl, by simp⟩
  | succ r ih =>
    intro h
    match pads, h with
    | a :: b :: l, h =>
      obtain ⟨ps, h1, h2, h3⟩ := ih l (by simp at h; omega)
      refine ⟨((a : ℤ), (b : ℤ)) :: ps, by simp [padPairs, h1], by simp [h2], fun k hk => ?_⟩
      cases k with
      | zero => simp
      | succ k =>
        rw [List.getD_cons_succ, h3 k (by omega), show 2 * (k + 1) = 2 * k + 1 + 1 by omega, List.getD_cons_succ, List.getD_cons_succ, List.getD_cons_succ, List.getD_cons_succ]

/-- C66 (`Pad`): the imported layer pads as ONNX prescribes if the list of pads is the same read in the order of ONNX (all beginnings, then all ends) and in the order of torch (pairs, last dimension first); this includes all tensors with one dimension and pads that are all equal. Missing: other lists (see `C66_pad_wrong`) and values other than 0. -/
theorem C66_pad_partial [Zero R] (x : NdTensor R) (pads : List ℕ) (hl : pads.length = 2 * x.shape.length)
    (h : ∀ d < x.shape.length, pads.getD (2 * (x.shape.length - 1 - d)) 0 = pads.getD d 0 ∧ pads.getD (2 * (x.shape.length - 1 - d) + 1) 0 = pads.getD (x.shape.length + d) 0) :
    ∃ y, pad x (pads.map fun n : ℕ => (n : ℤ)) none = some y ∧ IsPad x y pads 0 := by
  obtain ⟨ps, h1, h2, h3⟩ := padPairs_nat pads x.shape.length hl
  have hall := padAll_length x.shape.length ps (by omega)
  have hg : ∀ d < x.shape.length, (padAll x.shape.length ps).getD d (0, 0) = ((pads.getD d 0 : ℤ), (pads.getD (x.shape.length + d) 0 : ℤ)) := fun d hd => by
    rw [padAll_getD _ _ (by omega) hd, off, if_pos (by omega), Nat.sub_zero, h3 _ (by omega), (h d hd).1, (h d hd).2]
  have hm : (x.shape.zip (padAll x.shape.length ps)).mapM (fun q => padSize q.1 q.2) = some ((List.range x.shape.length).map fun d => x.shape.getD d 0 + pads.getD d 0 + pads.getD (x.shape.length + d) 0) := by
    rw [mapM_forall₂]
    refine List.forall₂_iff_get.2 ⟨by simp [hall], fun k k1 k2 => ?_⟩
    have hk : k < x.shape.length := by simpa using k2
    simp only [List.get_eq_getElem, List.getElem_zip, List.getElem_map, List.getElem_range]
    have := hg k hk
    rw [List.getD_eq_getElem _ _ (by omega)] at this
    rw [this, padSize, if_pos (by simp only; omega), List.getD_eq_getElem x.shape _ hk]
    simp only [Option.some.injEq]
    omega
  have hy : pad x (pads.map fun n : ℕ => (n : ℤ)) none = some { shape := (List.range x.shape.length).map fun d => x.shape.getD d 0 + pads.getD d 0 + pads.getD (x.shape.length + d) 0, data := fun idx => (padSrc x.shape (padAll x.shape.length ps) idx).elim 0 x.data } := by
    simp only [pad, NdTensor.pad, h1, Option.bind_eq_bind, Option.bind_some, Option.pure_def]
    rw [if_pos (by omega), hm, Option.bind_some]
  refine ⟨_, hy, hl, by simp, fun d hd => ?_, fun i hi => ?_, fun j hj hno => ?_⟩
  · show ((List.range x.shape.length).map _).getD d 0 = _
    rw [getD_map_range _ _ hd]; omega
  · have hil := hi.length
    have : padSrc x.shape (padAll x.shape.length ps) (i.mapIdx fun d v => v + pads.getD d 0) = some i := by
      refine (padSrc_eq_some _ _ _ _ (by omega) (by simp [hil])).2 ⟨hil, fun m hm => ⟨?_, (validIdx_iff.1 hi).2 m hm⟩⟩
      rw [hg m hm, getD_mapIdx _ _ (by omega)]
      push_cast; omega
    show Option.elim _ _ _ = _
    rw [this]; rfl
  · show Option.elim _ _ _ = _
    have hjl : j.length = x.shape.length := by rw [hj.length]; simp
    cases hp : padSrc x.shape (padAll x.shape.length ps) j with
    | none => rfl
    | some i =>
      exfalso
      obtain ⟨q1, q2⟩ := (padSrc_eq_some _ _ _ _ (by omega) hjl).1 hp
      refine hno ⟨i, validIdx_iff.2 ⟨q1, fun m hm => (q2 m hm).2⟩, ext_getD0 (by simp [hjl, q1]) fun m hm => ?_⟩
      have := (q2 m (by omega)).1
      rw [hg m (by omega)] at this
      rw [getD_mapIdx _ _ (by omega)]
      simp only at this
      omega

/-- Both conditions hold for a vector, and for a matrix padded equally everywhere. -/
example : ∃ y, pad (⟨[2, 3], fun _ => 1⟩ : NdTensor ℤ) [1, 1, 1, 1] none = some y ∧ y.shape = [4, 5] ∧ y.data [0, 0] = 0 ∧ y.data [1, 1] = 1 := ⟨_, rfl, rfl, rfl, rfl⟩
example : ∃ y, pad (⟨[3], fun _ => 1⟩ : NdTensor ℤ) [1, 2] none = some y ∧ y.shape = [6] := ⟨_, rfl, rfl⟩

/-- The code violates the property: the pads (0, 1, 0, 1) of a matrix add one column on either side in ONNX; the layer adds one row below and one column on the right. -/
theorem C66_pad_wrong [Zero R] (x : NdTensor R) (hx : x.shape = [2, 3]) : ∃ y, pad x [0, 1, 0, 1] none = some y ∧ y.shape = [3, 4] ∧ ¬IsPad x y [0, 1, 0, 1] 0 := by
  refine ⟨⟨[3, 4], fun idx => (padSrc x.shape (padAll x.shape.length [(0, 1), (0, 1)]) idx).elim 0 x.data⟩, ?_, rfl, fun h => ?_⟩
  · simp only [pad, NdTensor.pad, padPairs, Option.map_some, Option.bind_eq_bind, Option.bind_some, Option.pure_def, hx]
    rfl
  · have := h.2.2.1 0 (by simp [hx])
    simp [hx] at this

theorem C66_pad_value_wrong [Zero R] (x : NdTensor R) (pads : List ℤ) (v : R) : pad x pads (some v) = none := rfl

end Onnx
end CrypTen

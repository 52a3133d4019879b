import Verif.Lemmas.Onnx

/-!
# C66: layers imported from ONNX — slicing, expanding, reshaping
-/

namespace CrypTen
namespace Onnx
open NdTensor ShapeGrad OnnxSpec
variable {R : Type} [CommRing R]

theorem slice_dim {n st : ℕ} {s e : ℤ} (hst : normStart n s = some st) (h0 : 0 ≤ min e n - s) (h1 : st + (min e n - s) ≤ (n : ℤ)) (hne : s < 0 → e ≠ 0) :
    st = clampBound n s ∧ (min e n - s).toNat = clampBound n e - clampBound n s := by
  unfold normStart normDim at hst
  unfold clampBound
  split at hst
  · simp only [Option.some.injEq] at hst
    constructor <;> (split <;> try split) <;> omega
  · split at hst
    · simp only [Option.some.injEq] at hst
      by_cases hs : s < 0
      · have := hne hs
        rw [if_pos hs] at hst
        constructor
        · rw [if_pos hs]; omega
        · rw [if_pos hs, if_pos (by omega)]; omega
      · rw [if_neg hs] at hst
        constructor
        · rw [if_neg hs]; omega
        · rw [if_neg hs, if_neg (by omega)]; omega
    · cases hst

/-- What the loop of `Slice` does. -/
theorem sliceLoop_sound (starts ends : List ℤ) : ∀ (axes : List ℤ) (k : ℕ) (x y : NdTensor R),
    (∀ (i j : ℕ) (a b : ℤ) (d : ℕ), axes[i]? = some a → axes[j]? = some b → AxisOf x.shape.length a d → AxisOf x.shape.length b d → i = j) →
    (∀ i : ℕ, i < axes.length → ∀ s e : ℤ, starts[k + i]? = some s → ends[k + i]? = some e → s < 0 → e ≠ 0) →
    sliceLoop starts ends k axes x = some y →
    ∃ off : ℕ → ℕ, y.shape.length = x.shape.length
      ∧ (∀ (i : ℕ) (a : ℤ) (d : ℕ), axes[i]? = some a → AxisOf x.shape.length a d → ∃ s e, starts[k + i]? = some s ∧ ends[k + i]? = some e
          ∧ off d = clampBound (x.shape.getD d 0) s ∧ y.shape.getD d 0 = clampBound (x.shape.getD d 0) e - clampBound (x.shape.getD d 0) s)
      ∧ (∀ d < x.shape.length, (∀ a ∈ axes, ¬AxisOf x.shape.length a d) → off d = 0 ∧ y.shape.getD d 0 = x.shape.getD d 0)
      ∧ ∀ idx, ValidIdx y.shape idx → y.data idx = x.data (idx.mapIdx fun d i => i + off d) := by
  intro axes
  induction axes with
  | nil =>
    intro k x y _ _ h
    simp only [sliceLoop, Option.some.injEq] at h
    subst h
    refine ⟨fun _ => 0, rfl, by simp, fun d _ _ => ⟨rfl, rfl⟩, fun idx _ => ?_⟩
    congr 1
    exact (List.ext_getElem (by simp) fun n h1 h2 => by simp)
  | cons a axes ih =>
    intro k x y hdis hneg h
    unfold sliceLoop at h
    obtain ⟨s, hs, h⟩ := Option.bind_eq_some_iff.1 h
    obtain ⟨e, he, h⟩ := Option.bind_eq_some_iff.1 h
    obtain ⟨d, hd, h⟩ := Option.bind_eq_some_iff.1 h
    obtain ⟨x1, hx1, h⟩ := Option.bind_eq_some_iff.1 h
    obtain ⟨d', st, hd', hst, hl0, hl1, rfl⟩ := narrow_some hx1
    obtain rfl : d = d' := by rw [hd] at hd'; exact Option.some.inj hd'
    have hda : AxisOf x.shape.length a d := axisOf_iff.2 hd
    have hdl : d < x.shape.length := hda.1
    obtain ⟨hc1, hc2⟩ := slice_dim hst hl0 hl1 (hneg 0 (by simp) s e (by simpa using hs) (by simpa using he))
    obtain ⟨off, h1, h2, h3, h4⟩ := ih (k + 1) _ y
      (fun i j a' b' d' hi hj ha hb => by
        have := hdis (i + 1) (j + 1) a' b' d' (by simpa using hi) (by simpa using hj) (by simpa using ha) (by simpa using hb)
        omega)
      (fun i hi s' e' h1 h2 => hneg (i + 1) (by simpa using hi) s' e' (by rw [← h1]; congr 1; omega) (by rw [← h2]; congr 1; omega)) h
    simp only [List.length_set] at h1 h2 h3
    have hd0 : ∀ a' ∈ axes, ¬AxisOf x.shape.length a' d := fun a' ha' hax => by
      obtain ⟨i, hi⟩ := List.getElem?_of_mem ha'
      have := hdis 0 (i + 1) a a' d (by simp) (by simpa using hi) hda hax
      omega
    obtain ⟨ho, hys⟩ := h3 d hdl hd0
    rw [getD_set0, if_pos ⟨rfl, hdl⟩] at hys
    refine ⟨fun d' => if d' = d then st else off d', h1, fun i a' d' hi hax => ?_, fun d' hd' hn => ?_, fun idx hidx => ?_⟩
    · cases i with
      | zero =>
        simp only [List.getElem?_cons_zero, Option.some.injEq] at hi
        subst hi
        obtain rfl : d' = d := by
          have := axisOf_iff.1 hax
          rw [hd] at this
          exact (Option.some.inj this).symm
        exact ⟨s, e, by simpa using hs, by simpa using he, by beta_reduce; rw [if_pos rfl]; exact hc1, by rw [hys, hc2]⟩
      | succ i =>
        simp only [List.getElem?_cons_succ] at hi
        have hne : d' ≠ d := by rintro rfl; exact hd0 a' (List.mem_of_getElem? hi) hax
        obtain ⟨s', e', q1, q2, q3, q4⟩ := h2 i a' d' hi hax
        rw [getD_set0, if_neg (by tauto)] at q3 q4
        exact ⟨s', e', by rw [← q1]; congr 1; omega, by rw [← q2]; congr 1; omega, by beta_reduce; rw [if_neg hne]; exact q3, q4⟩
    · have hne : d' ≠ d := by rintro rfl; exact hn a (by simp) hda
      obtain ⟨q1, q2⟩ := h3 d' hd' fun a' ha' => hn a' (by simp [ha'])
      rw [getD_set0, if_neg (by tauto)] at q2
      exact ⟨by beta_reduce; rw [if_neg hne]; exact q1, q2⟩
    · rw [h4 idx hidx]
      have hil : idx.length = x.shape.length := by rw [hidx.length, h1]
      show x.data _ = x.data _
      congr 1
      refine ext_getD0 (by simp) fun m hm => ?_
      simp only [List.length_set, List.length_mapIdx] at hm
      rw [getD_set0, getD_mapIdx _ _ hm, getD_mapIdx _ _ hm, getD_mapIdx _ _ (by omega)]
      beta_reduce
      by_cases hmd : m = d
      · subst hmd
        rw [if_pos ⟨rfl, by simpa using hm⟩, if_pos rfl, ho]
        omega
      · rw [if_neg (by tauto), if_neg hmd]

/-- C66 (`Slice`, one half): whenever an imported `Slice` node with distinct axes returns a result, it is what ONNX prescribes, unless a negative start is combined with end 0. -/
theorem C66_slice_sound_partial (starts ends : List ℤ) (axes : Option (List ℤ)) (x y : NdTensor R)
    (hdis : DistinctAxes x.shape.length (axes.getD ((List.range starts.length).map fun k : ℕ => (k : ℤ))))
    (hneg : ∀ (k : ℕ) s e, starts[k]? = some s → ends[k]? = some e → s < 0 → e ≠ 0) (h : slice starts ends axes x = some y) :
    IsSlice x y starts ends (axes.getD ((List.range starts.length).map fun k : ℕ => (k : ℤ))) := by
  obtain ⟨off, h1, h2, h3, h4⟩ := sliceLoop_sound starts ends _ 0 x y hdis (fun i _ s e a b => hneg i s e (by simpa using a) (by simpa using b)) h
  exact ⟨off, h1, fun k a d q1 q2 => by simpa using h2 k a d q1 q2, h3, h4⟩

/-- The loop of `Slice` raises nothing if all bounds are in order. -/
theorem sliceLoop_complete (starts ends : List ℤ) : ∀ (axes : List ℤ) (k : ℕ) (x : NdTensor R),
    (∀ (i j : ℕ) (a b : ℤ) (d : ℕ), axes[i]? = some a → axes[j]? = some b → AxisOf x.shape.length a d → AxisOf x.shape.length b d → i = j) →
    (∀ (i : ℕ) (a : ℤ), axes[i]? = some a → ∃ d s e, AxisOf x.shape.length a d ∧ starts[k + i]? = some s ∧ ends[k + i]? = some e
      ∧ ((0 ≤ s ∧ s ≤ x.shape.getD d 0 ∧ s ≤ e) ∨ (-(x.shape.getD d 0 : ℤ) ≤ s ∧ s ≤ e ∧ e < 0))) →
    ∃ y, sliceLoop starts ends k axes x = some y := by
  intro axes
  induction axes with
  | nil => intro k x _ _; exact ⟨x, rfl⟩
  | cons a axes ih =>
    intro k x hdis hb
    obtain ⟨d, s, e, hda, hs, he, hc⟩ := hb 0 a (by simp)
    have hd := axisOf_iff.1 hda
    have hdl : d < x.shape.length := hda.1
    have hst : ∃ st, normStart (x.shape.getD d 0) s = some st ∧ (st : ℤ) + (min e (x.shape.getD d 0) - s) ≤ (x.shape.getD d 0 : ℤ) := by
      unfold normStart normDim
      rcases hc with ⟨h1, h2, h3⟩ | ⟨h1, h2, h3⟩
      · by_cases hsn : s = (x.shape.getD d 0 : ℤ)
        · rw [if_pos hsn]; exact ⟨_, rfl, by omega⟩
        · rw [if_neg hsn, if_pos (by omega), if_neg (by omega)]; exact ⟨_, rfl, by omega⟩
      · rw [if_neg (by omega), if_pos (by omega), if_pos (by omega)]; exact ⟨_, rfl, by omega⟩
    obtain ⟨st, hst1, hst2⟩ := hst
    have hnar := narrow_of hd hst1 (by omega) hst2
    unfold sliceLoop
    rw [show starts[k]? = some s by simpa using hs, Option.bind_some, show ends[k]? = some e by simpa using he, Option.bind_some, hd, Option.bind_some, hnar, Option.bind_some]
    refine ih (k + 1) _ (fun i j a' b' d' hi hj ha hb => ?_) (fun i a' hi => ?_)
    · have := hdis (i + 1) (j + 1) a' b' d' (by simpa using hi) (by simpa using hj) (by simpa using ha) (by simpa using hb)
      omega
    · obtain ⟨d', s', e', q1, q2, q3, q4⟩ := hb (i + 1) a' (by simpa using hi)
      refine ⟨d', s', e', by simpa using q1, by rw [← q2]; congr 1; omega, by rw [← q3]; congr 1; omega, ?_⟩
      have hne : d' ≠ d := by
        rintro rfl
        have := hdis 0 (i + 1) a a' d' (by simp) (by simpa using hi) hda q1
        omega
      show (0 ≤ s' ∧ s' ≤ (((x.shape.set d _).getD d' 0 : ℕ) : ℤ) ∧ s' ≤ e') ∨ (-(((x.shape.set d _).getD d' 0 : ℕ) : ℤ) ≤ s' ∧ s' ≤ e' ∧ e' < 0)
      rw [getD_set0, if_neg (by tauto)]
      exact q4

/-- C66 (`Slice`, other half): a result is returned if for every axis the start is a position and not behind the end, or both count from the end. Missing: bounds that ONNX clamps, empty slices, a start and an end of which one counts from the end (see the `_wrong` theorems). -/
theorem C66_slice_partial (starts ends : List ℤ) (axes : Option (List ℤ)) (x : NdTensor R) (as : List ℤ) (has : as = axes.getD ((List.range starts.length).map fun k : ℕ => (k : ℤ)))
    (hdis : DistinctAxes x.shape.length as)
    (hb : ∀ (k : ℕ) a, as[k]? = some a → ∃ d s e, AxisOf x.shape.length a d ∧ starts[k]? = some s ∧ ends[k]? = some e
      ∧ ((0 ≤ s ∧ s ≤ x.shape.getD d 0 ∧ s ≤ e) ∨ (-(x.shape.getD d 0 : ℤ) ≤ s ∧ s ≤ e ∧ e < 0))) :
    ∃ y, slice starts ends axes x = some y ∧ IsSlice x y starts ends as := by
  obtain ⟨y, hy⟩ := sliceLoop_complete starts ends as 0 x hdis (fun i a hi => by simpa using hb i a hi)
  obtain ⟨off, h1, h2, h3, h4⟩ := sliceLoop_sound starts ends as 0 x y hdis (fun i hi s e a b hs => by
    obtain ⟨d, s', e', _, q2, q3, q4⟩ := hb i _ (List.getElem?_eq_getElem hi)
    rw [show starts[i]? = some s by simpa using a] at q2
    rw [show ends[i]? = some e by simpa using b] at q3
    cases q2; cases q3
    omega) hy
  refine ⟨y, by rw [slice, ← has]; exact hy, off, h1, fun k a d q1 q2 => by simpa using h2 k a d q1 q2, h3, h4⟩

/-- Rows 1 to 2 and the last two columns of a matrix with three rows and four columns. -/
example : ∃ y, slice [1, -2] [3, -1] (some [0, -1]) (⟨[3, 4], fun i => i.getD 0 0 * 10 + i.getD 1 0⟩ : NdTensor ℤ) = some y ∧ y.shape = [2, 1] ∧ y.data [0, 0] = 12 := by
  refine ⟨_, rfl, rfl, ?_⟩
  decide

/-- The code violates the property: with start -2 and end 0 ONNX returns an empty slice, the layer the last two entries. -/
theorem C66_slice_end_zero_wrong (x : NdTensor R) (hx : x.shape = [3]) : ∃ y, slice [-2] [0] (some [0]) x = some y ∧ y.shape = [2] ∧ ¬IsSlice x y [-2] [0] [0] := by
  have hn := narrow_of (x := x) (dim := 0) (start := -2) (length := 2) (d := 0) (st := 1) (by rw [hx]; rfl) (by rw [hx]; rfl) (by omega) (by rw [hx]; decide)
  refine ⟨⟨x.shape.set 0 2, fun idx => x.data (idx.set 0 (idx.getD 0 0 + 1))⟩, ?_, by simp [hx], ?_⟩
  · simp only [slice, Option.getD_some, sliceLoop, hx]
    simp only [normDim, List.length_singleton]
    norm_num
    rw [hn]
    simp [hx]
  · rintro ⟨off, -, h, -⟩
    obtain ⟨s, e, h1, h2, -, h4⟩ := h 0 0 0 rfl ⟨by simp [hx], Or.inl rfl⟩
    cases h1; cases h2
    simp [hx, clampBound] at h4

/-- The code violates the property: a start that counts from the end together with an ordinary end (the last two of three entries), and an end beyond the start by clamping, raise. -/
theorem C66_slice_raises_wrong (x : NdTensor R) (hx : x.shape = [3]) : slice [-2] [3] (some [0]) x = none ∧ slice [0] [-1] (some [0]) x = none ∧ slice [-5] [2] (some [0]) x = none := by
  refine ⟨?_, ?_, ?_⟩ <;>
  · simp only [slice, Option.getD_some, sliceLoop, hx, normDim, narrow, normStart]
    simp [hx]

omit [CommRing R] in
theorem expand_core (x : NdTensor R) (shape r : List ℕ) (hr : expandFix x.shape 0 shape = some r) (hlen : r.length = shape.length) (hle : x.shape.length ≤ shape.length)
    (hpos : ∀ n ∈ x.shape, 0 < n)
    (hv : ∀ j < shape.length, r.getD j 0 = if shape.getD j 0 = 1 ∧ shape.length - x.shape.length ≤ j ∧ 1 < x.shape.getD (j - (shape.length - x.shape.length)) 0 then x.shape.getD (j - (shape.length - x.shape.length)) 0 else shape.getD j 0) :
    (∀ y, expand shape x = some y → IsExpand x y shape) ∧ ((∃ y, IsExpand x y shape) → ∃ y, expand shape x = some y) := by
  have hdl : (r.drop (r.length - x.shape.length)).length = x.shape.length := by simp; omega
  have hget : ∀ j < x.shape.length, (r.drop (r.length - x.shape.length)).getD j 0 = r.getD (shape.length - x.shape.length + j) 0 := fun j hj => by
    rw [List.getD_eq_getElem _ _ (by omega), List.getElem_drop, ← List.getD_eq_getElem _ 0]; congr 1; omega
  constructor
  · intro y hy
    rw [expand, hr, Option.bind_some, NdTensor.expand] at hy
    split at hy
    · rename_i hc
      cases hy
      have hz := (zip_all_iff (by omega)).1 hc.2
      refine ⟨by show r.length = _; omega, fun k hk => ?_, fun idx _ => rfl⟩
      change k < r.length at hk
      show (dimR x.shape k = dimR shape k ∧ dimR r k = dimR shape k) ∨ (dimR x.shape k = 1 ∧ dimR r k = dimR shape k) ∨ (dimR shape k = 1 ∧ dimR r k = dimR x.shape k)
      rw [dimR_lt hk, dimR_lt (s := shape) (by omega), hlen]
      have hvj := hv (shape.length - 1 - k) (by omega)
      by_cases hkx : k < x.shape.length
      · rw [dimR_lt hkx]
        have hzj := hz (x.shape.length - 1 - k) (by omega)
        rw [hget _ (by omega), show shape.length - x.shape.length + (x.shape.length - 1 - k) = shape.length - 1 - k by omega] at hzj
        rw [show shape.length - 1 - k - (shape.length - x.shape.length) = x.shape.length - 1 - k by omega] at hvj
        split at hvj
        · rename_i hc; right; right; exact ⟨hc.1, hvj⟩
        · rcases hzj with h | h
          · left; exact ⟨by rw [h, hvj], hvj⟩
          · right; left; exact ⟨h, hvj⟩
      · rw [dimR_ge (s := x.shape) (by omega)]
        rw [if_neg (by omega)] at hvj
        right; left; exact ⟨rfl, hvj⟩
    · cases hy
  · rintro ⟨y, h1, h2, -⟩
    refine ⟨⟨r, fun idx => x.data (List.zipWith (fun n i => if n = 1 then 0 else i) x.shape (idx.drop (r.length - x.shape.length)))⟩, ?_⟩
    rw [expand, hr, Option.bind_some, NdTensor.expand, if_pos]
    refine ⟨by omega, (zip_all_iff (by omega)).2 fun j hj => ?_⟩
    rw [hget _ hj, hv _ (by omega)]
    have := h2 (x.shape.length - 1 - j) (by omega)
    rw [dimR_lt (s := x.shape) (by omega), dimR_lt (s := shape) (by omega), show x.shape.length - 1 - (x.shape.length - 1 - j) = j by omega, show shape.length - 1 - (x.shape.length - 1 - j) = shape.length - x.shape.length + j by omega] at this
    rw [show shape.length - x.shape.length + j - (shape.length - x.shape.length) = j by omega]
    have hp : 0 < x.shape.getD j 0 := by rw [List.getD_eq_getElem _ _ hj]; exact hpos _ (List.getElem_mem _)
    split
    · left; rfl
    · rcases this with h | h | h
      · left; exact h.1
      · right; exact h.1
      · right
        rename_i hc
        by_contra hne
        exact hc ⟨h.1, by omega, by omega⟩

omit [CommRing R] in
/-- C66 (`Expand`): for non-empty inputs with as many dimensions as the shape asked for, or with fewer if no entry of the shape is 1, the layer returns a result exactly if ONNX does, and the same one. Missing: shapes with fewer dimensions than the input, and entries 1 in shapes with more (see `C66_expand_wrong`). -/
theorem C66_expand_partial (shape : List ℕ) (x : NdTensor R) (hpos : ∀ n ∈ x.shape, 0 < n) (h : shape.length = x.shape.length ∨ (x.shape.length < shape.length ∧ 1 ∉ shape)) :
    (∀ y, expand shape x = some y → IsExpand x y shape) ∧ ((∃ y, IsExpand x y shape) → ∃ y, expand shape x = some y) := by
  rcases h with h | ⟨h, h1⟩
  · obtain ⟨r, h1, h2, h3⟩ := expandFix_same x.shape shape 0 (by omega)
    refine expand_core x shape r h1 h2 (by omega) hpos fun j hj => ?_
    rw [h3 j hj, h]
    simp
  · refine expand_core x shape shape (expandFix_no_one _ _ _ h1) rfl (by omega) hpos fun j hj => ?_
    rw [if_neg]
    rintro ⟨hc, -⟩
    refine h1 ?_
    rw [← hc, List.getD_eq_getElem _ _ hj]
    exact List.getElem_mem _

/-- A column of height 2 is expanded to two rows and three columns. -/
example : ∃ y, expand [1, 3] (⟨[2, 1], fun i => i.getD 0 0⟩ : NdTensor ℕ) = some y ∧ y.shape = [2, 3] ∧ y.data [1, 2] = 1 := ⟨_, rfl, rfl, rfl⟩

omit [CommRing R] in
/-- The code violates the property: a vector of length 3 expanded to shape (1, 3) becomes a matrix with three rows. -/
theorem C66_expand_wrong (x : NdTensor R) (hx : x.shape = [3]) : ∃ y, expand [1, 3] x = some y ∧ y.shape = [3, 3] ∧ ¬IsExpand x y [1, 3] := by
  refine ⟨⟨[3, 3], fun idx => x.data (List.zipWith (fun n i => if n = 1 then 0 else i) x.shape (idx.drop 1))⟩, ?_, rfl, ?_⟩
  · simp [expand, hx, expandFix, NdTensor.expand]
  · rintro ⟨-, h, -⟩
    have := h 1 (by simp)
    simp [hx, dimR] at this

omit [CommRing R] in
/-- The code violates the property: a matrix expanded to a shape with one entry raises; ONNX leaves it as it is. -/
theorem C66_expand_short_wrong (x : NdTensor R) (hx : x.shape = [2, 3]) : expand [1] x = none ∧ IsExpand x x [1] := by
  constructor
  · simp [expand, hx, expandFix, NdTensor.expand]
  · refine ⟨by simp [hx], fun k hk => ?_, fun idx hi => ?_⟩
    · rw [hx] at hk ⊢
      simp at hk
      match k, hk with
      | 0, _ => simp [dimR]
      | 1, _ => simp [dimR]
    · show x.data idx = x.data _
      congr 1
      rw [hx] at hi ⊢
      obtain ⟨i, r, rfl, _, hr⟩ := validIdx_cons.1 hi
      obtain ⟨j, r', rfl, _, hr'⟩ := validIdx_cons.1 hr
      rw [validIdx_nil.1 hr']
      simp [stretchIdx]

/-! ## Flatten, Reshape, Squeeze, Unsqueeze, Transpose -/

omit [CommRing R] in
theorem inferSize_two (n k : ℕ) (hk : k ≠ 0) (h : n % k = 0) : inferSize n [(k : ℤ), -1] = some [k, n / k] := by
  unfold inferSize
  have h1 : (k : ℤ) ≠ -1 := by omega
  simp [h1, hk, h]

omit [CommRing R] in
/-- C66 (`Flatten`): for every tensor and every axis that is not negative the imported layer returns the matrix ONNX prescribes, unless one of the first `axis` dimensions is empty. -/
theorem C66_flatten_partial (axis : ℕ) (x : NdTensor R) (ha : axis ≤ x.shape.length) (h0 : (x.shape.take axis).prod ≠ 0) : ∃ y, flatten (some axis) x = some y ∧ IsFlatten x y axis := by
  have hp : x.shape.prod = (x.shape.take axis).prod * (x.shape.drop axis).prod := by rw [← List.prod_append, List.take_append_drop]
  have key : x.reshape [(((x.shape.take axis).prod : ℕ) : ℤ), -1] = some (x.reshapeTo [(x.shape.take axis).prod, (x.shape.drop axis).prod]) := by
    rw [NdTensor.reshape, inferSize_two _ _ h0 (by rw [hp]; exact Nat.mul_mod_right _ _), Option.map_some, hp, Nat.mul_div_cancel_left _ (by omega)]
  refine ⟨_, ?_, ha, rfl, rowMajor_reshapeTo x _ ?_⟩
  · show (flattenAxis (some (axis : ℤ))).bind _ = _
    rw [flattenAxis, if_pos (by omega), Option.bind_some, flattenForward]
    by_cases h : axis = 0
    · subst h
      rw [if_pos (by simp)]
      simpa using key
    · rw [if_neg (by omega), if_pos (by omega), Int.toNat_natCast]
      exact key
  · rw [hp, List.prod_cons, List.prod_cons, List.prod_nil, Nat.mul_one]

omit [CommRing R] in
/-- Without the attribute the axis is 1, as in ONNX. -/
theorem C66_flatten_default (x : NdTensor R) : flatten none x = flatten (some 1) x := rfl

omit [CommRing R] in
/-- Whatever the layer returns for an axis is what ONNX prescribes. -/
theorem C66_flatten_sound (axis : ℤ) (x y : NdTensor R) (h : flatten (some axis) x = some y) : ∃ a : ℕ, axis = a ∧ IsFlatten x y a := by
  have hax : 0 ≤ axis := by
    by_contra hn
    simp [flatten, flattenAxis, hn] at h
  obtain ⟨a, rfl⟩ := Int.eq_ofNat_of_zero_le hax
  refine ⟨a, rfl, ?_⟩
  have hal : a ≤ x.shape.length := by
    by_contra hn
    rw [flatten, flattenAxis, if_pos (by omega), Option.bind_some, flattenForward, if_neg (by omega), if_neg (by omega)] at h
    cases h
  have h0 : (x.shape.take a).prod ≠ 0 := by
    intro h0
    have ha0 : a ≠ 0 := by rintro rfl; simp at h0
    rw [flatten, flattenAxis, if_pos (by omega), Option.bind_some, flattenForward, if_neg (by omega), if_pos (by omega), Int.toNat_natCast, h0] at h
    simp [NdTensor.reshape, inferSize] at h
  obtain ⟨y', h1, h2⟩ := C66_flatten_partial a x hal h0
  have : flatten (some (a : ℤ)) x = some y' := h1
  rw [h] at this
  cases this
  exact h2

example : ∃ y, flatten (some 1) (⟨[2, 3, 2], fun i => i.getD 2 0⟩ : NdTensor ℕ) = some y ∧ y.shape = [2, 6] ∧ y.data [1, 3] = 1 := ⟨_, rfl, rfl, rfl⟩

omit [CommRing R] in
/-- The code violates the property: an empty batch cannot be flattened, and negative axes are rejected. -/
theorem C66_flatten_wrong (x : NdTensor R) (hx : x.shape = [0, 4]) : flatten none x = none ∧ IsFlatten x x 1 ∧ flatten (some (-1)) x = none := by
  refine ⟨?_, ⟨by simp [hx], by simp [hx], rfl⟩, rfl⟩
  show (flattenAxis none).bind _ = _
  rw [flattenAxis, Option.bind_some, flattenForward, if_neg (by omega), if_pos (by simp [hx])]
  simp [NdTensor.reshape, hx, inferSize]

omit [CommRing R] in
theorem inferSize_spec {n : ℕ} {size : List ℤ} {s : List ℕ} (h : inferSize n size = some s) :
    s.length = size.length ∧ (∀ (k : ℕ) (v : ℤ), size[k]? = some v → v = -1 ∨ v = s.getD k 0) ∧ size.count (-1) ≤ 1 := by
  unfold inferSize at h
  dsimp only at h
  split at h
  · cases h
  · rename_i hneg
    have hnn : ∀ v ∈ size, v ≠ -1 → v = v.toNat := fun v hv h1 => by
      have : ¬v < -1 := fun hlt => hneg (List.any_eq_true.2 ⟨v, hv, by simpa using hlt⟩)
      omega
    split at h
    · rename_i h0
      split at h
      · cases h
        have hf : size.filter (· ≠ -1) = size := List.filter_eq_self.2 fun v hv => by
          have := List.count_eq_zero.1 h0
          simpa using fun hc : v = -1 => this (hc ▸ hv)
        rw [hf]
        refine ⟨by simp, fun k v hk => ?_, by omega⟩
        have hkl : k < size.length := by
          by_contra hn
          rw [List.getElem?_eq_none (by omega)] at hk
          cases hk
        rw [List.getElem?_eq_getElem hkl] at hk
        cases hk
        by_cases h1 : size[k] = -1
        · exact Or.inl h1
        · right
          rw [List.getD_eq_getElem _ _ (by simpa using hkl), List.getElem_map]
          exact hnn _ (List.getElem_mem _) h1
      · cases h
    · split at h
      · rename_i h1
        split at h
        · cases h
          refine ⟨by simp, fun k v hk => ?_, by omega⟩
          have hkl : k < size.length := by
            by_contra hn
            rw [List.getElem?_eq_none (by omega)] at hk
            cases hk
          rw [List.getElem?_eq_getElem hkl] at hk
          cases hk
          by_cases h1 : size[k] = -1
          · exact Or.inl h1
          · right
            rw [List.getD_eq_getElem _ _ (by simpa using hkl), List.getElem_map, if_neg h1]
            exact hnn _ (List.getElem_mem _) h1
        · cases h
      · cases h

omit [CommRing R] in
/-- C66 (`Reshape`): if no entry of the shape is 0, whatever the layer returns is what ONNX prescribes. -/
theorem C66_reshape_partial (shape : List ℤ) (x y : NdTensor R) (h0 : 0 ∉ shape) (h : reshape shape x = some y) : IsReshape x y shape := by
  rw [reshape, NdTensor.reshape] at h
  obtain ⟨s, hs, rfl⟩ := Option.map_eq_some_iff.1 h
  obtain ⟨h1, h2, h3⟩ := inferSize_spec hs
  refine ⟨h1, fun k v hk => ?_, h3, rowMajor_reshapeTo x s (inferSize_prod hs)⟩
  rcases h2 k v hk with h | h
  · exact Or.inr (Or.inl h)
  · have : v ≠ 0 := fun hv => h0 (hv ▸ List.mem_of_getElem? hk)
    right; right
    exact ⟨by omega, h⟩

omit [CommRing R] in
theorem rowMajor_length (x : NdTensor R) : (rowMajor x).length = x.shape.prod := by rw [rowMajor, allIdx_eq]; simp

omit [CommRing R] in
/-- … and if the shape names all sizes (all positive), or all but one of a non-empty tensor, the layer returns a result whenever ONNX does. -/
theorem C66_reshape_total_partial (shape : List ℤ) (x : NdTensor R) (h0 : 0 ∉ shape) (y : NdTensor R) (h : IsReshape x y shape) : ∃ y', reshape shape x = some y' ∧ IsReshape x y' shape := by
  obtain ⟨h1, h2, h3, h4⟩ := h
  have hp : y.shape.prod = x.shape.prod := by rw [← rowMajor_length, ← rowMajor_length, h4]
  have hv : ∀ v ∈ shape, v = -1 ∨ 0 < v := fun v hv => by
    obtain ⟨k, hk⟩ := List.getElem?_of_mem hv
    rcases h2 k v hk with h | h | h
    · exact absurd (h.1 ▸ hv) h0
    · exact Or.inl h
    · exact Or.inr h.1
  have hk : ∀ k < shape.length, shape.getD k 0 = -1 ∨ shape.getD k 0 = y.shape.getD k 0 := fun k hk => by
    rcases h2 k (shape.getD k 0) (by rw [List.getElem?_eq_getElem hk, List.getD_eq_getElem _ _ hk]) with h | h | h
    · exact absurd (by rw [← h.1, List.getD_eq_getElem _ _ hk]; exact List.getElem_mem _) h0
    · exact Or.inl h
    · exact Or.inr h.2
  -- the product of the known sizes
  have key : ∀ (shape : List ℤ) (s : List ℕ), s.length = shape.length → (∀ k < shape.length, shape.getD k 0 = -1 ∨ shape.getD k 0 = s.getD k 0) →
      (shape.count (-1) = 0 → ((shape.filter (· ≠ -1)).map Int.toNat).prod = s.prod) ∧ (((shape.filter (· ≠ -1)).map Int.toNat).prod ∣ s.prod) := by
    intro shape
    induction shape with
    | nil => intro s hs _; rw [List.length_eq_zero_iff.1 hs]; simp
    | cons v shape ih =>
      intro s hs hk
      cases s with
      | nil => simp at hs
      | cons n s =>
        obtain ⟨i1, i2⟩ := ih s (by simpa using hs) fun k hkl => by simpa using hk (k + 1) (by simpa using hkl)
        have h0 := hk 0 (by simp)
        simp only [List.getD_cons_zero] at h0
        by_cases hv : v = -1
        · subst hv
          refine ⟨fun hc => by simp at hc, ?_⟩
          rw [List.filter_cons_of_neg (by simp), List.prod_cons]
          exact Dvd.dvd.mul_left i2 n
        · have hvn : v = n := by tauto
          rw [List.filter_cons_of_pos (by simpa using hv), List.map_cons, List.prod_cons, List.prod_cons, show v.toNat = n by omega]
          refine ⟨fun hc => ?_, Nat.mul_dvd_mul_left n i2⟩
          rw [i1 (by rw [List.count_cons_of_ne (by simpa using hv)] at hc; exact hc)]
  obtain ⟨k1, k2⟩ := key shape y.shape h1 hk
  have hany : shape.any (· < -1) = false := by
    rw [List.any_eq_false]
    intro v hv'
    have := hv v hv'
    simp only [decide_eq_true_eq]
    omega
  have hpos : ((shape.filter (· ≠ -1)).map Int.toNat).prod ≠ 0 := by
    rw [Ne, List.prod_eq_zero_iff]
    intro hm
    obtain ⟨v, hv1, hv2⟩ := List.mem_map.1 hm
    obtain ⟨hv3, hv4⟩ := List.mem_filter.1 hv1
    have := hv v hv3
    have : v ≠ -1 := by simpa using hv4
    omega
  have hinf : ∃ s, inferSize x.shape.prod shape = some s := by
    unfold inferSize
    dsimp only
    rw [if_neg (by simp [hany])]
    by_cases hc : shape.count (-1) = 0
    · rw [if_pos hc, if_pos (by rw [k1 hc, hp])]; exact ⟨_, rfl⟩
    · rw [if_neg hc, if_pos (by omega), if_pos ⟨hpos, by rw [← hp]; exact Nat.mod_eq_zero_of_dvd k2⟩]; exact ⟨_, rfl⟩
  obtain ⟨s, hs⟩ := hinf
  have hr : reshape shape x = some (x.reshapeTo s) := by rw [reshape, NdTensor.reshape, hs, Option.map_some]
  exact ⟨_, hr, C66_reshape_partial shape x _ h0 hr⟩

example : ∃ y, reshape [3, -1] (⟨[2, 3], fun i => i.getD 0 0 * 3 + i.getD 1 0⟩ : NdTensor ℕ) = some y ∧ y.shape = [3, 2] ∧ y.data [2, 1] = 5 := ⟨_, rfl, rfl, rfl⟩

omit [CommRing R] in
/-- The code violates the property: an entry 0 in the shape means "as in the input" in ONNX; the layer raises. -/
theorem C66_reshape_zero_wrong (x : NdTensor R) (hx : x.shape = [2, 3]) : reshape [0, 3] x = none ∧ IsReshape x x [0, 3] := by
  refine ⟨by simp [reshape, NdTensor.reshape, hx, inferSize], by simp [hx], fun k v hk => ?_, by decide, rfl⟩
  match k, hk with
  | 0, hk => cases hk; left; simp [hx]
  | 1, hk => cases hk; right; right; simp [hx]

omit [CommRing R] in
/-- If a bijection between the indices preserves the row-major position, the entries are in the same order. -/
theorem rowMajor_of_flat (x y : NdTensor R) (φ : List ℕ → List ℕ) (hp : y.shape.prod = x.shape.prod)
    (h : ∀ j, ValidIdx y.shape j → ValidIdx x.shape (φ j) ∧ flatIdx x.shape (φ j) = flatIdx y.shape j ∧ y.data j = x.data (φ j)) : rowMajor y = rowMajor x := by
  unfold rowMajor
  rw [allIdx_eq y.shape, allIdx_eq x.shape, List.map_map, List.map_map, hp]
  refine List.map_congr_left fun k hk => ?_
  have hk := List.mem_range.1 hk
  obtain ⟨h1, h2, h3⟩ := h (unflatIdx y.shape k) (unflat_valid (by omega))
  show y.data (unflatIdx y.shape k) = x.data (unflatIdx x.shape k)
  rw [h3, ← unflat_flat h1, h2, flat_unflat (by omega)]

omit [CommRing R] in
theorem flatIdx_insert : ∀ (d : ℕ) (s idx : List ℕ), d ≤ s.length → idx.length = s.length → flatIdx (s.insertIdx d 1) (idx.insertIdx d 0) = flatIdx s idx := by
  intro d
  induction d with
  | zero => intro s idx _ _; cases s <;> cases idx <;> simp [flatIdx]
  | succ d ih =>
    intro s idx hd hl
    cases s with
    | nil => simp at hd
    | cons n s =>
      cases idx with
      | nil => simp at hl
      | cons i idx =>
        simp only [List.insertIdx_succ_cons, flatIdx]
        rw [ih s idx (by simpa using hd) (by simpa using hl)]
        rw [List.CommMonoid.prod_insertIdx (by simpa using hd), Nat.one_mul]

theorem insertIdx_take_drop {α : Type} (v : α) : ∀ (d : ℕ) (l : List α), d ≤ l.length → l.insertIdx d v = l.take d ++ v :: l.drop d := by
  intro d
  induction d with
  | zero => intro l _; simp
  | succ d ih =>
    intro l hd
    cases l with
    | nil => simp at hd
    | cons a l => simp [ih l (by simpa using hd)]

omit [CommRing R] in
/-- C66 (`Unsqueeze`, one axis): the imported layer inserts a dimension of size 1 at the named position. Missing: more than one axis raises. -/
theorem C66_unsqueeze_partial (a : ℤ) (d : ℕ) (x : NdTensor R) (h : AxisOf (x.shape.length + 1) a d) : ∃ y, unsqueeze [a] x = some y ∧ IsUnsqueeze x y d := by
  have hd := axisOf_iff.1 h
  have hdl : d ≤ x.shape.length := by have := h.1; omega
  have hl : (x.shape.insertIdx d 1).length = x.shape.length + 1 := List.length_insertIdx_of_le_length hdl 1
  have h1 : (x.shape.insertIdx d 1).getD d 0 = 1 := by rw [List.getD_eq_getElem _ _ (by omega), List.getElem_insertIdx_self]
  have hse : (x.shape.insertIdx d 1).eraseIdx d = x.shape := List.eraseIdx_insertIdx_self _
  obtain ⟨hp1, -⟩ := unsqueeze_pair (s := x.shape.insertIdx d 1) (by omega) h1
  rw [hse] at hp1
  refine ⟨_, by rw [unsqueeze, NdTensor.unsqueeze, hd, Option.map_some], insertIdx_take_drop 1 d x.shape hdl, ?_⟩
  refine rowMajor_of_flat x _ (fun j => j.eraseIdx d) ?_ fun j hj => ?_
  · show (x.shape.insertIdx d 1).prod = _
    rw [List.CommMonoid.prod_insertIdx hdl, Nat.one_mul]
  · obtain ⟨q1, q2⟩ := hp1 j hj
    refine ⟨q1, ?_, rfl⟩
    show flatIdx x.shape (j.eraseIdx d) = flatIdx (x.shape.insertIdx d 1) j
    conv_rhs => rw [← q2]
    exact (flatIdx_insert d _ _ hdl (by rw [q1.length])).symm

example : ∃ y, unsqueeze [-1] (⟨[2, 3], fun i => i.getD 1 0⟩ : NdTensor ℕ) = some y ∧ y.shape = [2, 3, 1] ∧ y.data [0, 2, 0] = 2 := ⟨_, rfl, rfl, rfl⟩

omit [CommRing R] in
/-- C66 (`Squeeze`, one axis of size 1): the imported layer removes it. Missing: without axes, or with more than one, importing raises. -/
theorem C66_squeeze_partial (a : ℤ) (d : ℕ) (x : NdTensor R) (h : AxisOf x.shape.length a d) (h1 : x.shape.getD d 0 = 1) : ∃ y, squeeze (some [a]) x = some y ∧ IsSqueeze x y d := by
  have hd := axisOf_iff.1 h
  have hdl := h.1
  obtain ⟨-, hp2⟩ := unsqueeze_pair hdl h1
  have hel : d ≤ (x.shape.eraseIdx d).length := by rw [List.length_eraseIdx_of_lt hdl]; omega
  refine ⟨⟨x.shape.eraseIdx d, fun idx => x.data (idx.insertIdx d 0)⟩, by rw [squeeze, NdTensor.squeeze, hd, Option.map_some, if_pos h1], h1, List.eraseIdx_eq_take_drop_succ _ _, ?_⟩
  refine rowMajor_of_flat x _ (fun j => j.insertIdx d 0) ?_ fun j hj => ?_
  · show (x.shape.eraseIdx d).prod = _
    conv_rhs => rw [← insert_erase' hdl h1]
    rw [List.CommMonoid.prod_insertIdx hel, Nat.one_mul]
  · obtain ⟨q1, q2⟩ := hp2 j hj
    refine ⟨q1, ?_, rfl⟩
    show flatIdx x.shape (j.insertIdx d 0) = flatIdx (x.shape.eraseIdx d) j
    conv_lhs => rw [← insert_erase' hdl h1]
    exact flatIdx_insert d _ _ hel hj.length

example : ∃ y, squeeze (some [1]) (⟨[2, 1, 3], fun i => i.getD 2 0⟩ : NdTensor ℕ) = some y ∧ y.shape = [2, 3] ∧ y.data [1, 2] = 2 := ⟨_, rfl, rfl, rfl⟩

omit [CommRing R] in
/-- The code violates the property: `Squeeze` of a dimension of another size is an error in ONNX, the layer returns the tensor as it is; and nodes without axes cannot be imported. -/
theorem C66_squeeze_wrong (x : NdTensor R) (hx : x.shape = [2, 3]) : squeeze (some [0]) x = some x ∧ (∀ y, ¬IsSqueeze x y 0) ∧ squeeze none x = none := by
  refine ⟨?_, fun y h => ?_, rfl⟩
  · simp [squeeze, NdTensor.squeeze, normDim, hx]
  · have := h.1
    simp [hx] at this

/-- C66 (`Transpose` with a permutation): the imported layer permutes the dimensions as ONNX prescribes. Missing: without the attribute (ONNX: reversed order) importing raises. -/
theorem C66_transpose_partial (perm : List ℕ) (x : NdTensor R) (hl : perm.length = x.shape.length) (hr : ∀ p ∈ perm, p < x.shape.length) (hn : perm.Nodup) :
    ∃ y, transpose (some (perm.map fun d : ℕ => (d : ℤ))) x = some y ∧ IsTranspose x y perm := by
  have hm := mapM_normDim_nat hr
  have hp : IsPerm x.shape.length perm := ⟨hl, hn, hr⟩
  refine ⟨_, by rw [transpose, Option.bind_some, if_pos (by simp [hl])]; exact permute_of hm hp, ?_, fun k hk => ?_, fun i hi => ?_⟩
  · simp [hl]
  · show (perm.map fun d => x.shape.getD d 0).getD k 0 = _
    rw [List.getD_eq_getElem _ _ (by simpa [hl] using hk), List.getElem_map, List.getD_eq_getElem perm _ (by omega)]
  · show x.data _ = x.data _
    congr 1
    refine ext_getD0 (by simp [hi.length]) fun a ha => ?_
    simp only [List.length_map, List.length_range] at ha
    rw [getD_map_range _ _ ha, getD_map_range _ _ (hp.idxOf_lt ha), hp.getD_idxOf ha]

omit [CommRing R] in
theorem C66_transpose_default_wrong (x : NdTensor R) : transpose none x = none := rfl

example : ∃ y, transpose (some [1, 2, 0]) (⟨[2, 3, 4], fun i => i.getD 0 0⟩ : NdTensor ℕ) = some y ∧ y.shape = [3, 4, 2] ∧ y.data [0, 0, 1] = 1 := ⟨_, rfl, rfl, rfl⟩

end Onnx
end CrypTen

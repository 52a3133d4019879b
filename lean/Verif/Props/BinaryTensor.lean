import Verif.Spec.BinaryTensor
import Verif.Props.Convert
import Verif.Props.Onnx4
import Verif.Props.ShapeGrad2

/-!
# C89: programs on binary-shared tensors
-/

namespace CrypTen.BinT
open NdTensor Onnx OnnxSpec ShapeGrad
variable {n : ℕ} {R S T : Type}

/-- An encrypted tensor holds a plain one. -/
def Rep (x : BT n) (t : NdTensor I64) : Prop := OnnxSpec.Same (revealT x) t

theorem Rep.shape {x : BT n} {t : NdTensor I64} (h : Rep x t) : x.shape = t.shape := h.1

theorem rep_of {s : List ℕ} {w : Shares n (List ℕ)} {t : NdTensor I64} (hs : t.shape = s) (h : ∀ idx, ValidIdx s idx → revealX w idx = t.data idx) : Rep (ofWords s w) t :=
  ⟨hs.symm, h⟩

/-- The result of a computation agrees with what is specified. -/
def Agrees (r : Option (BT n)) : Res (NdTensor I64) → Prop
  | .ok v => ∃ z, r = some z ∧ Rep z v
  | .raises => r = none
  | .unspecified => True

/-! ## Broadcasting -/

theorem fits_of_expand {t : NdTensor R} {s : List ℕ} {u : NdTensor R} (h : t.expand s = some u) : Onnx.Fits t.shape s := by
  unfold NdTensor.expand at h
  split at h
  · rename_i hc
    obtain ⟨h1, h2⟩ := hc
    refine ⟨h1, fun k hk => ?_⟩
    by_cases hkt : k < t.shape.length
    · rw [dimR_eq hkt, dimR_eq hk]
      rw [List.all_eq_true] at h2
      have := h2 (t.shape[t.shape.length - 1 - k], s[s.length - 1 - k]) (List.mem_iff_getElem.2 ⟨t.shape.length - 1 - k, by simp; omega, by
        simp only [List.getElem_zip, List.getElem_drop, Prod.mk.injEq, true_and]
        congr 1
        omega⟩)
      rw [List.getD_eq_getElem _ _ (by omega), List.getD_eq_getElem _ _ (by omega)]
      simp only [decide_eq_true_eq] at this
      tauto
    · exact .inl (dimR_of_le (by omega))
  · cases h

theorem expand_cases (t : NdTensor R) (s : List ℕ) : (Onnx.Fits t.shape s ∧ t.expand s = some (t.broadcast s)) ∨ (¬Onnx.Fits t.shape s ∧ t.expand s = none) := by
  by_cases h : Onnx.Fits t.shape s
  · exact .inl ⟨h, expand_of_fits h⟩
  · refine .inr ⟨h, ?_⟩
    cases he : t.expand s with
    | none => rfl
    | some u => exact absurd (fits_of_expand he) h

theorem stretch_valid {a s idx : List ℕ} (h : Onnx.Fits a s) (hi : ValidIdx s idx) : ValidIdx a (stretchIdx a (idx.drop (s.length - a.length))) := by
  obtain ⟨h1, h2⟩ := validIdx_iff.1 hi
  have hl := h.1
  refine validIdx_iff.2 ⟨by simp [stretchIdx, h1]; omega, fun d hd => ?_⟩
  have hg := h.getD hd
  rw [stretchIdx, List.getD_eq_getElem _ _ (by simp [h1]; omega), List.getElem_zipWith, List.getElem_drop]
  have hs := h2 (s.length - a.length + d) (by omega)
  rw [List.getD_eq_getElem _ _ hd] at hg ⊢
  rw [List.getD_eq_getElem _ _ (by omega), List.getD_eq_getElem _ _ (by omega)] at hs
  rw [List.getD_eq_getElem _ _ (by omega)] at hg
  split <;> omega

theorem Rep.broadcast {x : BT n} {t : NdTensor I64} (h : Rep x t) {s : List ℕ} (hf : Onnx.Fits t.shape s) : Rep (x.broadcast s) (t.broadcast s) := by
  refine ⟨rfl, fun idx hi => ?_⟩
  have hv := stretch_valid hf hi
  have e : x.shape = t.shape := h.1
  show xorList (List.ofFn fun p => x.data _ p) = t.data _
  rw [e]
  exact h.2 _ (by rw [show (revealT x).shape = t.shape from h.1]; exact hv)

theorem Rep.at {x : BT n} {t : NdTensor I64} (h : Rep x t) {idx : List ℕ} (hi : ValidIdx t.shape idx) : revealX (words x) idx = t.data idx :=
  h.2 idx (by rw [show (revealT x).shape = t.shape from h.1]; exact hi)

theorem common_cases (a b : List ℕ) : (∃ s, IsCommonShape [a, b] s ∧ commonShape a b = some s) ∨ ((¬∃ s, IsCommonShape [a, b] s) ∧ commonShape a b = none) := by
  cases h : commonShape a b with
  | some s => exact .inl ⟨s, commonShape_some.1 h, rfl⟩
  | none =>
    refine .inr ⟨?_, rfl⟩
    rintro ⟨s, hs⟩
    rw [commonShape_some.2 hs] at h
    cases h

theorem common_unique {l : List (List ℕ)} {s t : List ℕ} (hs : IsCommonShape l s) (ht : IsCommonShape l t) : s = t := by
  have hl : s.length = t.length := by
    obtain ⟨a, ha, e⟩ := hs.2.1
    obtain ⟨b, hb, e'⟩ := ht.2.1
    have := hs.1 b hb
    have := ht.1 a ha
    omega
  refine shape_ext hl fun k hk => ?_
  obtain ⟨h1, a, ha, e⟩ := hs.2.2 k hk
  obtain ⟨h2, b, hb, e'⟩ := ht.2.2 k (by omega)
  have := h1 b hb
  have := h2 a ha
  omega

theorem common_self_right {a b s : List ℕ} (h : IsCommonShape [a, b] s) : IsCommonShape [s, b] s := by
  obtain ⟨-, f2⟩ := commonShape_fits h
  refine ⟨?_, ⟨s, by simp, rfl⟩, fun k hk => ⟨?_, s, by simp, rfl⟩⟩
  · simp; exact f2.1
  · simp; exact f2.2 k hk

theorem zip_none {f : R → S → T} {x : NdTensor R} {y : NdTensor S} (h : ¬∃ s, IsCommonShape [x.shape, y.shape] s) : Onnx.zip f x y = none := by
  cases hz : Onnx.zip f x y with
  | none => rfl
  | some z => exact absurd ⟨_, ((zip_spec f x y).1 z hz).1⟩ h

/-! ## Operators -/

theorem sat_lift2 {f : Shares n (List ℕ) → Shares n (List ℕ) → Proto n (Shares n (List ℕ))} {g : I64 → I64 → I64}
    (hf : ∀ a b, SatX (f a b) fun z => ∀ i, revealX z i = g (revealX a i) (revealX b i)) {x y : BT n} {t u : NdTensor I64} (hx : Rep x t) (hy : Rep y u) :
    SatX (lift2 f x y) fun r => Agrees r (.ofOption (Onnx.zip g t u)) := by
  unfold lift2
  rw [hx.shape, hy.shape]
  rcases common_cases t.shape u.shape with ⟨s, hs, e⟩ | ⟨hs, e⟩
  · obtain ⟨f1, f2⟩ := commonShape_fits hs
    rw [e, Option.bind_some, expand_of_fits (by rw [hx.shape]; exact f1), Option.bind_some, expand_of_fits (by rw [hy.shape]; exact f2), Option.map_some, zip_some g t u hs]
    refine SatX.bind (hf _ _) fun z hz => SatX.pure ⟨_, rfl, rep_of rfl fun idx hi => ?_⟩
    rw [hz, (hx.broadcast f1).at hi, (hy.broadcast f2).at hi]
    rfl
  · rw [e, Option.bind_none, zip_none hs]
    exact SatX.pure rfl

/-- The plain operand of an encrypted one. -/
inductive ArgRep : Arg n → Operand → Prop
  | shared {y : BT n} {u : NdTensor I64} (h : Rep y u) : ArgRep (.shared y) (.tensor u true)
  | pub (u : NdTensor I64) : ArgRep (.pub u) (.tensor u false)
  | int (z : ℤ) : ArgRep (.int z) (.int z)

theorem inPlace_fits {o : Op} {t u : NdTensor I64} {b : Bool} (h : Onnx.Fits u.shape t.shape) :
    inPlace o t (.tensor u b) = .ok { shape := t.shape, data := fun idx => opWord o (t.data idx) ((u.broadcast t.shape).data idx) } := by
  simp only [inPlace, expand_of_fits h]

theorem inPlace_not {o : Op} {t u : NdTensor I64} {b : Bool} (h : ¬Onnx.Fits u.shape t.shape) :
    inPlace o t (.tensor u b) = if b ∧ o ≠ .xor ∧ (commonShape t.shape u.shape).isSome then .unspecified else .raises := by
  rcases expand_cases u t.shape with ⟨hf, -⟩ | ⟨-, e⟩
  · exact absurd hf h
  · simp only [inPlace, e]

theorem out_tensor {o : Op} {t u : NdTensor I64} {b : Bool} : outOfPlace o t (.tensor u b) = .ofOption (Onnx.zip (opWord o) t u) := rfl

theorem common_left {t u : List ℕ} (hf : Onnx.Fits u t) : IsCommonShape [t, u] t := by
  refine ⟨?_, ⟨t, by simp, rfl⟩, fun k hk => ⟨?_, t, by simp, rfl⟩⟩
  · simp; exact hf.1
  · simp; exact hf.2 k hk

theorem agrees_ixor [NeZero n] {x : BT n} {t : NdTensor I64} (hx : Rep x t) {a : Arg n} {o : Operand} (ha : ArgRep a o) : Agrees (ixor x a) (inPlace .xor t o) := by
  cases ha with
  | @shared y u hy =>
    by_cases hf : Onnx.Fits u.shape t.shape
    · rw [inPlace_fits hf]
      refine ⟨ofWords x.shape (xorShares (words x) (words (NdTensor.broadcast y x.shape))), ?_, rep_of hx.shape.symm fun idx hi => ?_⟩
      · simp only [ixor, expand_of_fits (t := y) (s := x.shape) (by rw [hy.shape, hx.shape]; exact hf), Option.map_some]
      · rw [hx.shape] at hi ⊢
        rw [revealX_xorShares, hx.at hi, (hy.broadcast hf).at hi]
        rfl
    · rw [inPlace_not hf]
      rcases expand_cases y x.shape with ⟨hf', -⟩ | ⟨-, e'⟩
      · rw [hx.shape, hy.shape] at hf'
        exact absurd hf' hf
      · simp only [ixor, e', Option.map_none, ne_eq, not_true_eq_false, false_and, and_false, ↓reduceIte]
        rfl
  | pub u =>
    by_cases hf : Onnx.Fits u.shape t.shape
    · rw [inPlace_fits hf]
      refine ⟨ofWords x.shape (xorPublic (words x) (u.broadcast x.shape).data), ?_, rep_of hx.shape.symm fun idx hi => ?_⟩
      · simp only [ixor, expand_of_fits (t := u) (s := x.shape) (by rw [hx.shape]; exact hf), Option.map_some]
      · rw [hx.shape] at hi ⊢
        rw [revealX_xorPublic, hx.at hi]
        rfl
    · rw [inPlace_not hf]
      rcases expand_cases u x.shape with ⟨hf', -⟩ | ⟨-, e'⟩
      · rw [hx.shape] at hf'
        exact absurd hf' hf
      · simp only [ixor, e', Option.map_none, Bool.false_eq_true, false_and, ↓reduceIte]
        rfl
  | int z =>
    refine ⟨_, rfl, rep_of hx.shape.symm fun idx hi => ?_⟩
    rw [revealX_xorPublic, hx.at (hx.shape ▸ hi)]
    rfl

/-- Bringing the left operand to the common shape. -/
theorem bcast_cases {x : BT n} {t : NdTensor I64} (hx : Rep x t) {a : Arg n} {u : NdTensor I64} {b : Bool} (ha : ArgRep a (.tensor u b)) :
    (∃ s, IsCommonShape [t.shape, u.shape] s ∧ bcast x a = some (x.broadcast s)) ∨ ((¬∃ s, IsCommonShape [t.shape, u.shape] s) ∧ bcast x a = none) := by
  have : bcast x a = (commonShape t.shape u.shape).bind fun s => x.expand s := by
    cases ha with
    | shared h => simp only [bcast, hx.shape, h.shape]
    | pub => simp only [bcast, hx.shape]
  rw [this]
  rcases common_cases t.shape u.shape with ⟨s, hs, e⟩ | ⟨hs, e⟩
  · left
    refine ⟨s, hs, ?_⟩
    rw [e, Option.bind_some, expand_of_fits (by rw [hx.shape]; exact (commonShape_fits hs).1)]
  · exact .inr ⟨hs, by rw [e]; rfl⟩

theorem agrees_congr {r : Option (BT n)} {v v' : NdTensor I64} (h : Agrees r (.ok v)) (hv : OnnxSpec.Same v v') : Agrees r (.ok v') := by
  obtain ⟨z, e, hz⟩ := h
  exact ⟨z, e, hz.1.trans hv.1, fun idx hi => (hz.2 idx hi).trans (hv.2 idx (hz.1 ▸ hi))⟩

theorem agrees_xor [NeZero n] {x : BT n} {t : NdTensor I64} (hx : Rep x t) {a : Arg n} {o : Operand} (ha : ArgRep a o) : Agrees (xor x a) (outOfPlace .xor t o) := by
  cases o with
  | int z =>
    cases ha
    exact agrees_ixor hx (.int z)
  | tensor u b =>
    unfold xor
    rw [out_tensor]
    rcases bcast_cases hx ha with ⟨s, hs, e⟩ | ⟨hs, e⟩
    · obtain ⟨f1, f2⟩ := commonShape_fits hs
      rw [e, Option.bind_some, zip_some _ _ _ hs]
      have h := agrees_ixor (hx.broadcast f1) ha
      rwa [inPlace_fits (t := t.broadcast s) f2] at h
    · rw [e, zip_none hs]
      rfl

theorem sat_iand [NeZero n] {x : BT n} {t : NdTensor I64} (hx : Rep x t) {a : Arg n} {o : Operand} (ha : ArgRep a o) :
    SatX (iand x a) fun r => Agrees r (inPlace .and t o) := by
  cases ha with
  | @shared y u hy =>
    refine (sat_lift2 (g := opWord .and) (fun a b => sat_and a b) hx hy).mono fun r hr => ?_
    by_cases hf : Onnx.Fits u.shape t.shape
    · rw [inPlace_fits hf]
      rw [zip_some _ _ _ (common_left hf)] at hr
      refine agrees_congr hr ⟨rfl, fun idx hi => ?_⟩
      show (t.broadcast t.shape).data idx &&& _ = t.data idx &&& _
      rw [broadcast_self (t := t) hi]
    · rw [inPlace_not hf]
      rcases common_cases t.shape u.shape with ⟨s, hs, e'⟩ | ⟨hs, e'⟩
      · simp only [e', Option.isSome_some, ne_eq, reduceCtorEq, not_false_eq_true, and_self, ↓reduceIte]
        trivial
      · simp only [e', Option.isSome_none, Bool.false_eq_true, and_false, ↓reduceIte]
        rw [zip_none hs] at hr
        exact hr
  | pub u =>
    unfold iand
    by_cases hf : Onnx.Fits u.shape t.shape
    · rw [inPlace_fits hf]
      refine SatX.pure ⟨ofWords x.shape (andPublic (words x) (u.broadcast x.shape).data), ?_, rep_of hx.shape.symm fun idx hi => ?_⟩
      · simp only [expand_of_fits (t := u) (s := x.shape) (by rw [hx.shape]; exact hf), Option.map_some]
      · rw [hx.shape] at hi ⊢
        rw [revealX_andPublic, hx.at hi]
        rfl
    · rw [inPlace_not hf]
      rcases expand_cases u x.shape with ⟨hf', -⟩ | ⟨-, e'⟩
      · rw [hx.shape] at hf'
        exact absurd hf' hf
      · simp only [e', Option.map_none, Bool.false_eq_true, false_and, ↓reduceIte]
        exact SatX.pure rfl
  | int z =>
    refine SatX.pure ⟨_, rfl, rep_of hx.shape.symm fun idx hi => ?_⟩
    rw [revealX_andPublic, hx.at (hx.shape ▸ hi)]
    rfl

theorem sat_andOp [NeZero n] {x : BT n} {t : NdTensor I64} (hx : Rep x t) {a : Arg n} {o : Operand} (ha : ArgRep a o) :
    SatX (and x a) fun r => Agrees r (outOfPlace .and t o) := by
  cases o with
  | int z =>
    cases ha
    exact sat_iand hx (.int z)
  | tensor u b =>
    unfold and
    rw [out_tensor]
    rcases bcast_cases hx ha with ⟨s, hs, e⟩ | ⟨hs, e⟩
    · obtain ⟨f1, f2⟩ := commonShape_fits hs
      rw [e, zip_some _ _ _ hs]
      refine (sat_iand (hx.broadcast f1) ha).mono fun r h => ?_
      rwa [inPlace_fits (t := t.broadcast s) f2] at h
    · rw [e, zip_none hs]
      exact SatX.pure rfl

theorem or_word (a b : I64) : (a &&& b) ^^^ (a ^^^ b) = a ||| b := by
  apply BitVec.eq_of_getLsbD_eq
  intro j _
  simp only [BitVec.getLsbD_xor, BitVec.getLsbD_and, BitVec.getLsbD_or]
  cases a.getLsbD j <;> cases b.getLsbD j <;> rfl

theorem or_word' (a b : I64) : ((a &&& b) ^^^ a) ^^^ b = a ||| b := by rw [BitVec.xor_assoc, or_word]

theorem sat_ior [NeZero n] {x : BT n} {t : NdTensor I64} (hx : Rep x t) {a : Arg n} {o : Operand} (ha : ArgRep a o) :
    SatX (ior x a) fun r => Agrees r (inPlace .or t o) := by
  have hxor := agrees_xor hx ha
  have hand := sat_iand hx ha
  unfold ior
  cases o with
  | int z =>
    obtain ⟨w, ew, hw⟩ := hxor
    rw [ew]
    refine SatX.bind hand fun r hr => SatX.pure ?_
    obtain ⟨v, rfl, hv⟩ := hr
    have := agrees_ixor hv (.shared hw)
    rw [inPlace_fits (t := mapEntries (fun a => opWord .and a (BitVec.ofInt 64 z)) t) (u := mapEntries (fun a => opWord .xor a (BitVec.ofInt 64 z)) t) (Onnx.Fits.refl _)] at this
    refine agrees_congr this ⟨rfl, fun idx hi => ?_⟩
    have hb : ((mapEntries (fun a => opWord .xor a (BitVec.ofInt 64 z)) t).broadcast t.shape).data idx = t.data idx ^^^ BitVec.ofInt 64 z := broadcast_self hi
    show (t.data idx &&& BitVec.ofInt 64 z) ^^^ ((mapEntries (fun a => opWord .xor a (BitVec.ofInt 64 z)) t).broadcast t.shape).data idx = t.data idx ||| BitVec.ofInt 64 z
    rw [hb, or_word]
  | tensor u b =>
    rw [out_tensor] at hxor
    rcases common_cases t.shape u.shape with ⟨s, hs, e⟩ | ⟨hs, e⟩
    · rw [zip_some _ _ _ hs] at hxor
      obtain ⟨w, ew, hw⟩ := hxor
      rw [ew]
      refine SatX.bind hand fun r hr => SatX.pure ?_
      by_cases hf : Onnx.Fits u.shape t.shape
      · rw [inPlace_fits hf] at hr ⊢
        have hst : s = t.shape := common_unique hs (common_left hf)
        subst hst
        obtain ⟨v, rfl, hv⟩ := hr
        have := agrees_ixor hv (.shared hw)
        rw [inPlace_fits (t := { shape := t.shape, data := fun idx => opWord .and (t.data idx) ((u.broadcast t.shape).data idx) }) (u := zres (opWord .xor) t u t.shape) (Onnx.Fits.refl t.shape)] at this
        refine agrees_congr this ⟨rfl, fun idx hi => ?_⟩
        have hb : ((zres (opWord .xor) t u t.shape).broadcast t.shape).data idx = (t.broadcast t.shape).data idx ^^^ (u.broadcast t.shape).data idx := broadcast_self hi
        show (t.data idx &&& (u.broadcast t.shape).data idx) ^^^ ((zres (opWord .xor) t u t.shape).broadcast t.shape).data idx = t.data idx ||| (u.broadcast t.shape).data idx
        rw [hb, broadcast_self (t := t) hi, or_word]
      · rw [inPlace_not hf] at hr ⊢
        cases b with
        | true =>
          simp only [e, Option.isSome_some, ne_eq, reduceCtorEq, not_false_eq_true, and_self, ↓reduceIte]
          trivial
        | false =>
          simp only [Bool.false_eq_true, false_and, ↓reduceIte] at hr ⊢
          have : r = none := hr
          rw [this]
          rfl
    · rw [zip_none hs] at hxor
      have hn : xor x a = none := hxor
      rw [hn]
      refine SatX.pure ?_
      by_cases hf : Onnx.Fits u.shape t.shape
      · exact absurd ⟨_, common_left hf⟩ hs
      · rw [inPlace_not hf]
        simp only [e, Option.isSome_none, Bool.false_eq_true, and_false, ↓reduceIte]
        rfl

theorem common_again {a b s : List ℕ} (h : IsCommonShape [a, b] s) : IsCommonShape [s, a] s := common_self_right (isCommonShape_swap h)

theorem sat_orOp [NeZero n] {x : BT n} {t : NdTensor I64} (hx : Rep x t) {a : Arg n} {o : Operand} (ha : ArgRep a o) :
    SatX (or x a) fun r => Agrees r (outOfPlace .or t o) := by
  refine SatX.bind (sat_andOp hx ha) fun r hr => SatX.pure ?_
  cases o with
  | int z =>
    obtain ⟨v, rfl, hv⟩ := hr
    have h1 := agrees_xor hv (.shared hx)
    have hs : IsCommonShape [t.shape, t.shape] t.shape := ⟨by simp, ⟨t.shape, by simp, rfl⟩, fun k _ => ⟨by simp, t.shape, by simp, rfl⟩⟩
    rw [out_tensor, zip_some (s := t.shape) _ (mapEntries (fun a => opWord .and a (BitVec.ofInt 64 z)) t) t hs] at h1
    obtain ⟨w, ew, hw⟩ := h1
    rw [Option.bind_some, ew, Option.bind_some]
    cases ha
    have h2 := agrees_xor hw (.int z)
    refine agrees_congr h2 ⟨rfl, fun idx hi => ?_⟩
    have e1 : ((mapEntries (fun a => opWord .and a (BitVec.ofInt 64 z)) t).broadcast t.shape).data idx = t.data idx &&& BitVec.ofInt 64 z := broadcast_self hi
    have e2 : (t.broadcast t.shape).data idx = t.data idx := broadcast_self hi
    show (((mapEntries (fun a => opWord .and a (BitVec.ofInt 64 z)) t).broadcast t.shape).data idx ^^^ (t.broadcast t.shape).data idx) ^^^ BitVec.ofInt 64 z = t.data idx ||| BitVec.ofInt 64 z
    rw [e1, e2, or_word']
  | tensor u b =>
    rcases common_cases t.shape u.shape with ⟨s, hs, e⟩ | ⟨hs, e⟩
    · rw [out_tensor, zip_some _ _ _ hs] at hr ⊢
      obtain ⟨f1, f2⟩ := commonShape_fits hs
      obtain ⟨v, rfl, hv⟩ := hr
      have h1 := agrees_xor hv (.shared hx)
      rw [out_tensor, zip_some (s := s) _ (zres (opWord .and) t u s) t (common_again hs)] at h1
      obtain ⟨w, ew, hw⟩ := h1
      rw [Option.bind_some, ew, Option.bind_some]
      have h2 := agrees_xor hw ha
      rw [out_tensor, zip_some (s := s) _ (zres (opWord .xor) (zres (opWord .and) t u s) t s) u (common_self_right hs)] at h2
      refine agrees_congr h2 ⟨rfl, fun idx hi => ?_⟩
      have e1 : ((zres (opWord .and) t u s).broadcast s).data idx = (t.broadcast s).data idx &&& (u.broadcast s).data idx := broadcast_self hi
      have e2 : ((zres (opWord .xor) (zres (opWord .and) t u s) t s).broadcast s).data idx = ((zres (opWord .and) t u s).broadcast s).data idx ^^^ (t.broadcast s).data idx := broadcast_self hi
      show ((zres (opWord .xor) (zres (opWord .and) t u s) t s).broadcast s).data idx ^^^ (u.broadcast s).data idx = (t.broadcast s).data idx ||| (u.broadcast s).data idx
      rw [e2, e1, or_word']
    · rw [out_tensor, zip_none hs] at hr ⊢
      have : r = none := hr
      rw [this]
      rfl


/-! ## Selection -/

theorem fits_antisymm {a b : List ℕ} (h : Onnx.Fits a b) (h' : Onnx.Fits b a) : a = b := by
  refine shape_ext (le_antisymm h.1 h'.1) fun k _ => ?_
  have := h.dim k
  have := h'.dim k
  omega

theorem common_least {a b s u : List ℕ} (h : IsCommonShape [a, b] s) (ha : Onnx.Fits a u) (hb : Onnx.Fits b u) : Onnx.Fits s u := by
  obtain ⟨s', hs', hf⟩ := commonShape_of_fits ha hb
  exact common_unique h hs' ▸ hf

/-- The common shape of `[c, x]` and `[c, y]` is that of `[c, x]` and `y`. -/
theorem common_assoc {c x y s1 s2 s : List ℕ} (h1 : IsCommonShape [c, x] s1) (h2 : IsCommonShape [c, y] s2) (h : IsCommonShape [s1, s2] s) : IsCommonShape [s1, y] s := by
  obtain ⟨f1, f2⟩ := commonShape_fits h
  have fy := (commonShape_fits h2).2.trans f2
  obtain ⟨s', hs', hf⟩ := commonShape_of_fits f1 fy
  obtain ⟨g1, g2⟩ := commonShape_fits hs'
  have := common_least h g1 (common_least h2 ((commonShape_fits h1).1.trans g1) g2)
  exact fits_antisymm this hf ▸ hs'

theorem common_exists {c x y s1 s : List ℕ} (h1 : IsCommonShape [c, x] s1) (h : IsCommonShape [s1, y] s) : ∃ s2 s, IsCommonShape [c, y] s2 ∧ IsCommonShape [s1, s2] s := by
  obtain ⟨g1, g2⟩ := commonShape_fits h
  obtain ⟨s2, h2, hf⟩ := commonShape_of_fits ((commonShape_fits h1).1.trans g1) g2
  obtain ⟨s, hs, -⟩ := commonShape_of_fits g1 hf
  exact ⟨s2, s, h2, hs⟩

/-- All bits set, or none. -/
def mask (b : Bool) : I64 := if b then BitVec.allOnes 64 else 0#64

theorem mask_word (a b : I64) (p : Bool) : (a &&& mask p) ^^^ (b &&& ~~~mask p) = if p then a else b := by
  apply BitVec.eq_of_getLsbD_eq
  intro j hj
  cases p <;> simp only [mask, BitVec.getLsbD_xor, BitVec.getLsbD_and, BitVec.getLsbD_not, BitVec.getLsbD_allOnes, BitVec.getLsbD_zero, hj, Bool.false_eq_true, ↓reduceIte, decide_true] <;> simp

theorem select_none_left {c : NdTensor Bool} {x : NdTensor I64} (h : ¬∃ s, IsCommonShape [c.shape, x.shape] s) (o : Operand) : select c x o = .raises := by
  rcases common_cases c.shape x.shape with ⟨s, hs, -⟩ | ⟨-, e⟩
  · exact absurd ⟨s, hs⟩ h
  · cases o <;> simp [select, e, Res.ofOption]

theorem select_none_right {c : NdTensor Bool} {x u : NdTensor I64} {b : Bool} (h : ¬∃ s, IsCommonShape [c.shape, u.shape] s) : select c x (.tensor u b) = .raises := by
  rcases common_cases c.shape x.shape with ⟨s, hs, e⟩ | ⟨hs, -⟩
  · rcases common_cases s u.shape with ⟨s', hs', -⟩ | ⟨-, e'⟩
    · obtain ⟨s2, -, h2, -⟩ := common_exists hs hs'
      exact absurd ⟨s2, h2⟩ h
    · simp [select, e, e', Res.ofOption]
  · exact select_none_left hs _

/-- The two masked tensors are joined. -/
theorem agrees_where [NeZero n] {c : NdTensor Bool} {x u : NdTensor I64} {b : Bool} {s1 s2 : List ℕ} {dx dy : List ℕ → I64} {xm : BT n} {ym : Arg n} {b' : Bool}
    (h1 : IsCommonShape [c.shape, x.shape] s1) (h2 : IsCommonShape [c.shape, u.shape] s2)
    (hx : Rep xm ⟨s1, dx⟩) (hy : ArgRep ym (.tensor ⟨s2, dy⟩ b'))
    (hdx : ∀ idx, ValidIdx s1 idx → dx idx = (x.broadcast s1).data idx &&& mask ((c.broadcast s1).data idx))
    (hdy : ∀ idx, ValidIdx s2 idx → dy idx = (u.broadcast s2).data idx &&& ~~~mask ((c.broadcast s2).data idx)) :
    Agrees (xor xm ym) (select c x (.tensor u b)) := by
  have hxor := agrees_xor hx hy
  rw [out_tensor] at hxor
  rcases common_cases s1 s2 with ⟨s, hs, -⟩ | ⟨hs, -⟩
  · have h := common_assoc h1 h2 hs
    rw [zip_some (s := s) _ ⟨s1, dx⟩ ⟨s2, dy⟩ hs] at hxor
    obtain ⟨f1, f2⟩ := commonShape_fits hs
    have he : select c x (.tensor u b) = .ok ⟨s, fun idx => if (c.broadcast s).data idx then (x.broadcast s).data idx else (u.broadcast s).data idx⟩ := by
      simp only [select, commonShape_some.2 h1, Option.bind_some, commonShape_some.2 h, Option.map_some, Res.ofOption]
    rw [he]
    refine agrees_congr hxor ⟨rfl, fun idx hi => ?_⟩
    have hi' : ValidIdx s idx := hi
    have e1 := hdx _ (stretch_valid f1 hi')
    have e2 := hdy _ (stretch_valid f2 hi')
    have b1 := broadcast_broadcast (commonShape_fits h1).2 f1 hi'.length
    have b2 := broadcast_broadcast (commonShape_fits h1).1 f1 hi'.length
    have b3 := broadcast_broadcast (commonShape_fits h2).2 f2 hi'.length
    have b4 := broadcast_broadcast (commonShape_fits h2).1 f2 hi'.length
    show dx _ ^^^ dy _ = if (c.broadcast s).data idx then (x.broadcast s).data idx else (u.broadcast s).data idx
    rw [← b1, ← b2, ← b3]
    refine (congrArg₂ (· ^^^ ·) e1 e2).trans ?_
    show ((x.broadcast s1).broadcast s).data idx &&& mask (((c.broadcast s1).broadcast s).data idx) ^^^ ((u.broadcast s2).broadcast s).data idx &&& ~~~mask (((c.broadcast s2).broadcast s).data idx) = _
    rw [b4, b2]
    exact mask_word _ _ _
  · rw [zip_none hs] at hxor
    have he : select c x (.tensor u b) = .raises := by
      rcases common_cases s1 u.shape with ⟨s', hs', -⟩ | ⟨-, e'⟩
      · obtain ⟨s2', s, h2', h⟩ := common_exists h1 hs'
        exact absurd ⟨s, common_unique h2' h2 ▸ h⟩ hs
      · simp [select, commonShape_some.2 h1, e', Res.ofOption]
    rw [he]
    exact hxor

theorem common_nil (s : List ℕ) : IsCommonShape [s, []] s := common_left ⟨by simp, fun k _ => .inl (dimR_of_le (by simp))⟩

/-- An integer is selected like a tensor without dimensions. -/
theorem select_int (c : NdTensor Bool) (x : NdTensor I64) (z : ℤ) (b : Bool) : select c x (.int z) = select c x (.tensor ⟨[], fun _ => BitVec.ofInt 64 z⟩ b) := by
  rcases common_cases c.shape x.shape with ⟨s, hs, e⟩ | ⟨-, e⟩
  · simp only [select, e, Option.bind_some, commonShape_some.2 (common_nil s), Option.map_some]
    rfl
  · simp only [select, e, Option.bind_none, Option.map_none]

theorem neg_and_one (a : I64) : -(a &&& 1) = mask (a.getLsbD 0) := by
  have : a &&& 1 = boolI64 (a.getLsbD 0) := by
    apply BitVec.eq_of_getLsbD_eq
    intro j hj
    have h1 : ∀ j < 64, (1 : I64).getLsbD j = decide (j = 0) := by decide +kernel
    have h0 : ∀ j < 64, ∀ b, (boolI64 b).getLsbD j = (decide (j = 0) && b) := by decide +kernel
    rw [BitVec.getLsbD_and, h1 j hj, h0 j hj]
    by_cases h : j = 0
    · subst h; cases a.getLsbD 0 <;> rfl
    · simp [h]
  rw [this]
  cases a.getLsbD 0 <;> decide

theorem neg_bool (b : Bool) : -boolI64 b = mask b := by cases b <;> decide

theorem rep_expanded {c : BT n} {k : NdTensor I64} (hc : Rep c k) : Rep (ofWords c.shape fun p idx => -(words c p idx &&& 1)) (mapEntries (fun v => mask (v.getLsbD 0)) k) := by
  refine rep_of hc.shape.symm fun idx hi => ?_
  rw [hc.shape] at hi
  refine (revealX_map (fun a => -(a &&& 1)) (by decide) (fun a b => ?_) (words c) idx).trans ?_
  · simp only [neg_and_one, BitVec.getLsbD_xor]
    cases a.getLsbD 0 <;> cases b.getLsbD 0 <;> decide
  · rw [hc.at hi, neg_and_one]
    rfl

theorem rep_invert [NeZero n] {x : BT n} {t : NdTensor I64} (hx : Rep x t) : Rep (invert x) (mapEntries (fun v => ~~~v) t) := by
  refine rep_of hx.shape.symm fun idx hi => ?_
  rw [revealX_notShares, hx.at (hx.shape ▸ hi)]
  rfl

theorem sat_whereEnc [NeZero n] {x c : BT n} {t k : NdTensor I64} (hx : Rep x t) (hc : Rep c k) {a : Arg n} {o : Operand} (ha : ArgRep a o) :
    SatX (whereEnc x c a) fun r => Agrees r (select (mapEntries (fun v => v.getLsbD 0) k) t o) := by
  have he := rep_expanded hc
  have hn := rep_invert he
  unfold whereEnc
  refine SatX.bind (sat_andOp hn ha) fun ym hym => ?_
  -- the tensor that is selected where the condition does not hold
  obtain ⟨u, b, hsel, hym'⟩ : ∃ u b, select (mapEntries (fun v => v.getLsbD 0) k) t o = select (mapEntries (fun v => v.getLsbD 0) k) t (.tensor u b)
      ∧ ((¬∃ s, IsCommonShape [k.shape, u.shape] s) ∧ ym = none
        ∨ ∃ s2, IsCommonShape [k.shape, u.shape] s2 ∧ ∃ d y, ym = some y ∧ Rep y ⟨s2, d⟩ ∧ ∀ idx, ValidIdx s2 idx → d idx = (u.broadcast s2).data idx &&& ~~~mask (((mapEntries (fun v => v.getLsbD 0) k).broadcast s2).data idx)) := by
    cases o with
    | tensor u b =>
      refine ⟨u, b, rfl, ?_⟩
      rw [out_tensor] at hym
      rcases common_cases k.shape u.shape with ⟨s2, hs, -⟩ | ⟨hs, -⟩
      · rw [zip_some (s := s2) _ (mapEntries (fun v => ~~~v) (mapEntries (fun v => mask (v.getLsbD 0)) k)) u hs] at hym
        obtain ⟨y, e, hy⟩ := hym
        exact .inr ⟨s2, hs, _, y, e, hy, fun idx _ => BitVec.and_comm _ _⟩
      · rw [zip_none (x := mapEntries (fun v => ~~~v) (mapEntries (fun v => mask (v.getLsbD 0)) k)) hs] at hym
        exact .inl ⟨hs, hym⟩
    | int z =>
      refine ⟨⟨[], fun _ => BitVec.ofInt 64 z⟩, true, select_int _ _ _ _, .inr ⟨k.shape, common_nil _, ?_⟩⟩
      obtain ⟨y, e, hy⟩ := hym
      refine ⟨_, y, e, hy, fun idx hi => ?_⟩
      have := broadcast_self (t := mapEntries (fun v : I64 => v.getLsbD 0) k) hi
      rw [show ((mapEntries (fun v : I64 => v.getLsbD 0) k).broadcast k.shape).data idx = _ from this]
      exact BitVec.and_comm _ _
  rw [hsel]
  rcases hym' with ⟨hs, rfl⟩ | ⟨s2, h2, d, y, rfl, hy, hd⟩
  · rw [select_none_right (c := mapEntries (fun v => v.getLsbD 0) k) hs]
    exact SatX.pure rfl
  · refine SatX.bind (sat_andOp hx (.shared he)) fun xm hxm => SatX.pure ?_
    rw [out_tensor] at hxm
    rcases common_cases k.shape t.shape with ⟨s1, h1, -⟩ | ⟨hs, -⟩
    · rw [zip_some (s := s1) _ t (mapEntries (fun v => mask (v.getLsbD 0)) k) (isCommonShape_swap h1)] at hxm
      obtain ⟨x', rfl, hx'⟩ := hxm
      exact agrees_where (c := mapEntries (fun v => v.getLsbD 0) k) h1 h2 hx' (.shared hy) (fun idx _ => rfl) hd
    · rw [zip_none (y := mapEntries (fun v => mask (v.getLsbD 0)) k) (fun ⟨s, h⟩ => hs ⟨s, isCommonShape_swap h⟩)] at hxm
      have : xm = none := hxm
      rw [this, select_none_left (c := mapEntries (fun v => v.getLsbD 0) k) hs]
      rfl

theorem sat_wherePub [NeZero n] {x : BT n} {t : NdTensor I64} (hx : Rep x t) (c : NdTensor Bool) {a : Arg n} {o : Operand} (ha : ArgRep a o) :
    SatX (wherePub x c a) fun r => Agrees r (select c t o) := by
  unfold wherePub maskedY
  have hm : mapEntries (fun b => -boolI64 b) c = mapEntries mask c := by
    simp only [mapEntries, neg_bool]
  have hm' : mapEntries (fun b => ~~~(-boolI64 b)) c = mapEntries (fun b => ~~~mask b) c := by
    simp only [mapEntries, neg_bool]
  simp only [hm, hm']
  -- the tensor that is selected where the condition does not hold
  refine SatX.bind (P := fun ym : Option (Arg n) => ∃ u b, select c t o = select c t (.tensor u b)
      ∧ ((¬∃ s, IsCommonShape [c.shape, u.shape] s) ∧ ym = none
        ∨ ∃ s2, IsCommonShape [c.shape, u.shape] s2 ∧ ∃ d y b', ym = some y ∧ ArgRep y (.tensor ⟨s2, d⟩ b') ∧ ∀ idx, ValidIdx s2 idx → d idx = (u.broadcast s2).data idx &&& ~~~mask ((c.broadcast s2).data idx))) ?_ fun ym hym => ?_
  · cases ha with
    | @shared y u hy =>
      refine SatX.bind (sat_andOp hy (.pub _)) fun r hr => SatX.pure ⟨u, true, rfl, ?_⟩
      rw [out_tensor] at hr
      rcases common_cases c.shape u.shape with ⟨s2, hs, -⟩ | ⟨hs, -⟩
      · rw [zip_some (s := s2) _ u (mapEntries (fun b => ~~~mask b) c) (isCommonShape_swap hs)] at hr
        obtain ⟨w, rfl, hw⟩ := hr
        exact .inr ⟨s2, hs, _, _, true, rfl, .shared hw, fun idx _ => rfl⟩
      · rw [zip_none (y := mapEntries (fun b => ~~~mask b) c) (fun ⟨s, h⟩ => hs ⟨s, isCommonShape_swap h⟩)] at hr
        have : r = none := hr
        exact .inl ⟨hs, by rw [this]; rfl⟩
    | pub u =>
      refine SatX.pure ⟨u, false, rfl, ?_⟩
      rcases common_cases c.shape u.shape with ⟨s2, hs, -⟩ | ⟨hs, -⟩
      · rw [zip_some (s := s2) _ u (mapEntries (fun b => ~~~mask b) c) (isCommonShape_swap hs)]
        exact .inr ⟨s2, hs, _, _, false, rfl, .pub _, fun idx _ => rfl⟩
      · rw [zip_none (y := mapEntries (fun b => ~~~mask b) c) (fun ⟨s, h⟩ => hs ⟨s, isCommonShape_swap h⟩)]
        exact .inl ⟨hs, rfl⟩
    | int z =>
      refine SatX.pure ⟨⟨[], fun _ => BitVec.ofInt 64 z⟩, false, select_int _ _ _ _, .inr ⟨c.shape, common_nil _, ?_⟩⟩
      refine ⟨_, _, false, rfl, .pub _, fun idx hi => ?_⟩
      rw [broadcast_self (t := c) hi, ← neg_bool]
      rfl
  · obtain ⟨u, b, hsel, hym⟩ := hym
    rw [hsel]
    rcases hym with ⟨hs, rfl⟩ | ⟨s2, h2, d, y, b', rfl, hy, hd⟩
    · rw [select_none_right hs]
      exact SatX.pure rfl
    · refine SatX.bind (sat_andOp hx (.pub _)) fun xm hxm => SatX.pure ?_
      rw [out_tensor] at hxm
      rcases common_cases c.shape t.shape with ⟨s1, h1, -⟩ | ⟨hs, -⟩
      · rw [zip_some (s := s1) _ t (mapEntries mask c) (isCommonShape_swap h1)] at hxm
        obtain ⟨x', rfl, hx'⟩ := hxm
        exact agrees_where h1 h2 hx' hy (fun idx _ => rfl) hd
      · rw [zip_none (y := mapEntries mask c) (fun ⟨s, h⟩ => hs ⟨s, isCommonShape_swap h⟩)] at hxm
        have : xm = none := hxm
        rw [this, select_none_left hs]
        rfl

/-! ## Circuits -/

theorem sat_circ [NeZero n] (c : Circ) {x y : BT n} {t u : NdTensor I64} (hx : Rep x t) (hy : Rep y u) : SatX (circ c x y) fun r => Agrees r (.ofOption (Onnx.zip (circWord c) t u)) := by
  have hb : ∀ p : Prop, [Decidable p] → boolI64 (decide p) = if p then (1 : I64) else 0 := fun p _ => by by_cases h : p <;> simp [h, boolI64]
  cases c with
  | add => exact sat_lift2 (fun a b => C18_add a b) hx hy
  | eq => exact sat_lift2 (fun a b => (C19_equality a b).1.mono fun z hz i => (hz i).trans (hb _)) hx hy
  | ne => exact sat_lift2 (fun a b => (C19_equality a b).2.mono fun z hz i => by rw [hz i, hb, circWord]; split <;> simp_all) hx hy
  | lt => exact sat_lift2 (fun a b => (C19_order a b).1.mono fun z hz i => (hz i).trans (hb _)) hx hy
  | le => exact sat_lift2 (fun a b => (C19_order a b).2.1.mono fun z hz i => (hz i).trans (hb _)) hx hy
  | gt => exact sat_lift2 (fun a b => (C19_order a b).2.2.1.mono fun z hz i => (hz i).trans (hb _)) hx hy
  | ge => exact sat_lift2 (fun a b => (C19_order a b).2.2.2.mono fun z hz i => (hz i).trans (hb _)) hx hy

/-! ## Sums -/

/-- Swapping dimension 0 and dimension `k`. -/
def sw (k : ℕ) (l : List ℕ) : List ℕ := (l.set 0 (l.getD k 0)).set k (l.getD 0 0)

theorem sw_sw {k : ℕ} {l : List ℕ} (hk : k < l.length) (j : ℕ) : sw k (j :: (sw k l).tail) = l.set k j := by
  have hlen : (j :: (sw k l).tail).length = l.length := by simp [sw]; omega
  have h0 : 0 < l.length := by omega
  refine List.ext_getElem (by simp [sw]; omega) fun i h1 h2 => ?_
  have hi : i < l.length := by simpa using h2
  rw [← List.getD_eq_getElem _ 0, ← List.getD_eq_getElem _ 0]
  have hcons : ∀ i, i < l.length → (j :: (sw k l).tail).getD i 0 = if i = 0 then j else (sw k l).getD i 0 := by
    intro i _
    cases i with
    | zero => rfl
    | succ i => simp [List.getD_eq_getElem?_getD]
  have e1 : (sw k (j :: (sw k l).tail)).getD i 0 = if i = k then (j :: (sw k l).tail).getD 0 0 else if i = 0 then (j :: (sw k l).tail).getD k 0 else (j :: (sw k l).tail).getD i 0 :=
    getD_sw _ (by omega) (by omega) i
  have e2 : ∀ i, (sw k l).getD i 0 = if i = k then l.getD 0 0 else if i = 0 then l.getD k 0 else l.getD i 0 := fun i => getD_sw l h0 hk i
  rw [e1, hcons 0 h0, hcons k hk, hcons i hi, e2 k, e2 i, getD_set0]
  by_cases hik : i = k
  · subst hik; simp [hi]
  · by_cases hi0 : i = 0
    · subst hi0; simp [hik, Ne.symm hik]
    · simp [hik, hi0, Ne.symm hik]

theorem sum_rows (x : BT n) (idx : List ℕ) : rowsSum (rows x) idx = ∑ j ∈ Finset.range (x.shape.headD 0), revealX (words x) (j :: idx) := by
  unfold rowsSum rows
  rw [List.map_map, ← List.sum_toFinset _ List.nodup_range]
  refine Finset.sum_congr ?_ fun j _ => rfl
  ext; simp

theorem sat_rows [NeZero n] {x : BT n} (h : x.shape.headD 0 ≠ 0) :
    SatX (sumXLoop (rows x).length (rows x)) fun l => ∃ r, l = [r] ∧ ∀ idx, revealX r idx = ∑ j ∈ Finset.range (x.shape.headD 0), revealX (words x) (j :: idx) := by
  refine (sat_sumXLoop (rows x).length (rows x) (by omega)).mono fun l hl => ?_
  obtain ⟨-, h1, h2⟩ := hl
  have hl : l.length = 1 := h1 (by
    unfold rows
    rw [ne_eq, List.map_eq_nil_iff, List.range_eq_nil]
    exact h)
  obtain ⟨r, rfl⟩ := List.length_eq_one_iff.1 hl
  refine ⟨r, rfl, fun idx => ?_⟩
  rw [← sum_rows, ← h2 idx]
  simp [rowsSum]

theorem sat_sum_any [NeZero n] (x : BT n) (dim : Option ℤ) : SatX (sum x dim) fun _ => True := by
  unfold sum
  split
  · exact SatX.pure (Q := fun _ => True) trivial
  · rename_i y _
    split
    · exact SatX.pure (Q := fun _ => True) trivial
    · exact SatX.bind (Q := fun _ => True) (sat_sumXLoop (rows y).length (rows y) (by omega)) fun l _ => SatX.pure (Q := fun _ => True) trivial

theorem flatten_all (x : NdTensor R) : x.flatten 0 (-1) = some (x.reshapeTo [x.shape.prod]) := by
  unfold NdTensor.flatten
  by_cases h : x.shape = []
  · simp [h]
  · have hl : 0 < x.shape.length := List.length_pos_iff.2 h
    have h0 : normDim x.shape.length 0 = some 0 := normDim_nat hl
    have h1 : normDim x.shape.length (-1) = some (x.shape.length - 1) := by
      unfold normDim
      rw [if_pos (by omega), if_pos (by omega)]
      congr 1
      omega
    simp [h, h0, h1, Nat.sub_add_cancel hl]

theorem sum_unflat (s : List ℕ) (f : List ℕ → I64) : ∑ j ∈ Finset.range s.prod, f (unflatIdx s j) = sumEntries s f := by
  rw [sumEntries_eq_sum, idxSet, allIdx_eq, List.sum_toFinset, List.map_map, ← List.sum_toFinset _ List.nodup_range]
  · refine Finset.sum_congr ?_ fun j _ => rfl
    ext; simp
  · rw [← allIdx_eq]
    exact nodup_allIdx s

theorem sat_sum [NeZero n] {x : BT n} {t : NdTensor I64} (hx : Rep x t) (dim : Option ℤ) : SatX (sum x dim) fun r => Agrees r (sumWords t dim) := by
  cases dim with
  | none =>
    by_cases hp : t.shape.prod = 0
    · simp only [sumWords, hp, ↓reduceIte]
      exact sat_sum_any x none
    · simp only [sumWords, hp, ↓reduceIte]
      unfold sum
      simp only [flatten_all]
      rw [if_neg (by simp [reshapeTo])]
      refine SatX.bind (sat_rows (by show x.shape.prod ≠ 0; rw [hx.shape]; exact hp)) fun l hl => SatX.pure ?_
      obtain ⟨r, rfl, hr⟩ := hl
      refine ⟨_, rfl, rfl, fun idx hi => ?_⟩
      have hr0 := hr []
      show revealX r _ = sumEntries t.shape t.data
      have hidx : idx = [] := validIdx_nil.1 hi
      subst hidx
      refine hr0.trans ?_
      rw [← sum_unflat]
      show ∑ j ∈ Finset.range x.shape.prod, _ = _
      rw [hx.shape]
      refine Finset.sum_congr rfl fun j hj => ?_
      rw [Finset.mem_range] at hj
      have hv := unflat_valid hj
      rw [← hx.at hv]
      show revealX (words x) (unflatIdx x.shape (flatIdx [x.shape.prod] [j])) = _
      simp [flatIdx, hx.shape]
  | some d =>
    by_cases h0 : t.shape = []
    · simp only [sumWords, h0, ↓reduceIte]
      exact sat_sum_any x (some d)
    · have hl : 0 < t.shape.length := List.length_pos_iff.2 h0
      cases hd : normDim t.shape.length d with
      | none =>
        simp only [sumWords, h0, hd, ↓reduceIte]
        unfold sum
        have : x.transpose 0 d = none := by
          simp [NdTensor.transpose, hx.shape, hd]
        simp only [this]
        exact SatX.pure rfl
      | some k =>
        have hk := normDim_lt hd
        by_cases hz : t.shape.getD k 0 = 0
        · simp only [sumWords, h0, hd, hz, ↓reduceIte]
          exact sat_sum_any x (some d)
        · simp only [sumWords, h0, hd, hz, ↓reduceIte, NdTensor.sumDim, Option.bind_some, Bool.false_eq_true]
          unfold sum
          have htr : x.transpose 0 d = some ⟨sw k x.shape, fun idx => x.data (sw k idx)⟩ :=
            transpose_of (a := 0) (b := k) (by rw [hx.shape]; exact normDim_nat hl) (by rw [hx.shape]; exact hd)
          simp only [htr]
          have hlen : (sw k x.shape).length = t.shape.length := by simp [sw, hx.shape]
          rw [if_neg (by intro h; rw [h] at hlen; simp at hlen; omega)]
          have hhead : (sw k x.shape).headD 0 = t.shape.getD k 0 := by
            have : (sw k x.shape).headD 0 = (sw k x.shape).getD 0 0 := by cases sw k x.shape <;> rfl
            rw [this, sw, getD_sw _ (by rw [hx.shape]; exact hl) (by rw [hx.shape]; exact hk), hx.shape]
            split
            · rename_i h; rw [h]
            · simp
          refine SatX.bind (sat_rows (x := ⟨sw k x.shape, fun idx => x.data (sw k idx)⟩) (by show (sw k x.shape).headD 0 ≠ 0; rw [hhead]; exact hz)) fun l hl' => SatX.pure ?_
          obtain ⟨r, rfl, hr⟩ := hl'
          have hs1 : (ofRows (sw k x.shape).tail [r]).shape = 1 :: (sw k x.shape).tail := rfl
          have hlen1 : (ofRows (sw k x.shape).tail [r]).shape.length = t.shape.length := by
            rw [hs1]; simp [hlen]; omega
          have htr2 : (ofRows (sw k x.shape).tail [r]).transpose 0 d = some ⟨sw k (1 :: (sw k x.shape).tail), fun idx => (ofRows (sw k x.shape).tail [r]).data (sw k idx)⟩ :=
            transpose_of (a := 0) (b := k) (by rw [hlen1]; exact normDim_nat hl) (by rw [hlen1]; exact hd)
          have hset : sw k (1 :: (sw k x.shape).tail) = t.shape.set k 1 := by rw [sw_sw (by rw [hx.shape]; exact hk), hx.shape]
          have hsq : NdTensor.squeeze (⟨sw k (1 :: (sw k x.shape).tail), fun idx => (ofRows (sw k x.shape).tail [r]).data (sw k idx)⟩ : BT n) d
              = some ⟨t.shape.eraseIdx k, fun idx => (ofRows (sw k x.shape).tail [r]).data (sw k (idx.insertIdx k 0))⟩ := by
            unfold NdTensor.squeeze
            simp only [hset, List.length_set, hd, Option.map_some]
            rw [if_pos (by rw [getD_set0]; simp [hk]), List.eraseIdx_set_eq]
          rw [htr2, Option.bind_some, hsq]
          refine ⟨_, rfl, rfl, fun idx hi => ?_⟩
          have hi' : ValidIdx (t.shape.eraseIdx k) idx := hi
          have hil : idx.length + 1 = t.shape.length := by rw [hi'.length, List.length_eraseIdx]; split <;> omega
          have hJ : (idx.insertIdx k 0).length = t.shape.length := by rw [List.length_insertIdx]; split <;> omega
          have hJr : (sw k (idx.insertIdx k 0)) = (idx.insertIdx k 0).getD k 0 :: (sw k (idx.insertIdx k 0)).tail := by
            have : (sw k (idx.insertIdx k 0)).length = t.shape.length := by simp [sw, hJ]
            cases hc : sw k (idx.insertIdx k 0) with
            | nil => rw [hc] at this; simp at this; omega
            | cons a l =>
              have : (sw k (idx.insertIdx k 0)).getD 0 0 = a := by rw [hc]; rfl
              rw [sw, getD_sw _ (by omega) (by omega)] at this
              rw [← this]
              split
              · rename_i h; simp [← h]
              · simp
          have hget : (idx.insertIdx k 0).getD k 0 = 0 := by
            rw [List.getD_eq_getElem _ _ (by omega), List.getElem_insertIdx_self]
          show xorList (List.ofFn fun p => (ofRows (sw k x.shape).tail [r]).data (sw k (idx.insertIdx k 0)) p) = ∑ i ∈ Finset.range (t.shape.getD k 0), t.data ((idx.insertIdx k 0).set k i)
          rw [hJr, hget]
          refine (hr _).trans ?_
          show ∑ j ∈ Finset.range ((sw k x.shape).headD 0), revealX (words x) (sw k (j :: (sw k (idx.insertIdx k 0)).tail)) = _
          rw [hhead]
          refine Finset.sum_congr rfl fun i hi => ?_
          rw [Finset.mem_range] at hi
          rw [sw_sw (by omega)]
          refine hx.at ?_
          have hset : (idx.insertIdx k 0).set k i = idx.insertIdx k i := by
            refine List.ext_getElem (by simp [List.length_insertIdx]) fun j h1 h2 => ?_
            rw [List.getElem_set, List.getElem_insertIdx, List.getElem_insertIdx]
            by_cases hjk : j < k
            · simp [hjk, show k ≠ j by omega]
            · by_cases hjk' : j = k
              · simp [hjk']
              · simp [hjk, hjk', show k ≠ j by omega]
          have hins : (t.shape.eraseIdx k).insertIdx k (t.shape.getD k 0) = t.shape := by
            rw [List.getD_eq_getElem _ _ hk]
            exact List.insertIdx_eraseIdx_getElem hk
          rw [hset, ← hins]
          exact valid_insert hi' (by rw [List.length_eraseIdx]; split <;> omega) hi

/-! ## Stacking, views and writing -/

theorem stack_cons_cons [Zero R] (t u : NdTensor R) (rest : List (NdTensor R)) (dim : ℤ) : NdTensor.stack (t :: u :: rest) dim =
    (normDim (t.shape.length + 1) dim).bind fun d => if (u :: rest).all (fun v => v.shape = t.shape) then
      some { shape := t.shape.insertIdx d ((u :: rest).length + 1), data := fun idx => (((t :: u :: rest)[idx.getD d 0]?).elim 0 fun v => v.data (idx.eraseIdx d)) } else none := rfl

theorem erase_insert_self {l : List ℕ} {d a : ℕ} : (l.insertIdx d a).eraseIdx d = l := List.eraseIdx_insertIdx_self _

theorem agrees_stack {xs : List (BT n)} {ts : List (NdTensor I64)} (h : Holds xs ts) (dim : ℤ) : Agrees (stack xs dim) (.ofOption (NdTensor.stack ts dim)) := by
  unfold stack
  cases h with
  | nil => rfl
  | @cons x t xs ts hx h =>
    cases h with
    | nil =>
      have hs : x.shape = t.shape := hx.1
      simp only [NdTensor.stack, NdTensor.unsqueeze, hs]
      cases hd : normDim (t.shape.length + 1) dim with
      | none => rfl
      | some d =>
        refine ⟨_, rfl, rfl, fun idx hi => ?_⟩
        have := valid_erase (show ValidIdx (t.shape.insertIdx d 1) idx from hi) d
        rw [erase_insert_self] at this
        exact Rep.at hx this
    | @cons y u xs ts hy h =>
      have hs : x.shape = t.shape := hx.1
      have hall : (y :: xs).all (fun v => v.shape = x.shape) = (u :: ts).all (fun v => v.shape = t.shape) := by
        have : ∀ {as : List (BT n)} {bs : List (NdTensor I64)}, Holds as bs → as.all (fun v => v.shape = t.shape) = bs.all (fun v => v.shape = t.shape) := by
          intro as bs hab
          induction hab with
          | nil => rfl
          | cons h1 _ ih =>
            rw [List.all_cons, List.all_cons, ih]
            congr 1
            rename_i p q _ _ _
            have e : p.shape = q.shape := h1.1
            rw [e]
        rw [hs]
        exact this (.cons hy h)
      rw [stack_cons_cons, stack_cons_cons, hall, hs]
      cases hd : normDim (t.shape.length + 1) dim with
      | none => rfl
      | some d =>
        rw [Option.bind_some, Option.bind_some]
        split
        · rename_i ha
          have hlen : (y :: xs).length = (u :: ts).length := by rw [List.length_cons, List.length_cons, h.length_eq]
          rw [hlen]
          refine ⟨_, rfl, rfl, fun idx hi => ?_⟩
          have hi' : ValidIdx (t.shape.insertIdx d ((u :: ts).length + 1)) idx := hi
          have hv := valid_erase hi' d
          rw [erase_insert_self] at hv
          have hdl := normDim_lt hd
          have hlt : idx.getD d 0 < (t :: u :: ts).length := by
            have := (validIdx_iff.1 hi').2 d (by rw [List.length_insertIdx]; split <;> omega)
            rw [List.getD_eq_getElem (t.shape.insertIdx d _) _ (by rw [List.length_insertIdx]; split <;> omega), List.getElem_insertIdx_self] at this
            exact this
          have hf : Holds (x :: y :: xs) (t :: u :: ts) := .cons hx (.cons hy h)
          have hlx : idx.getD d 0 < (x :: y :: xs).length := by rw [hf.length_eq]; exact hlt
          show xorList (List.ofFn fun p => ((x :: y :: xs)[idx.getD d 0]?.elim 0 fun v => v.data (idx.eraseIdx d)) p) = (t :: u :: ts)[idx.getD d 0]?.elim 0 fun v => v.data (idx.eraseIdx d)
          rw [List.getElem?_eq_getElem hlx, List.getElem?_eq_getElem hlt, Option.elim_some, Option.elim_some]
          refine Rep.at (List.Forall₂.get hf hlx hlt) ?_
          rw [List.get_eq_getElem]
          have hsh : ((t :: u :: ts)[idx.getD d 0]).shape = t.shape := by
            have hm := List.getElem_mem hlt
            rw [List.mem_cons] at hm
            rcases hm with e | hm
            · exact congrArg _ e
            · have := List.all_eq_true.1 ha _ hm
              simpa using this
          rw [hsh]
          exact hv
        · rfl

theorem agrees_view (v : View) {x : BT n} {t : NdTensor I64} (hx : Rep x t) : Agrees (v.apply x) (.ofOption (v.apply t)) := by
  unfold View.apply
  rw [hx.shape]
  cases hs : v.size t.shape with
  | none => rfl
  | some s' => exact ⟨_, rfl, rfl, fun idx hi => hx.at (v.valid _ _ _ hs hi)⟩

theorem agrees_write (w : Write) {x y : BT n} {t u : NdTensor I64} (hx : Rep x t) (hy : Rep y u) : Agrees (w.apply x y) (.ofOption (w.apply t u)) := by
  unfold Write.apply
  rw [hx.shape, hy.shape]
  cases ha : w.accepts t.shape u.shape with
  | false => rfl
  | true =>
    refine ⟨_, rfl, rfl, fun idx hi => ?_⟩
    show xorList (List.ofFn fun p => ((w.pick idx).elim (x.data idx) y.data) p) = (w.pick idx).elim (t.data idx) u.data
    cases hp : w.pick idx with
    | none => exact hx.at hi
    | some j => exact hy.at (w.valid _ _ _ _ ha hp)

/-! ## Programs -/

theorem holds_get {xs : List (BT n)} {ts : List (NdTensor I64)} (h : Holds xs ts) (i : ℕ) : (xs[i]? = none ∧ ts[i]? = none) ∨ ∃ x t, xs[i]? = some x ∧ ts[i]? = some t ∧ Rep x t := by
  by_cases hi : i < xs.length
  · have hi' : i < ts.length := h.length_eq ▸ hi
    exact .inr ⟨_, _, List.getElem?_eq_getElem hi, List.getElem?_eq_getElem hi', List.Forall₂.get h hi hi'⟩
  · exact .inl ⟨List.getElem?_eq_none (by omega), List.getElem?_eq_none (by rw [← h.length_eq]; omega)⟩

theorem holds_ref {xs : List (BT n)} {ts : List (NdTensor I64)} (h : Holds xs ts) (b : Ref) : (b.arg xs = none ∧ b.plain ts = none) ∨ ∃ a o, b.arg xs = some a ∧ b.plain ts = some o ∧ ArgRep a o := by
  cases b with
  | reg i =>
    rcases holds_get h i with ⟨e1, e2⟩ | ⟨x, t, e1, e2, hr⟩
    · exact .inl ⟨by simp [Ref.arg, e1], by simp [Ref.plain, e2]⟩
    · exact .inr ⟨.shared x, .tensor t true, by simp [Ref.arg, e1], by simp [Ref.plain, e2], .shared hr⟩
  | pub y => exact .inr ⟨_, _, rfl, rfl, .pub y⟩
  | int z => exact .inr ⟨_, _, rfl, rfl, .int z⟩

theorem holds_mapM {xs : List (BT n)} {ts : List (NdTensor I64)} (h : Holds xs ts) (as : List ℕ) :
    ((as.mapM fun a => xs[a]?) = none ∧ (as.mapM fun a => ts[a]?) = none) ∨ ∃ ys us, (as.mapM fun a => xs[a]?) = some ys ∧ (as.mapM fun a => ts[a]?) = some us ∧ Holds ys us := by
  induction as with
  | nil => exact .inr ⟨[], [], rfl, rfl, .nil⟩
  | cons a as ih =>
    rcases holds_get h a with ⟨e1, e2⟩ | ⟨x, t, e1, e2, hr⟩
    · exact .inl ⟨by simp [List.mapM_cons, e1], by simp [List.mapM_cons, e2]⟩
    · rcases ih with ⟨e3, e4⟩ | ⟨ys, us, e3, e4, hh⟩
      · exact .inl ⟨by simp [List.mapM_cons, e1, e3], by simp [List.mapM_cons, e2, e4]⟩
      · exact .inr ⟨x :: ys, t :: us, by simp [List.mapM_cons, e1, e3], by simp [List.mapM_cons, e2, e4], .cons hr hh⟩

theorem sat_opOut [NeZero n] (o : Op) {x : BT n} {t : NdTensor I64} (hx : Rep x t) {a : Arg n} {b : Operand} (ha : ArgRep a b) : SatX (opOut o x a) fun r => Agrees r (outOfPlace o t b) := by
  cases o with
  | xor => exact SatX.pure (agrees_xor hx ha)
  | and => exact sat_andOp hx ha
  | or => exact sat_orOp hx ha

theorem sat_opIn [NeZero n] (o : Op) {x : BT n} {t : NdTensor I64} (hx : Rep x t) {a : Arg n} {b : Operand} (ha : ArgRep a b) : SatX (opIn o x a) fun r => Agrees r (inPlace o t b) := by
  cases o with
  | xor => exact SatX.pure (agrees_ixor hx ha)
  | and => exact sat_iand hx ha
  | or => exact sat_ior hx ha

theorem sat_encrypt [NeZero n] (src : Fin n) (x : NdTensor I64) : SatX (Proto.encryptX src x.data) fun e => Rep (ofWords x.shape e) x :=
  (sat_encryptX src x.data).mono fun z hz => ⟨rfl, fun idx _ => congrFun hz idx⟩

/-- One statement. -/
theorem sat_instr [NeZero n] {xs : List (BT n)} {ts : List (NdTensor I64)} (h : Holds xs ts) (i : Instr n) : SatX (i.value xs) fun r => Agrees r (i.plain ts) := by
  cases i with
  | encrypt src x => exact SatX.bind (sat_encrypt src x) fun e he => SatX.pure ⟨_, rfl, he⟩
  | op o a b =>
    unfold Instr.value Instr.plain
    rcases holds_get h a with ⟨e1, e2⟩ | ⟨x, t, e1, e2, hr⟩
    · simp only [e1, e2]; exact SatX.pure rfl
    · rcases holds_ref h b with ⟨e3, e4⟩ | ⟨y, u, e3, e4, hr'⟩
      · simp only [e1, e2, e3, e4]; exact SatX.pure rfl
      · simp only [e1, e2, e3, e4]; exact sat_opOut o hr hr'
  | iop o a b =>
    unfold Instr.value Instr.plain
    rcases holds_get h a with ⟨e1, e2⟩ | ⟨x, t, e1, e2, hr⟩
    · simp only [e1, e2]; exact SatX.pure rfl
    · rcases holds_ref h b with ⟨e3, e4⟩ | ⟨y, u, e3, e4, hr'⟩
      · simp only [e1, e2, e3, e4]; exact SatX.pure rfl
      · simp only [e1, e2, e3, e4]; exact sat_opIn o hr hr'
  | invert a =>
    unfold Instr.value Instr.plain
    rcases holds_get h a with ⟨e1, e2⟩ | ⟨x, t, e1, e2, hr⟩
    · simp only [e1, e2]; exact SatX.pure rfl
    · simp only [e1, e2]; exact SatX.pure ⟨_, rfl, rep_invert hr⟩
  | lshift a k =>
    unfold Instr.value Instr.plain
    rcases holds_get h a with ⟨e1, e2⟩ | ⟨x, t, e1, e2, hr⟩
    · simp only [e1, e2]; exact SatX.pure rfl
    · simp only [e1, e2]
      refine SatX.pure ⟨_, rfl, rep_of hr.shape.symm fun idx hi => ?_⟩
      rw [revealX_lshift, hr.at (hr.shape ▸ hi)]
      rfl
  | rshift a k =>
    unfold Instr.value Instr.plain
    rcases holds_get h a with ⟨e1, e2⟩ | ⟨x, t, e1, e2, hr⟩
    · simp only [e1, e2]; exact SatX.pure rfl
    · simp only [e1, e2]
      refine SatX.pure ⟨_, rfl, rep_of hr.shape.symm fun idx hi => ?_⟩
      rw [revealX_rshift, hr.at (hr.shape ▸ hi)]
      rfl
  | circ c a b =>
    unfold Instr.value Instr.plain
    rcases holds_get h a with ⟨e1, e2⟩ | ⟨x, t, e1, e2, hr⟩
    · simp only [e1, e2]; exact SatX.pure rfl
    · rcases holds_get h b with ⟨e3, e4⟩ | ⟨y, u, e3, e4, hr'⟩
      · simp only [e1, e2, e3, e4]; exact SatX.pure rfl
      · simp only [e1, e2, e3, e4]; exact sat_circ c hr hr'
  | whereEnc a c b =>
    unfold Instr.value Instr.plain
    rcases holds_get h a with ⟨e1, e2⟩ | ⟨x, t, e1, e2, hr⟩
    · simp only [e1, e2]; exact SatX.pure rfl
    · rcases holds_get h c with ⟨e5, e6⟩ | ⟨k, v, e5, e6, hr''⟩
      · simp only [e1, e2, e5, e6]; exact SatX.pure rfl
      · rcases holds_ref h b with ⟨e3, e4⟩ | ⟨y, u, e3, e4, hr'⟩
        · simp only [e1, e2, e3, e4, e5, e6]; exact SatX.pure rfl
        · simp only [e1, e2, e3, e4, e5, e6]; exact sat_whereEnc hr hr'' hr'
  | wherePub a c b =>
    unfold Instr.value Instr.plain
    rcases holds_get h a with ⟨e1, e2⟩ | ⟨x, t, e1, e2, hr⟩
    · simp only [e1, e2]; exact SatX.pure rfl
    · rcases holds_ref h b with ⟨e3, e4⟩ | ⟨y, u, e3, e4, hr'⟩
      · simp only [e1, e2, e3, e4]; exact SatX.pure rfl
      · simp only [e1, e2, e3, e4]; exact sat_wherePub hr c hr'
  | sum a dim =>
    unfold Instr.value Instr.plain
    rcases holds_get h a with ⟨e1, e2⟩ | ⟨x, t, e1, e2, hr⟩
    · simp only [e1, e2]; exact SatX.pure rfl
    · simp only [e1, e2]; exact sat_sum hr dim
  | stack as dim =>
    unfold Instr.value Instr.plain
    rcases holds_mapM h as with ⟨e1, e2⟩ | ⟨x, t, e1, e2, hr⟩
    · simp only [e1, e2]; exact SatX.pure rfl
    · simp only [e1, e2, Option.bind_some]; exact SatX.pure (agrees_stack hr dim)
  | view v a =>
    unfold Instr.value Instr.plain
    rcases holds_get h a with ⟨e1, e2⟩ | ⟨x, t, e1, e2, hr⟩
    · simp only [e1, e2]; exact SatX.pure rfl
    · simp only [e1, e2, Option.bind_some]; exact SatX.pure (agrees_view v hr)
  | write w a b =>
    unfold Instr.value Instr.plain
    rcases holds_get h a with ⟨e1, e2⟩ | ⟨x, t, e1, e2, hr⟩
    · simp only [e1, e2]; exact SatX.pure rfl
    · rcases holds_ref h b with ⟨e3, e4⟩ | ⟨y, u, e3, e4, hr'⟩
      · simp only [e1, e2, e3, e4]; exact SatX.pure rfl
      · simp only [e1, e2, e3, e4]
        cases hr' with
        | shared hy => exact SatX.pure (agrees_write w hr hy)
        | pub u => exact SatX.bind (sat_encrypt 0 u) fun e he => SatX.pure (agrees_write w hr he)
        | int z => exact SatX.pure rfl

theorem holds_store {xs : List (BT n)} {ts : List (NdTensor I64)} (h : Holds xs ts) {x : BT n} {t : NdTensor I64} (hx : Rep x t) (i : Instr n) : Holds (i.store xs x) (match i.replaces with | some a => ts.set a t | none => ts ++ [t]) := by
  have happ : Holds (xs ++ [x]) (ts ++ [t]) := List.rel_append h (.cons hx .nil)
  have hset : ∀ a, Holds (xs.set a x) (ts.set a t) := by
    induction h with
    | nil => intro a; exact .nil
    | cons h1 h2 ih =>
      intro a
      cases a with
      | zero => exact .cons hx h2
      | succ a => exact .cons h1 (ih (List.rel_append h2 (.cons hx .nil)) a)
  cases i <;> first | exact happ | exact hset _

theorem holds_self_rep (x : BT n) : Rep x (revealT x) := ⟨rfl, fun _ _ => rfl⟩

theorem holds_self (xs : List (BT n)) : Holds xs (xs.map revealT) := by
  induction xs with
  | nil => exact .nil
  | cons x xs ih => exact .cons ⟨rfl, fun _ _ => rfl⟩ ih

theorem sat_run [NeZero n] (prog : List (Instr n)) : ∀ {xs : List (BT n)} {ts : List (NdTensor I64)}, Holds xs ts → SatX (run prog xs) fun r =>
    match plainRun prog ts with
    | .ok us => ∃ ys, r = some ys ∧ Holds ys us
    | .raises => r = none
    | .unspecified => True := by
  induction prog with
  | nil => intro xs ts h; exact SatX.pure ⟨xs, rfl, h⟩
  | cons i prog ih =>
    intro xs ts h
    unfold run plainRun
    refine SatX.bind (sat_instr h i) fun r hr => ?_
    cases hp : i.plain ts with
    | ok v =>
      rw [hp] at hr
      obtain ⟨z, rfl, hz⟩ := hr
      exact ih (holds_store h hz i)
    | raises =>
      rw [hp] at hr
      have : r = none := hr
      subst this
      exact SatX.pure rfl
    | unspecified =>
      cases r with
      | none => exact SatX.pure (Q := fun _ => True) trivial
      | some z => exact (ih (holds_self _)).mono fun _ _ => trivial

/-! ## The property -/

/-- C89 (programs): take any number of parties, any tensors and any program of statements on them: encryption by any party, `^`, `&`, `|` out of place and in place with encrypted tensors, public
tensors and integers, `~`, shifts, sums and comparisons, `where` with encrypted or public conditions, `sum`, `stack`, functions that move entries, and writing into a tensor. If the program on plain
64-bit words returns, the program on shares returns tensors that hold the same words in the same shapes; if it raises, the program on shares raises. -/
theorem C89_program [NeZero n] (prog : List (Instr n)) {xs : List (BT n)} {ts : List (NdTensor I64)} (h : Holds xs ts) : SatX (run prog xs) fun r =>
    match plainRun prog ts with
    | .ok us => ∃ ys, r = some ys ∧ Holds ys us
    | .raises => r = none
    | .unspecified => True := sat_run prog h

/-- Two parties: a column is encrypted by party 1, combined with a public row and compared; the plain program gives a matrix of zeros and ones. -/
example :
    ∃ ys, plainRun (n := 2) [.encrypt 1 ⟨[2, 1], fun i => BitVec.ofNat 64 (5 + i.getD 0 0)⟩, .op .and 0 (.pub ⟨[2], fun i => BitVec.ofNat 64 (6 + i.getD 0 0)⟩), .circ .lt 1 0, .sum 2 (some 0),
      .iop .or 3 (.int 4)] [] = .ok ys ∧ (ys.map fun y => y.shape) = [[2, 1], [2, 2], [2, 2], [2]] ∧ (ys.getD 3 ⟨[], fun _ => 0⟩).data [0] = 5#64 ∧ (ys.getD 3 ⟨[], fun _ => 0⟩).data [1] = 4#64 := by
  refine ⟨_, rfl, rfl, ?_, ?_⟩ <;> decide +kernel

/-- A program that raises: the shapes `[2]` and `[3]` have no common shape. -/
example : plainRun (n := 3) [.encrypt 0 ⟨[2], fun _ => 1⟩, .encrypt 2 ⟨[3], fun _ => 1⟩, .op .xor 0 (.reg 1)] [] = .raises := rfl

/-! ## The constructor -/

/-- Party `r` knows that the shape is `s`: it passes a tensor of that shape, or no tensor and the size. -/
def Knows (a : Args) (s : List ℕ) : Prop := (∃ u, a.tensor = some u ∧ u.shape = s) ∨ (a.tensor = none ∧ a.size = some s)

theorem ownSize_knows {a : Args} {s : List ℕ} (h : Knows a s) : ownSize a = some s := by
  rcases h with ⟨u, e, rfl⟩ | ⟨e, e'⟩
  · simp [ownSize, e]
  · simp [ownSize, e, e']

theorem find_src {α : Type} (src : Fin n) (f : Fin n → Option α) : ((List.finRange n).findSome? fun q : Fin n => if ((q : ℕ) : ℤ) = ((src : ℕ) : ℤ) then f q else none) = f src := by
  have key : ∀ l : List (Fin n), (l.findSome? fun q : Fin n => if ((q : ℕ) : ℤ) = ((src : ℕ) : ℤ) then f q else none) = if src ∈ l then f src else none := by
    intro l
    induction l with
    | nil => rfl
    | cons a l ih =>
      rw [List.findSome?_cons]
      by_cases ha : a = src
      · subst ha
        simp only [↓reduceIte, List.mem_cons, true_or]
        cases hf : f a with
        | some v => rfl
        | none => simp only [ih, hf]; split <;> rfl
      · have : ¬((a : ℕ) : ℤ) = ((src : ℕ) : ℤ) := fun h => ha (Fin.ext (by omega))
        simp only [this, ↓reduceIte, ih, List.mem_cons, Ne.symm ha, false_or]
  rw [key, if_pos (List.mem_finRange src)]

theorem construct_done {mask : I64 → I64 → I64} {zero : Shares n (List ℕ)} {src : Fin n} {broadcast : Bool} {args : Fin n → Args} {t : NdTensor I64} (ht : (args src).tensor = some t)
    (hsrc : (args src).tensorSrc = none ∨ (args src).tensorSrc = some (src : ℤ)) (hk : broadcast = true ∨ ∀ r, Knows (args r) t.shape) (r : Fin n) :
    construct mask zero src broadcast args r = .done ⟨t.shape, fun idx => if r = src then mask (zero r idx) (t.data idx) else zero r idx⟩ := by
  have hb : (0 ≤ ((src : ℕ) : ℤ) && ((src : ℕ) : ℤ) < n) = true := by
    have := src.2
    simp
  have hok : ∀ q, argsOk ((src : ℕ) : ℤ) broadcast n q (args q) = true := by
    intro q
    unfold argsOk
    rw [hb, Bool.true_and, Bool.and_eq_true]
    refine ⟨?_, ?_⟩
    · split
      · rename_i h
        have : q = src := Fin.ext (by omega)
        subst this
        rcases hsrc with e | e <;> simp [ht, e]
      · rfl
    · rcases hk with rfl | hk
      · rfl
      · rcases hk q with ⟨u, e, -⟩ | ⟨-, e⟩ <;> simp [e]
  have hsize : (if broadcast then (List.finRange n).findSome? fun q : Fin n => if ((q : ℕ) : ℤ) = ((src : ℕ) : ℤ) then if argsOk ((src : ℕ) : ℤ) broadcast n q (args q) then some (ownSize (args q)) else none else none
      else some (ownSize (args r))) = some (some t.shape) := by
    cases broadcast with
    | true =>
      rw [if_pos rfl, find_src src (fun q => if argsOk ((src : ℕ) : ℤ) true n q (args q) then some (ownSize (args q)) else none), if_pos (hok src)]
      simp [ownSize, ht]
    | false =>
      rw [if_neg (by simp)]
      rcases hk with h | hk
      · cases h
      · rw [ownSize_knows (hk r)]
  unfold construct
  rw [if_neg (by omega), if_neg (by rw [hok]; simp)]
  simp only [hsize]
  by_cases hr : r = src
  · subst hr
    simp only [↓reduceIte, ht]
  · have : ¬((r : ℕ) : ℤ) = ((src : ℕ) : ℤ) := fun h => hr (Fin.ext (by omega))
    simp only [this, hr, ↓reduceIte]

/-- C89 (construction): if the source passes its tensor, and either the size is broadcast or every party knows it, the constructor returns at every party with a share of the shape of that tensor, and
the shares of all parties open to it, exclusive-or for binary and sum for arithmetic tensors. What the other parties pass besides the size does not matter. -/
theorem C89_construct {zero : Shares n (List ℕ)} {src : Fin n} {broadcast : Bool} {args : Fin n → Args} {t : NdTensor I64} (ht : (args src).tensor = some t)
    (hsrc : (args src).tensorSrc = none ∨ (args src).tensorSrc = some (src : ℤ)) (hk : broadcast = true ∨ ∀ r, Knows (args r) t.shape) :
    ((∀ idx, revealX zero idx = 0#64) → ∃ x : BT n, (∀ r, construct (· ^^^ ·) zero src broadcast args r = .done ⟨x.shape, fun idx => x.data idx r⟩) ∧ OnnxSpec.Same (revealT x) t)
    ∧ ((∀ idx, reveal zero idx = 0#64) → ∃ x : BT n, (∀ r, construct (· + ·) zero src broadcast args r = .done ⟨x.shape, fun idx => x.data idx r⟩)
        ∧ OnnxSpec.Same ⟨x.shape, fun idx => reveal (words x) idx⟩ t) := by
  constructor
  · intro hz
    refine ⟨ofWords t.shape fun r idx => if r = src then zero r idx ^^^ t.data idx else zero r idx, fun r => ?_, rfl, fun idx _ => ?_⟩
    · rw [construct_done ht hsrc hk]; rfl
    · have e : (fun (r : Fin n) (idx : List ℕ) => if r = src then zero r idx ^^^ t.data idx else zero r idx) = xorShares zero (fun p i => if p = src then t.data i else 0#64) := by
        funext r i
        by_cases h : r = src <;> simp [h, xorShares]
      show revealX (fun (r : Fin n) (idx : List ℕ) => if r = src then zero r idx ^^^ t.data idx else zero r idx) idx = t.data idx
      rw [e, revealX_xorShares, hz, revealX_apply, xsum_single]
      simp
  · intro hz
    refine ⟨ofWords t.shape fun r idx => if r = src then zero r idx + t.data idx else zero r idx, fun r => ?_, rfl, fun idx _ => ?_⟩
    · rw [construct_done ht hsrc hk]; rfl
    · have e : (fun (r : Fin n) (idx : List ℕ) => if r = src then zero r idx + t.data idx else zero r idx) = addShares zero (fun p => if p = src then t.data else 0) := by
        funext r i
        by_cases h : r = src <;> simp [h, addShares]
      show reveal (fun (r : Fin n) (idx : List ℕ) => if r = src then zero r idx + t.data idx else zero r idx) idx = t.data idx
      rw [e, reveal_addShares, Pi.add_apply, hz, reveal, Finset.sum_ite_eq', if_pos (Finset.mem_univ _)]
      exact BitVec.zero_add _

/-- C89 (construction, wrong calls): a source that is no party is refused by every party; a source that passes no tensor, or a tensor marked with another source, is refused by itself, and with
`broadcast_size` the others wait for a size that does not come. -/
theorem C89_construct_errors {mask : I64 → I64 → I64} {zero : Shares n (List ℕ)} {broadcast : Bool} {args : Fin n → Args} :
    (∀ src : ℤ, src ≠ -1 → (src < 0 ∨ (n : ℤ) ≤ src) → ∀ r, construct mask zero src broadcast args r = .fails)
    ∧ ∀ src : Fin n, ((args src).tensor = none ∨ ∃ s, (args src).tensorSrc = some s ∧ s ≠ (src : ℤ)) →
      construct mask zero src broadcast args src = .fails ∧ ∀ r, r ≠ src → broadcast = true → construct mask zero src broadcast args r = .waits := by
  constructor
  · intro src h1 h2 r
    unfold construct
    rw [if_neg h1, if_pos]
    unfold argsOk
    have : (decide (0 ≤ src) && decide (src < n)) = false := by
      rw [Bool.and_eq_false_iff, decide_eq_false_iff_not, decide_eq_false_iff_not]
      omega
    rw [this]
    simp
  · intro src h
    have hbad : argsOk ((src : ℕ) : ℤ) broadcast n src (args src) = false := by
      unfold argsOk
      rcases h with e | ⟨s, e, hs⟩
      · simp [e]
      · simp [e, hs]
    refine ⟨?_, fun r hr hb => ?_⟩
    · unfold construct
      rw [if_neg (by omega), if_pos (by rw [hbad]; rfl)]
    · subst hb
      have hne : ¬((r : ℕ) : ℤ) = ((src : ℕ) : ℤ) := fun h => hr (Fin.ext (by omega))
      have hok : argsOk ((src : ℕ) : ℤ) true n r (args r) = true := by
        unfold argsOk
        have := src.2
        simp [hne]
      unfold construct
      rw [if_neg (by omega), if_neg (by rw [hok]; simp)]
      simp only [↓reduceIte, find_src src (fun q => if argsOk ((src : ℕ) : ℤ) true n q (args q) then some (ownSize (args q)) else none), hbad, Bool.false_eq_true]

/-- Three parties; party 1 is the source, the others pass the size. -/
example : ∃ args : Fin 3 → Args, (args 1).tensor = some ⟨[2], fun _ => 7⟩ ∧ (args 1).tensorSrc = some 1 ∧ (∀ r, Knows (args r) [2]) :=
  ⟨fun r => if r = 1 then { tensor := some ⟨[2], fun _ => 7⟩, tensorSrc := some 1 } else { size := some [2] }, rfl, rfl, fun r => by
    by_cases h : r = 1
    · exact .inl ⟨⟨[2], fun _ => 7⟩, by simp [h], rfl⟩
    · exact .inr ⟨by simp [h], by simp [h]⟩⟩

/-! ## Where no promise is made -/

/-- The code violates what in-place operators promise: `x ^= y` raises if `y` is larger than `x`, as torch does, but `x &= y` with an encrypted `y` returns and changes the shape of `x`. -/
theorem C89_iand_grows_wrong [NeZero n] (x y : BT n) (hx : x.shape = [1]) (hy : y.shape = [2]) :
    ixor x (.shared y) = none ∧ SatX (iand x (.shared y)) fun r => ∃ z, r = some z ∧ z.shape = [2] ∧ z.shape ≠ x.shape := by
  constructor
  · rcases expand_cases y x.shape with ⟨hf, -⟩ | ⟨-, e⟩
    · exfalso
      rw [hx, hy] at hf
      have := hf.2 0 (by simp)
      simp [dimR] at this
    · simp [ixor, e]
  · have hs : IsCommonShape [(revealT x).shape, (revealT y).shape] [2] := by
      show IsCommonShape [x.shape, y.shape] [2]
      rw [hx, hy]
      exact commonShape_some.1 rfl
    refine (sat_lift2 (g := opWord .and) (fun a b => sat_and a b) (holds_self_rep x) (holds_self_rep y)).mono fun r hr => ?_
    rw [zip_some _ _ _ hs] at hr
    obtain ⟨z, e, hz⟩ := hr
    have hsh : z.shape = [2] := hz.shape
    exact ⟨z, e, hsh, by rw [hsh, hx]; simp⟩

/-- The code violates what `sum` promises for plain tensors, zeros where there is nothing to add up: over a dimension of size 0 an empty tensor is returned, with that dimension. -/
theorem C89_sum_empty_wrong [NeZero n] (x : BT n) (hx : x.shape = [0]) : SatX (sum x none) fun r => ∃ z, r = some z ∧ z.shape = [0] := by
  unfold sum
  simp only [flatten_all]
  rw [if_neg (by simp [reshapeTo])]
  have : rows (x.reshapeTo [x.shape.prod]) = [] := by simp [rows, reshapeTo, hx]
  rw [this]
  refine SatX.bind (P := fun l => l = []) (SatX.pure rfl) fun l hl => ?_
  subst hl
  exact SatX.pure ⟨_, rfl, rfl⟩

end CrypTen.BinT

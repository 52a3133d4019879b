import Verif.Spec.Moving
import Verif.Props.ModuleHeap
import Mathlib.Tactic.Linarith
import Mathlib.Tactic.Ring

/-!
# C96: moving models between devices
-/

namespace CrypTen.Moving
variable {n : ℕ}

theorem Kind.Same.refl (k : Kind n) : k.Same k := by
  cases k with
  | torch d => exact ⟨rfl, rfl⟩
  | shared s c => exact ⟨fun _ => ⟨rfl, rfl⟩, rfl⟩

theorem Kind.Same.trans {a b c : Kind n} (h1 : a.Same b) (h2 : b.Same c) : a.Same c := by
  cases a <;> cases b <;> cases c <;> first | exact h1.elim | exact h2.elim | skip
  · exact ⟨h2.1.trans h1.1, h2.2.trans h1.2⟩
  · exact ⟨fun p => ⟨(h2.1 p).1.trans (h1.1 p).1, (h2.1 p).2.trans (h1.1 p).2⟩, h2.2.trans h1.2⟩

theorem Kind.Same.secret {a b : Kind n} (h : a.Same b) : a.Secret ↔ b.Secret := by
  cases a <;> cases b <;> first | exact h.elim | exact Iff.rfl

theorem slots_setSlot (h : Heap n) (m : ℕ) (b : Bool) (i r c : ℕ) (b' : Bool) :
    (((h.setSlot m b i r).mods c).slots b') = if c = m ∧ b' = b then ((h.mods c).slots b').modify i fun q => (q.1, r) else (h.mods c).slots b' := by
  unfold Heap.setSlot
  by_cases e : c = m
  · subst e
    simp only [Function.update_self, true_and]
    cases b <;> cases b' <;> simp [Obj.slots]
  · simp [Function.update_of_ne e, e]

theorem children_setSlot (h : Heap n) (m : ℕ) (b : Bool) (i r c : ℕ) : ((h.setSlot m b i r).mods c).children = (h.mods c).children := by
  unfold Heap.setSlot
  by_cases e : c = m
  · subst e; simp only [Function.update_self]; cases b <;> simp
  · simp [Function.update_of_ne e]

theorem encrypted_setSlot (h : Heap n) (m : ℕ) (b : Bool) (i r c : ℕ) : ((h.setSlot m b i r).mods c).encrypted = (h.mods c).encrypted := by
  unfold Heap.setSlot
  by_cases e : c = m
  · subst e; simp only [Function.update_self]; cases b <;> simp
  · simp [Function.update_of_ne e]

theorem mods_moveTensor (h : Heap n) (t : Target) (r : ℕ) : (h.moveTensor t r).1.mods = h.mods := by
  unfold Heap.moveTensor
  split
  · split <;> rfl
  · rfl

theorem children_moveSlot (t : Target) (h : Heap n) (m : ℕ) (b : Bool) (i c : ℕ) : ((moveSlot t m b h i).mods c).children = (h.mods c).children := by
  unfold moveSlot
  split
  · rfl
  · rw [children_setSlot, mods_moveTensor]

theorem part_congr {h h' : Heap n} (e : ∀ c, (h'.mods c).children = (h.mods c).children) {m c : ℕ} (hp : Part h m c) : Part h' m c := by
  induction hp with
  | self m => exact .self m
  | sub name hc _ ih => exact .sub name (by rw [e]; exact hc) ih

theorem part_trans {h : Heap n} {a b c : ℕ} (h1 : Part h a b) (h2 : Part h b c) : Part h a c := by
  induction h1 with
  | self => exact h2
  | sub name hc _ ih => exact .sub name hc (ih h2)

theorem mem_children (h : Heap n) (m c : ℕ) : c ∈ children h m ↔ ∃ name, (name, c) ∈ (h.mods m).children := by
  rw [children, ModuleHeap.mem_childrenFrom]; simp

/-- What is kept by every round of the loops, for all modules of the model, is kept by `move`. -/
theorem move_induct (t : Target) (h0 : Heap n) (P : Heap n → Prop) (m0 : ℕ)
    (hstep : ∀ h c b i, Part h0 m0 c → (∀ c, (h.mods c).children = (h0.mods c).children) → P h → P (moveSlot t c b h i)) :
    ∀ fuel h m, Part h0 m0 m → (∀ c, (h.mods c).children = (h0.mods c).children) → P h → P (move t fuel h m) ∧ ∀ c, ((move t fuel h m).mods c).children = (h0.mods c).children := by
  have hfold : ∀ c b, Part h0 m0 c → ∀ (l : List ℕ) (h : Heap n), (∀ c, (h.mods c).children = (h0.mods c).children) → P h →
      P (l.foldl (moveSlot t c b) h) ∧ ∀ d, ((l.foldl (moveSlot t c b) h).mods d).children = (h0.mods d).children := by
    intro c b hc l
    induction l with
    | nil => exact fun h e hp => ⟨hp, e⟩
    | cons i l ih => exact fun h e hp => ih _ (fun d => (children_moveSlot ..).trans (e d)) (hstep h c b i hc e hp)
  intro fuel
  induction fuel with
  | zero => exact fun h m _ e hp => ⟨hp, e⟩
  | succ fuel ih =>
    intro h m hm e hp
    unfold move
    have h1 : P (moveOwn t h m) ∧ ∀ d, ((moveOwn t h m).mods d).children = (h0.mods d).children := by
      unfold moveOwn
      obtain ⟨a, b⟩ := hfold m false hm _ h e hp
      exact hfold m true hm _ _ b a
    have hch : ∀ c ∈ children (moveOwn t h m) m, Part h0 m0 c := fun c hc => by
      obtain ⟨name, hc⟩ := (mem_children _ _ _).1 hc
      rw [h1.2] at hc
      exact part_trans hm (.sub name hc (.self c))
    dsimp only
    generalize children (moveOwn t h m) m = l at hch
    generalize moveOwn t h m = g at h1
    induction l generalizing g with
    | nil => exact h1
    | cons c l ihl => exact ihl (fun d hd => hch d (List.mem_cons_of_mem _ hd)) _ (ih g c (hch c List.mem_cons_self) h1.2 h1.1)

/-! ## Devices -/

/-- What moving to the device `dev` keeps. -/
structure Inv (dev : ℕ) (h h' : Heap n) : Prop where
  encrypted : ∀ m, (h'.mods m).encrypted = (h.mods m).encrypted
  names : ∀ m b, ((h'.mods m).slots b).map Prod.fst = ((h.mods m).slots b).map Prod.fst
  next : h.next ≤ h'.next
  slot : ∀ m b (i : ℕ) (q q' : String × ℕ), ((h.mods m).slots b)[i]? = some q → ((h'.mods m).slots b)[i]? = some q' →
    (h.tens q.2).kind.Same (h'.tens q'.2).kind ∧ ((h.tens q.2).kind.On dev → (h'.tens q'.2).kind.On dev) ∧ ((h.tens q.2).kind.Secret → q'.2 = q.2) ∧ (h'.tens q'.2).requiresGrad = (h.tens q.2).requiresGrad ∧
      ((h.tens q.2).kind.On dev → q'.2 = q.2) ∧ (q'.2 = q.2 ∨ (h.next ≤ q'.2 ∧ (h'.tens q'.2).leaf = !(h'.tens q'.2).requiresGrad))
  alloc : ∀ m b, ∀ q ∈ (h'.mods m).slots b, q.2 < h'.next
  old : ∀ r < h.next, (¬ (h.tens r).kind.Secret → h'.tens r = h.tens r) ∧ (h.tens r).kind.Same (h'.tens r).kind ∧ ((h.tens r).kind.On dev → (h'.tens r).kind.On dev) ∧
    (h'.tens r).requiresGrad = (h.tens r).requiresGrad ∧ (h'.tens r).leaf = (h.tens r).leaf ∧ (h'.tens r).grad = (h.tens r).grad

theorem Inv.refl (dev : ℕ) {h : Heap n} (hv : Valid h) : Inv dev h h :=
  ⟨fun _ => rfl, fun _ _ => rfl, le_rfl, fun m b i q q' e e' => by
    rw [e] at e'; cases e'
    exact ⟨.refl _, id, fun _ => rfl, rfl, fun _ => rfl, .inl rfl⟩, hv.allocated, fun r _ => ⟨fun _ => rfl, .refl _, id, rfl, rfl, rfl⟩⟩

theorem Inv.slot_exists {dev : ℕ} {h h' : Heap n} (hi : Inv dev h h') {m : ℕ} {b : Bool} {i : ℕ} {q : String × ℕ} (e : ((h.mods m).slots b)[i]? = some q) :
    ∃ r, ((h'.mods m).slots b)[i]? = some (q.1, r) := by
  have h1 := congrArg (fun l => l[i]?) (hi.names m b)
  simp only [List.getElem?_map, e, Option.map_some] at h1
  obtain ⟨q', e', h2⟩ := Option.map_eq_some_iff.1 h1
  exact ⟨q'.2, by rw [e', ← h2]⟩

theorem Inv.slot_back {dev : ℕ} {h h' : Heap n} (hi : Inv dev h h') {m : ℕ} {b : Bool} {i : ℕ} {q : String × ℕ} (e : ((h'.mods m).slots b)[i]? = some q) :
    ∃ r, ((h.mods m).slots b)[i]? = some (q.1, r) := by
  have h1 := congrArg (fun l => l[i]?) (hi.names m b)
  simp only [List.getElem?_map, e, Option.map_some] at h1
  obtain ⟨q', e', h2⟩ := Option.map_eq_some_iff.1 h1.symm
  exact ⟨q'.2, by rw [e', ← h2]⟩

theorem Inv.trans {dev : ℕ} {a b c : Heap n} (h1 : Inv dev a b) (h2 : Inv dev b c) : Inv dev a c where
  encrypted m := (h2.encrypted m).trans (h1.encrypted m)
  names m s := (h2.names m s).trans (h1.names m s)
  next := h1.next.trans h2.next
  slot m s i q q'' e e'' := by
    obtain ⟨r, e'⟩ := h1.slot_exists e
    obtain ⟨s1, s2, s3, s4, s5, s6⟩ := h1.slot m s i q _ e e'
    obtain ⟨t1, t2, t3, t4, t5, t6⟩ := h2.slot m s i _ q'' e' e''
    refine ⟨s1.trans t1, fun h => t2 (s2 h), fun h => (t3 (s1.secret.1 h)).trans (s3 h), t4.trans s4, fun h => (t5 (s2 h)).trans (s5 h), ?_⟩
    rcases t6 with t6 | t6
    · rw [t6]
      have hr : r < b.next := h1.alloc m s _ (List.mem_of_getElem? e')
      obtain ⟨-, -, -, u4, u5, -⟩ := h2.old r hr
      exact s6.imp_right fun s6 => ⟨s6.1, by show (c.tens r).leaf = !(c.tens r).requiresGrad; rw [u4, u5]; exact s6.2⟩
    · exact .inr ⟨h1.next.trans t6.1, t6.2⟩
  alloc := h2.alloc
  old r hr := by
    obtain ⟨s1, s2, s3, s4, s5, s6⟩ := h1.old r hr
    obtain ⟨t1, t2, t3, t4, t5, t6⟩ := h2.old r (hr.trans_le h1.next)
    exact ⟨fun h => (t1 fun h' => h (s2.secret.2 h')).trans (s1 h), s2.trans t2, fun h => t3 (s3 h), t4.trans s4, t5.trans s5, t6.trans s6⟩

/-- To the device `dev`. -/
def dest (dev : ℕ) : Target := ⟨some dev, none⟩

theorem truncQ_int (z : ℤ) : truncQ (z : ℚ) = z := by
  unfold truncQ; split <;> simp

theorem share_to {s : Share} (h1 : s.data.dtype = .int64) (h2 : ∃ z : ℤ, s.data.value = z) (dev : ℕ) :
    (s.to (dest dev)).data.value = s.data.value ∧ (s.to (dest dev)).data.dtype = s.data.dtype ∧ (s.to (dest dev)).data.device = dev ∧ ((s.to (dest dev)).wrapped = true ↔ dev ≠ 0) := by
  obtain ⟨z, h2⟩ := h2
  unfold Share.to dest Data.to
  dsimp only [Option.getD]
  split
  · rename_i h
    exact ⟨rfl, rfl, rfl, fun h' => Bool.noConfusion h', fun h' => absurd h h'⟩
  · rename_i h
    split
    · exact ⟨rfl, rfl, rfl, fun _ => h, fun _ => rfl⟩
    · exact ⟨by show ((truncQ s.data.value : ℤ) : ℚ) = _; rw [h2, truncQ_int], h1.symm, rfl, fun _ => h, fun _ => rfl⟩

/-- **C96, conversion of one torch tensor.** `to` with a type of numbers leaves the tensor on its device and converts its number; the old object keeps its number. -/
theorem C96_convert {h : Heap n} (r : ℕ) (hr : r < h.next) (d : Data) (hk : (h.tens r).kind = .torch d) (ty : Dtype) :
    ∃ v, ((h.moveTensor ⟨none, some ty⟩ r).1.tens (h.moveTensor ⟨none, some ty⟩ r).2).kind = .torch ⟨v, d.device, ty⟩ ∧ (ty = d.dtype → v = d.value) ∧ (ty ≠ d.dtype → v = ty.cast d.value) ∧
      (h.moveTensor ⟨none, some ty⟩ r).1.tens r = h.tens r ∧ ((h.moveTensor ⟨none, some ty⟩ r).2 = r ↔ ty = d.dtype) := by
  unfold Heap.moveTensor
  rw [hk]
  by_cases e : ty = d.dtype
  · subst e
    have h1 : (d.to ⟨none, some d.dtype⟩).device = d.device ∧ (d.to ⟨none, some d.dtype⟩).dtype = d.dtype := ⟨rfl, rfl⟩
    simp only [if_pos h1]
    exact ⟨d.value, hk, fun _ => rfl, fun h => absurd rfl h, trivial, by simp⟩
  · have h1 : ¬ ((d.to ⟨none, some ty⟩).device = d.device ∧ (d.to ⟨none, some ty⟩).dtype = d.dtype) := fun h => e h.2
    simp only [if_neg h1]
    refine ⟨ty.cast d.value, ?_, fun h => absurd h e, fun _ => rfl, Function.update_of_ne (by omega) _ _, fun h => by omega, fun h => absurd h e⟩
    rw [Function.update_self]
    show Kind.torch (d.to ⟨none, some ty⟩) = _
    unfold Data.to
    simp only [if_neg e, Option.getD]

/-- A tensor on a GPU is converted to 32-bit floating point. -/
example : ∃ h : Heap 2, 0 < h.next ∧ (h.tens 0).kind = .torch ⟨1 / 3, 1, .float 53⟩ := ⟨⟨fun _ => ⟨[], [], [], false⟩, fun _ => ⟨.torch ⟨1 / 3, 1, .float 53⟩, false, true, none⟩, 1⟩, by decide, rfl⟩

/-- One tensor is moved. -/
theorem moveTensor_spec {h : Heap n} (hv : Valid h) (dev r : ℕ) (hr : r < h.next) :
    let g := (h.moveTensor (dest dev) r).1
    let r' := (h.moveTensor (dest dev) r).2
    h.next ≤ g.next ∧ r' < g.next ∧ (h.tens r).kind.Same (g.tens r').kind ∧ (g.tens r').kind.On dev ∧ ((h.tens r).kind.Secret → r' = r) ∧ (g.tens r').requiresGrad = (h.tens r).requiresGrad ∧
      ((h.tens r).kind.On dev → r' = r) ∧ (r' = r ∨ (h.next ≤ r' ∧ (g.tens r').leaf = !(g.tens r').requiresGrad)) ∧
      (∀ q < h.next, (¬ (h.tens q).kind.Secret → g.tens q = h.tens q) ∧ (h.tens q).kind.Same (g.tens q).kind ∧ ((h.tens q).kind.On dev → (g.tens q).kind.On dev) ∧
        (g.tens q).requiresGrad = (h.tens q).requiresGrad ∧ (g.tens q).leaf = (h.tens q).leaf ∧ (g.tens q).grad = (h.tens q).grad) ∧
      (∀ q, (g.tens q).kind.Words) ∧ ∀ q d, (g.tens q).kind = .torch d → (g.tens q).requiresGrad = true → d.dtype.isFloat = true := by
  have hold : ∀ q, (¬ (h.tens q).kind.Secret → h.tens q = h.tens q) ∧ (h.tens q).kind.Same (h.tens q).kind ∧ ((h.tens q).kind.On dev → (h.tens q).kind.On dev) ∧
        (h.tens q).requiresGrad = (h.tens q).requiresGrad ∧ (h.tens q).leaf = (h.tens q).leaf ∧ (h.tens q).grad = (h.tens q).grad := fun q => ⟨fun _ => rfl, .refl _, id, rfl, rfl, rfl⟩
  cases hk : (h.tens r).kind with
  | torch d =>
    by_cases e : d.device = dev
    · have hm : h.moveTensor (dest dev) r = (h, r) := by
        unfold Heap.moveTensor
        rw [hk]
        exact if_pos ⟨e.symm, rfl⟩
      rw [hm]
      dsimp only
      refine ⟨le_rfl, hr, hk ▸ .refl _, by rw [hk]; exact e, fun _ => rfl, rfl, fun _ => rfl, .inl rfl, fun q _ => hold q, hv.words, hv.floats⟩
    · have hm : h.moveTensor (dest dev) r = ({ h with tens := Function.update h.tens h.next ⟨.torch (d.to (dest dev)), (h.tens r).requiresGrad && (d.to (dest dev)).dtype.isFloat,
            !((h.tens r).requiresGrad && (d.to (dest dev)).dtype.isFloat), none⟩, next := h.next + 1 }, h.next) := by
        unfold Heap.moveTensor
        rw [hk]
        exact if_neg fun h => e h.1.symm
      rw [hm]
      dsimp only
      rw [Function.update_self]
      have hrg : ((h.tens r).requiresGrad && (d.to (dest dev)).dtype.isFloat) = (h.tens r).requiresGrad := by
        cases hg : (h.tens r).requiresGrad with
        | false => rfl
        | true => exact hv.floats r d hk hg
      refine ⟨by omega, by omega, ⟨rfl, rfl⟩, rfl, fun h => h.elim, hrg, fun h => absurd h e, .inr ⟨le_rfl, rfl⟩, fun q hq => ?_, fun q => ?_, fun q d' => ?_⟩
      · rw [Function.update_of_ne (by omega)]; exact hold q
      · by_cases eq : q = h.next
        · subst eq; rw [Function.update_self]; trivial
        · rw [Function.update_of_ne eq]; exact hv.words q
      · by_cases eq : q = h.next
        · subst eq; rw [Function.update_self]
          intro h1 h2
          cases h1
          exact (Bool.and_eq_true _ _ ▸ h2).2
        · rw [Function.update_of_ne eq]; exact hv.floats q d'
  | shared s c =>
    have hm : h.moveTensor (dest dev) r = ({ h with tens := Function.update h.tens r { h.tens r with kind := .shared (fun p => (s p).to (dest dev)) c } }, r) := by
      unfold Heap.moveTensor
      rw [hk]
    rw [hm]
    dsimp only
    rw [Function.update_self]
    have hw : ∀ p, (s p).data.dtype = .int64 ∧ ∃ z : ℤ, (s p).data.value = z := by have := hv.words r; rw [hk] at this; exact this
    have hto := fun p => share_to (hw p).1 (hw p).2 dev
    have hsame : (Kind.shared s c).Same (.shared (fun p => (s p).to (dest dev)) c) := ⟨fun p => ⟨(hto p).1, (hto p).2.1⟩, rfl⟩
    refine ⟨le_rfl, hr, hsame, fun p => (hto p).2.2, fun _ => rfl, rfl, fun _ => rfl, .inl rfl, fun q hq => ?_, fun q => ?_, fun q d' => ?_⟩
    · by_cases eq : q = r
      · subst eq
        rw [Function.update_self, hk]
        exact ⟨fun h => absurd trivial h, hsame, fun _ p => (hto p).2.2, rfl, rfl, rfl⟩
      · rw [Function.update_of_ne eq]; exact hold q
    · by_cases eq : q = r
      · subst eq
        rw [Function.update_self]
        exact fun p => ⟨by rw [(hto p).2.1]; exact (hw p).1, by rw [(hto p).1]; exact (hw p).2⟩
      · rw [Function.update_of_ne eq]; exact hv.words q
    · by_cases eq : q = r
      · subst eq
        rw [Function.update_self]
        intro h1; cases h1
      · rw [Function.update_of_ne eq]; exact hv.floats q d'

theorem tens_setSlot (h : Heap n) (m : ℕ) (b : Bool) (i r : ℕ) : (h.setSlot m b i r).tens = h.tens ∧ (h.setSlot m b i r).next = h.next := ⟨rfl, rfl⟩

theorem moveSlot_spec {h : Heap n} (hv : Valid h) (dev m : ℕ) (b : Bool) (i : ℕ) :
    Inv dev h (moveSlot (dest dev) m b h i) ∧ Valid (moveSlot (dest dev) m b h i) ∧
      ∀ q, (((moveSlot (dest dev) m b h i).mods m).slots b)[i]? = some q → ((moveSlot (dest dev) m b h i).tens q.2).kind.On dev := by
  unfold moveSlot
  split
  · rename_i e
    exact ⟨.refl _ hv, hv, fun q hq => by rw [e] at hq; cases hq⟩
  · rename_i q0 e0
    have hr := hv.allocated m b q0 (List.mem_of_getElem? e0)
    obtain ⟨s1, s2, s3, s4, s5, s6, s7, s8, s9, s10, s11⟩ := moveTensor_spec hv dev q0.2 hr
    have hmods := mods_moveTensor h (dest dev) q0.2
    generalize (h.moveTensor (dest dev) q0.2).1 = g at *
    generalize (h.moveTensor (dest dev) q0.2).2 = r' at *
    have hsl : ∀ c b', ((g.setSlot m b i r').mods c).slots b' = if c = m ∧ b' = b then ((h.mods c).slots b').modify i fun q => (q.1, r') else (h.mods c).slots b' := fun c b' => by
      rw [slots_setSlot, hmods]
    have hget : ∀ c b' (j : ℕ) (q : String × ℕ), (((g.setSlot m b i r').mods c).slots b')[j]? = some q →
        (c = m ∧ b' = b ∧ j = i ∧ q = (q0.1, r')) ∨ (((h.mods c).slots b')[j]? = some q ∧ ¬ (c = m ∧ b' = b ∧ j = i)) := by
      intro c b' j q hq
      rw [hsl] at hq
      by_cases e1 : c = m ∧ b' = b
      · rw [if_pos e1, List.getElem?_modify] at hq
        obtain ⟨rfl, rfl⟩ := e1
        by_cases e2 : i = j
        · subst e2
          rw [e0] at hq
          simp at hq
          exact .inl ⟨rfl, rfl, rfl, hq.symm⟩
        · simp [e2] at hq
          exact .inr ⟨hq, fun h => e2 h.2.2.symm⟩
      · rw [if_neg e1] at hq
        exact .inr ⟨hq, fun h => e1 ⟨h.1, h.2.1⟩⟩
    have hnames : ∀ c b', (((g.setSlot m b i r').mods c).slots b').map Prod.fst = ((h.mods c).slots b').map Prod.fst := by
      intro c b'
      rw [hsl]
      split
      · refine List.ext_getElem? fun j => ?_
        rw [List.getElem?_map, List.getElem?_map, List.getElem?_modify]
        cases ((h.mods c).slots b')[j]? with
        | none => rfl
        | some q => by_cases e : i = j <;> simp [e]
      · rfl
    have halloc : ∀ c b', ∀ q ∈ ((g.setSlot m b i r').mods c).slots b', q.2 < g.next := fun c b' q hq => by
      obtain ⟨j, hj⟩ := List.getElem?_of_mem hq
      rcases hget c b' j q hj with ⟨-, -, -, rfl⟩ | ⟨e2, -⟩
      · exact s2
      · exact (hv.allocated c b' q (List.mem_of_getElem? e2)).trans_le s1
    refine ⟨⟨fun c => by rw [encrypted_setSlot, hmods], hnames, s1, fun c b' j q q' e e' => ?_, halloc, s9⟩, ⟨halloc, fun c b' => by rw [hnames]; exact hv.names c b', s10, s11⟩, fun q hq => ?_⟩
    · show (h.tens q.2).kind.Same (g.tens q'.2).kind ∧ ((h.tens q.2).kind.On dev → (g.tens q'.2).kind.On dev) ∧ _ ∧ (g.tens q'.2).requiresGrad = _ ∧ _ ∧ (_ ∨ (_ ∧ (g.tens q'.2).leaf = !(g.tens q'.2).requiresGrad))
      rcases hget c b' j q' e' with ⟨rfl, rfl, rfl, rfl⟩ | ⟨e2, -⟩
      · rw [e0] at e; cases e
        exact ⟨s3, fun _ => s4, s5, s6, s7, s8⟩
      · rw [e] at e2; cases e2
        obtain ⟨t1, t2, t3, t4, -⟩ := s9 q.2 (hv.allocated c b' q (List.mem_of_getElem? e))
        exact ⟨t2, t3, fun _ => rfl, t4, fun _ => rfl, .inl rfl⟩
    · show (g.tens q.2).kind.On dev
      rcases hget m b i q hq with ⟨-, -, -, rfl⟩ | ⟨-, e3⟩
      · exact s4
      · exact absurd ⟨rfl, rfl, rfl⟩ e3

theorem move_inv {h : Heap n} (hv : Valid h) (dev fuel m : ℕ) : (Inv dev h (move (dest dev) fuel h m) ∧ Valid (move (dest dev) fuel h m)) ∧ ∀ c, ((move (dest dev) fuel h m).mods c).children = (h.mods c).children :=
  move_induct (dest dev) h (fun g => Inv dev h g ∧ Valid g) m (fun _ c b i _ _ hg => let s := moveSlot_spec hg.2 dev c b i; ⟨hg.1.trans s.1, s.2.1⟩) fuel h m (.self m) (fun _ => rfl) ⟨.refl _ hv, hv⟩

/-- All tensors of the module are on the device. -/
def AllOn (dev : ℕ) (h : Heap n) (c : ℕ) : Prop := ∀ b (i : ℕ) q, ((h.mods c).slots b)[i]? = some q → (h.tens q.2).kind.On dev

theorem Inv.allOn {dev : ℕ} {h h' : Heap n} (hi : Inv dev h h') {c : ℕ} (ha : AllOn dev h c) : AllOn dev h' c := fun b i q' e' => by
  obtain ⟨r, e⟩ := hi.slot_back e'
  exact (hi.slot c b i _ q' e e').2.1 (ha b i _ e)

theorem foldSlots_spec (dev m : ℕ) (b : Bool) (l : List ℕ) : ∀ {h : Heap n}, Valid h →
    Inv dev h (l.foldl (moveSlot (dest dev) m b) h) ∧ Valid (l.foldl (moveSlot (dest dev) m b) h) ∧
      ∀ i ∈ l, ∀ q, (((l.foldl (moveSlot (dest dev) m b) h).mods m).slots b)[i]? = some q → ((l.foldl (moveSlot (dest dev) m b) h).tens q.2).kind.On dev := by
  induction l with
  | nil => exact fun hv => ⟨.refl _ hv, hv, fun i hi => nomatch hi⟩
  | cons j l ih =>
    intro h hv
    obtain ⟨s1, s2, s3⟩ := moveSlot_spec hv dev m b j
    obtain ⟨t1, t2, t3⟩ := ih s2
    refine ⟨s1.trans t1, t2, fun i hi q e => ?_⟩
    rcases List.mem_cons.1 hi with rfl | hi
    · obtain ⟨r, e'⟩ := t1.slot_back e
      exact (t1.slot m b i _ q e' e).2.1 (s3 _ e')
    · exact t3 i hi q e

theorem moveOwn_spec {h : Heap n} (hv : Valid h) (dev m : ℕ) : Inv dev h (moveOwn (dest dev) h m) ∧ Valid (moveOwn (dest dev) h m) ∧ AllOn dev (moveOwn (dest dev) h m) m := by
  unfold moveOwn
  obtain ⟨s1, s2, s3⟩ := foldSlots_spec dev m false (List.range (h.mods m).params.length) hv
  dsimp only
  generalize (List.range (h.mods m).params.length).foldl (moveSlot (dest dev) m false) h = g at *
  obtain ⟨t1, t2, t3⟩ := foldSlots_spec dev m true (List.range (g.mods m).buffers.length) s2
  generalize (List.range (g.mods m).buffers.length).foldl (moveSlot (dest dev) m true) g = g' at *
  have hlen : ∀ {a b : Heap n}, Inv dev a b → ∀ s, ((b.mods m).slots s).length = ((a.mods m).slots s).length := fun hi s => by simpa using congrArg List.length (hi.names m s)
  refine ⟨s1.trans t1, t2, fun b i q e => ?_⟩
  have hi : i < ((g'.mods m).slots b).length := (List.getElem?_eq_some_iff.1 e).1
  cases b with
  | false =>
    obtain ⟨r, e'⟩ := t1.slot_back e
    have hi' : i < ((g.mods m).slots false).length := (List.getElem?_eq_some_iff.1 e').1
    rw [hlen s1] at hi'
    exact (t1.slot m false i _ q e' e).2.1 (s3 i (List.mem_range.2 hi') _ e')
  | true =>
    rw [hlen t1] at hi
    exact t3 i (List.mem_range.2 hi) q e

theorem move_cover {rank : ℕ → ℕ} (dev : ℕ) : ∀ (fuel m : ℕ) (h : Heap n), Valid h → Acyclic h rank → rank m < fuel → ∀ c, Part h m c → AllOn dev (move (dest dev) fuel h m) c := by
  intro fuel
  induction fuel with
  | zero => intro m h _ _ hf; omega
  | succ fuel ih =>
    intro m h hv ha hf c hc
    obtain ⟨s1, s2, s3⟩ := moveOwn_spec hv dev m
    have hch : ∀ d, ((moveOwn (dest dev) h m).mods d).children = (h.mods d).children := by
      have hf : ∀ (b : Bool) (l : List ℕ) (g : Heap n) (d : ℕ), ((l.foldl (moveSlot (dest dev) m b) g).mods d).children = (g.mods d).children := fun b l => by
        induction l with
        | nil => exact fun _ _ => rfl
        | cons i l ih => exact fun g d => (ih _ d).trans (children_moveSlot ..)
      exact fun d => (hf _ _ _ d).trans (hf _ _ _ d)
    unfold move
    dsimp only
    have hl : ∀ d, d ∈ children (moveOwn (dest dev) h m) m ↔ ∃ name, (name, d) ∈ (h.mods m).children := fun d => by rw [mem_children, hch]
    generalize children (moveOwn (dest dev) h m) m = l at hl
    generalize moveOwn (dest dev) h m = g at *
    -- the loop over the submodules
    have key : ∀ (l : List ℕ) (g : Heap n), Valid g → (∀ d, (g.mods d).children = (h.mods d).children) → (∀ d ∈ l, ∃ name, (name, d) ∈ (h.mods m).children) →
        Inv dev g (l.foldl (move (dest dev) fuel) g) ∧ ∀ d ∈ l, ∀ e, Part h d e → AllOn dev (l.foldl (move (dest dev) fuel) g) e := by
      intro l
      induction l with
      | nil => exact fun g hg _ _ => ⟨.refl _ hg, fun d hd => nomatch hd⟩
      | cons d l ihl =>
        intro g hg hgc hd
        obtain ⟨⟨u1, u2⟩, u3⟩ := move_inv hg dev fuel d
        obtain ⟨v1, v2⟩ := ihl (move (dest dev) fuel g d) u2 (fun e => (u3 e).trans (hgc e)) (fun e he => hd e (List.mem_cons_of_mem _ he))
        refine ⟨u1.trans v1, fun e he x hx => ?_⟩
        rcases List.mem_cons.1 he with rfl | he
        · obtain ⟨name, hn⟩ := hd e List.mem_cons_self
          have hag : Acyclic g rank := fun a nm b hb => ha a nm b (by rw [← hgc]; exact hb)
          exact v1.allOn (ih e g hg hag (by have := ha m name e hn; omega) x (part_congr hgc hx))
        · exact v2 e he x hx
    obtain ⟨k1, k2⟩ := key l g s2 hch (fun d hd => (hl d).1 hd)
    cases hc with
    | self => exact k1.allOn s3
    | sub name hd hp => exact k2 _ ((hl _).2 ⟨name, hd⟩) _ hp

theorem named_iff {h : Heap n} (hv : Valid h) {c : ℕ} {b : Bool} {name : String} {r : ℕ} : named h c b name = some r ↔ ∃ i : ℕ, ((h.mods c).slots b)[i]? = some (name, r) := by
  have hnd := hv.names c b
  unfold named
  generalize (h.mods c).slots b = l at hnd
  induction l with
  | nil => simp
  | cons q l ih =>
    obtain ⟨hq, hl⟩ := List.nodup_cons.1 (show ((q.1 :: l.map Prod.fst)).Nodup from hnd)
    by_cases e : q.1 = name
    · rw [List.find?_cons_of_pos (by simpa using e)]
      constructor
      · intro h1
        refine ⟨0, ?_⟩
        have : q.2 = r := by simpa using h1
        rw [← e, ← this]; rfl
      · rintro ⟨i, hi⟩
        cases i with
        | zero => have : q = (name, r) := by simpa using hi
                  rw [this]; rfl
        | succ i =>
          have : (name, r) ∈ l := List.mem_of_getElem? (by simpa using hi)
          exact absurd (List.mem_map.2 ⟨_, this, rfl⟩) (e ▸ hq)
    · rw [List.find?_cons_of_neg (by simpa using e)]
      refine Iff.trans (ih hl) ?_
      constructor
      · rintro ⟨i, hi⟩; exact ⟨i + 1, by simpa using hi⟩
      · rintro ⟨i, hi⟩
        cases i with
        | zero => have : q = (name, r) := by simpa using hi
                  exact absurd (by rw [this]) e
        | succ i => exact ⟨i, by simpa using hi⟩

/-- **C96, devices**: `to(device)`, `cuda(device)` and `cpu()` put every parameter and every buffer of the model and of its submodules, at every depth, on the device. Each keeps its name, its numbers and whether it
requires a gradient; encrypted tensors keep every share. -/
theorem C96_device {rank : ℕ → ℕ} {h : Heap n} (hv : Valid h) (ha : Acyclic h rank) (dev fuel m : ℕ) (hf : rank m < fuel) (c : ℕ) (hc : Part h m c) (b : Bool) (name : String) (r : ℕ)
    (hr : named h c b name = some r) :
    ∃ r', named (move ⟨some dev, none⟩ fuel h m) c b name = some r' ∧ ((move ⟨some dev, none⟩ fuel h m).tens r').kind.On dev ∧
      (h.tens r).kind.Same ((move ⟨some dev, none⟩ fuel h m).tens r').kind ∧ ((move ⟨some dev, none⟩ fuel h m).tens r').requiresGrad = (h.tens r).requiresGrad := by
  obtain ⟨⟨hi, hv'⟩, -⟩ := move_inv hv dev fuel m
  obtain ⟨i, e⟩ := (named_iff hv).1 hr
  obtain ⟨r', e'⟩ := hi.slot_exists e
  obtain ⟨s1, -, -, s4, -⟩ := hi.slot c b i _ _ e e'
  exact ⟨r', (named_iff hv').2 ⟨i, e'⟩, move_cover dev fuel m h hv ha hf c hc b i _ e', s1, s4⟩

/-- **C96, encrypted models**: encrypted tensors stay the same objects, so that parameters that are shared stay shared and optimizers go on training the model. -/
theorem C96_encrypted {h : Heap n} (hv : Valid h) (dev fuel m c : ℕ) (b : Bool) (name : String) (r : ℕ) (hr : named h c b name = some r) (hs : (h.tens r).kind.Secret) :
    named (move ⟨some dev, none⟩ fuel h m) c b name = some r := by
  obtain ⟨⟨hi, hv'⟩, -⟩ := move_inv hv dev fuel m
  obtain ⟨i, e⟩ := (named_iff hv).1 hr
  obtain ⟨r', e'⟩ := hi.slot_exists e
  obtain ⟨-, -, s3, -⟩ := hi.slot c b i _ _ e e'
  have : r' = r := s3 hs
  subst this
  exact (named_iff hv').2 ⟨i, e'⟩

/-- **C96, no move**: a tensor that is on the device already stays the same object. -/
theorem C96_stays {h : Heap n} (hv : Valid h) (dev fuel m c : ℕ) (b : Bool) (name : String) (r : ℕ) (hr : named h c b name = some r) (hs : (h.tens r).kind.On dev) :
    named (move ⟨some dev, none⟩ fuel h m) c b name = some r := by
  obtain ⟨⟨hi, hv'⟩, -⟩ := move_inv hv dev fuel m
  obtain ⟨i, e⟩ := (named_iff hv).1 hr
  obtain ⟨r', e'⟩ := hi.slot_exists e
  obtain ⟨-, -, -, -, s5, -⟩ := hi.slot c b i _ _ e e'
  have : r' = r := s5 hs
  subst this
  exact (named_iff hv').2 ⟨i, e'⟩

/-- **C96, other tensors**: no tensor that existed before changes its numbers; torch tensors do not change at all, and neither do encrypted tensors that are not in the model. In particular the gradients of encrypted
parameters stay on the old device. -/
theorem C96_others {h : Heap n} (hv : Valid h) (dev fuel m r : ℕ) (hr : r < h.next) :
    (¬ (h.tens r).kind.Secret → (move ⟨some dev, none⟩ fuel h m).tens r = h.tens r) ∧ (h.tens r).kind.Same ((move ⟨some dev, none⟩ fuel h m).tens r).kind ∧
      ((move ⟨some dev, none⟩ fuel h m).tens r).grad = (h.tens r).grad ∧
      ((∀ c, Part h m c → ∀ b, ∀ q ∈ (h.mods c).slots b, q.2 ≠ r) → (move ⟨some dev, none⟩ fuel h m).tens r = h.tens r) := by
  obtain ⟨⟨hi, -⟩, -⟩ := move_inv hv dev fuel m
  obtain ⟨s1, s2, -, -, -, s6⟩ := hi.old r hr
  refine ⟨s1, s2, s6, fun hn => ?_⟩
  have := (move_induct (dest dev) h (fun g => g.tens r = h.tens r ∧ r < g.next ∧ ∀ c, Part h m c → ∀ b, ∀ q ∈ (g.mods c).slots b, q.2 ≠ r) m ?_ fuel h m (.self m) (fun _ => rfl) ⟨rfl, hr, hn⟩).1.1
  · exact this
  rintro g c b i hc - ⟨g1, g2, g3⟩
  unfold moveSlot
  split
  · exact ⟨g1, g2, g3⟩
  rename_i q e
  have hq := g3 c hc b q (List.mem_of_getElem? e)
  have hmods := mods_moveTensor g (dest dev) q.2
  have hmt : (g.moveTensor (dest dev) q.2).1.tens r = g.tens r ∧ r < (g.moveTensor (dest dev) q.2).1.next ∧ (g.moveTensor (dest dev) q.2).2 ≠ r := by
    unfold Heap.moveTensor
    split
    · split
      · exact ⟨rfl, g2, hq⟩
      · exact ⟨Function.update_of_ne (by omega) _ _, Nat.lt_succ_of_lt g2, by dsimp only; omega⟩
    · exact ⟨Function.update_of_ne (Ne.symm hq) _ _, g2, hq⟩
  refine ⟨hmt.1.trans g1, hmt.2.1, fun d hd b' q' hq' => ?_⟩
  rw [slots_setSlot, hmods] at hq'
  split at hq'
  · obtain ⟨j, hj⟩ := List.getElem?_of_mem hq'
    rw [List.getElem?_modify] at hj
    cases ej : ((g.mods d).slots b')[j]? with
    | none => rw [ej] at hj; cases hj
    | some q'' =>
      rw [ej] at hj
      have := g3 d hd b' q'' (List.mem_of_getElem? ej)
      by_cases e2 : i = j
      · simp [e2] at hj; rw [← hj]; exact hmt.2.2
      · simp [e2] at hj; rw [← hj]; exact this
  · exact g3 d hd b' q' hq'

/-- **C96 fails for plaintext models**: if the device changes, each parameter is replaced by a new tensor, which optimizers do not know. If it requires a gradient, the new tensor is not a leaf, so that `backward` never
gives it a gradient. -/
theorem C96_plain_wrong {rank : ℕ → ℕ} {h : Heap n} (hv : Valid h) (ha : Acyclic h rank) (dev fuel m : ℕ) (hf : rank m < fuel) (c : ℕ) (hc : Part h m c) (b : Bool) (name : String) (r : ℕ)
    (hr : named h c b name = some r) (hs : ¬ (h.tens r).kind.Secret) (hd : ¬ (h.tens r).kind.On dev) :
    ∃ r', named (move ⟨some dev, none⟩ fuel h m) c b name = some r' ∧ h.next ≤ r' ∧ ((move ⟨some dev, none⟩ fuel h m).tens r').leaf = !(h.tens r).requiresGrad := by
  obtain ⟨⟨hi, hv'⟩, -⟩ := move_inv hv dev fuel m
  obtain ⟨i, e⟩ := (named_iff hv).1 hr
  obtain ⟨r', e'⟩ := hi.slot_exists e
  obtain ⟨-, -, -, s4, -, s6⟩ := hi.slot c b i _ _ e e'
  have hne : ¬ r' = r := fun e2 => hd (by
    have hon := move_cover dev fuel m h hv ha hf c hc b i _ e'
    subst e2
    rwa [(hi.old r' (hv.allocated c b _ (List.mem_of_getElem? e))).1 hs] at hon)
  obtain ⟨h1, h2⟩ := s6.resolve_left hne
  exact ⟨r', (named_iff hv').2 ⟨i, e'⟩, h1, h2.trans (congrArg _ s4)⟩

/-- **C96, `cuda` and `cpu`**: they move everything to that GPU, or to the CPU. -/
theorem C96_cuda_cpu {rank : ℕ → ℕ} {h : Heap n} (hv : Valid h) (ha : Acyclic h rank) (gpu fuel m : ℕ) (hf : rank m < fuel) (c : ℕ) (hc : Part h m c) (b : Bool) (name : String) (r : ℕ)
    (hr : named h c b name = some r) :
    (∃ r', named (cuda gpu fuel h m) c b name = some r' ∧ ((cuda gpu fuel h m).tens r').kind.On (gpu + 1) ∧ (h.tens r).kind.Same ((cuda gpu fuel h m).tens r').kind) ∧
      ∃ r', named (cpu fuel h m) c b name = some r' ∧ ((cpu fuel h m).tens r').kind.On 0 ∧ (h.tens r).kind.Same ((cpu fuel h m).tens r').kind := by
  obtain ⟨r1, a1, a2, a3, -⟩ := C96_device hv ha (gpu + 1) fuel m hf c hc b name r hr
  obtain ⟨r2, b1, b2, b3, -⟩ := C96_device hv ha 0 fuel m hf c hc b name r hr
  exact ⟨⟨r1, a1, a2, a3⟩, r2, b1, b2, b3⟩

/-- New tensors have one name each. -/
theorem move_fresh {h : Heap n} (hv : Valid h) (dev fuel m : ℕ) (c c' : ℕ) (b b' : Bool) (i i' : ℕ) (q q' : String × ℕ) (hne : (c, b, i) ≠ (c', b', i'))
    (e : (((move (dest dev) fuel h m).mods c).slots b)[i]? = some q) (e' : (((move (dest dev) fuel h m).mods c').slots b')[i']? = some q') (hq : h.next ≤ q.2) : q.2 ≠ q'.2 := by
  refine (move_induct (dest dev) h (fun g => Valid g ∧ h.next ≤ g.next ∧ ∀ c c' b b' (i i' : ℕ) (q q' : String × ℕ), (c, b, i) ≠ (c', b', i') → ((g.mods c).slots b)[i]? = some q →
    ((g.mods c').slots b')[i']? = some q' → h.next ≤ q.2 → q.2 ≠ q'.2) m ?_ fuel h m (.self m) (fun _ => rfl) ⟨hv, le_rfl, ?_⟩).1.2.2 c c' b b' i i' q q' hne e e' hq
  · rintro g d s j - - ⟨gv, gn, gd⟩
    obtain ⟨s1, s2, -⟩ := moveSlot_spec gv dev d s j
    refine ⟨s2, gn.trans s1.next, fun c c' b b' i i' q q' hne e e' hq heq => ?_⟩
    obtain ⟨r, f⟩ := s1.slot_back e
    obtain ⟨r', f'⟩ := s1.slot_back e'
    obtain ⟨-, -, -, -, -, u⟩ := s1.slot c b i _ q f e
    obtain ⟨-, -, -, -, -, u'⟩ := s1.slot c' b' i' _ q' f' e'
    have hr := gv.allocated c b _ (List.mem_of_getElem? f)
    have hr' := gv.allocated c' b' _ (List.mem_of_getElem? f')
    dsimp only at u u' hr hr'
    rcases u with u | ⟨u, -⟩ <;> rcases u' with u' | ⟨u', -⟩
    · exact gd c c' b b' i i' _ _ hne f f' (by dsimp only; omega) (by dsimp only; omega)
    · omega
    · omega
    · -- both new: only one entry was changed
      have hone : ∀ c b (i : ℕ) (q : String × ℕ) r, ((g.mods c).slots b)[i]? = some (q.1, r) → (((moveSlot (dest dev) d s g j).mods c).slots b)[i]? = some q → r ≠ q.2 → (c, b, i) = (d, s, j) := by
        clear e e' f f' hne
        intro c b i q r f e hr
        by_contra hcon
        unfold moveSlot at e
        split at e
        · rw [f] at e; exact hr (congrArg Prod.snd (Option.some.inj e))
        · rw [slots_setSlot, mods_moveTensor] at e
          by_cases hcb : c = d ∧ b = s
          · rw [if_pos hcb] at e
            have hij : ¬ j = i := fun hij => hcon (by rw [hij, hcb.1, hcb.2])
            rw [List.getElem?_modify, f] at e
            simp [hij] at e
            exact hr (by rw [← e])
          · rw [if_neg hcb, f] at e; exact hr (congrArg Prod.snd (Option.some.inj e))
      have h1 := hone c b i q r f e (by omega)
      have h2 := hone c' b' i' q' r' f' e' (by omega)
      exact hne (h1.trans h2.symm)
  · intro c c' b b' i i' q q' _ e _ hq
    have := hv.allocated c b q (List.mem_of_getElem? e)
    omega

/-- **C96 fails for parameters that plaintext modules share**: after a change of the device each module has a tensor of its own. -/
theorem C96_tied_wrong {rank : ℕ → ℕ} {h : Heap n} (hv : Valid h) (ha : Acyclic h rank) (dev fuel m : ℕ) (hf : rank m < fuel) (c c' : ℕ) (hc : Part h m c) (b b' : Bool) (name name' : String)
    (hne : (c, b, name) ≠ (c', b', name')) (r : ℕ) (hr : named h c b name = some r) (hs : ¬ (h.tens r).kind.Secret) (hd : ¬ (h.tens r).kind.On dev)
    (p p' : ℕ) (hp : named (move ⟨some dev, none⟩ fuel h m) c b name = some p) (hp' : named (move ⟨some dev, none⟩ fuel h m) c' b' name' = some p') : p ≠ p' := by
  obtain ⟨⟨-, hv'⟩, -⟩ := move_inv hv dev fuel m
  obtain ⟨p0, h0, h1, -⟩ := C96_plain_wrong hv ha dev fuel m hf c hc b name r hr hs hd
  have e0 : some p = some p0 := hp.symm.trans h0
  cases e0
  obtain ⟨i, e⟩ := (named_iff hv').1 hp
  obtain ⟨i', e'⟩ := (named_iff hv').1 hp'
  refine move_fresh hv dev fuel m c c' b b' i i' _ _ (fun heq => hne ?_) e e' h1
  cases heq
  have e2 := e.symm.trans e'
  cases e2
  rfl

/-- **C96.** `buffers()` lists exactly the buffers of the module and of its submodules at every depth. -/
theorem C96_buffers {rank : ℕ → ℕ} {h : Heap n} (ha : Acyclic h rank) (fuel m : ℕ) (hf : rank m < fuel) (p : ℕ) :
    p ∈ buffers fuel h m ↔ ∃ c, Part h m c ∧ ∃ name, (name, p) ∈ (h.mods c).buffers := by
  induction fuel generalizing m with
  | zero => omega
  | succ fuel ih =>
    rw [buffers, List.mem_append, List.mem_flatMap]
    constructor
    · rintro (hp | ⟨c, hc, hp⟩)
      · obtain ⟨⟨n, q⟩, h1, rfl⟩ := List.mem_map.1 hp
        exact ⟨m, .self m, n, h1⟩
      · obtain ⟨n, hc⟩ := (mem_children h m c).1 hc
        obtain ⟨d, hd, hp⟩ := (ih c (by have := ha m n c hc; omega)).1 hp
        exact ⟨d, .sub n hc hd, hp⟩
    · rintro ⟨c, hc, name, hp⟩
      cases hc with
      | self => exact .inl (List.mem_map.2 ⟨_, hp, rfl⟩)
      | sub n hc hd => exact .inr ⟨_, (mem_children h m _).2 ⟨n, hc⟩, (ih _ (by have := ha m n _ hc; omega)).2 ⟨c, hd, name, hp⟩⟩

/-! ## Types of numbers -/

theorem roundEven_near {q : ℚ} {z : ℤ} (h1 : (z : ℚ) - 1 / 2 < q) (h2 : q < z + 1 / 2) : Adaptive.roundEven q = z := by
  unfold Adaptive.roundEven
  by_cases hz : (z : ℚ) ≤ q
  · have hf : ⌊q⌋ = z := Int.floor_eq_iff.2 ⟨hz, by linarith⟩
    rw [hf, if_pos (by linarith)]
  · push Not at hz
    have hf : ⌊q⌋ = z - 1 := Int.floor_eq_iff.2 ⟨by push_cast; linarith, by push_cast; linarith⟩
    rw [hf, if_neg (by push_cast; linarith), if_pos (by push_cast; linarith)]
    ring

theorem exponent_nat {m k : ℕ} (h1 : 2 ^ k ≤ m) (h2 : m < 2 ^ (k + 1)) : Adaptive.exponent (m : ℚ) = k := by
  have hm : 0 < m := lt_of_lt_of_le (by positivity) h1
  unfold Adaptive.exponent
  rw [if_pos (by exact_mod_cast hm)]
  have : ⌊(m : ℚ)⌋.toNat = m := by simp
  rw [this]
  exact_mod_cast (Nat.log2_eq_iff hm.ne').2 ⟨h1, h2⟩

/-- `2 ^ 62` has one significant bit; `x - 2 ^ 62` is rounded to `-2 ^ 62`. -/
theorem round_big {p : ℕ} (hp : 1 ≤ p) (hp' : p ≤ 60) {x : ℕ} (hx : x < 2 ^ (61 - p)) : roundBits p (2 ^ 62) = 2 ^ 62 ∧ roundBits p ((x : ℚ) - 2 ^ 62) = -2 ^ 62 := by
  have hb : ∀ s : ℚ, (s = 1 ∨ s = -1) → roundBits p (s * 2 ^ 62) = s * 2 ^ 62 := by
    intro s hs
    have habs : |s * 2 ^ 62| = ((2 ^ 62 : ℕ) : ℚ) := by rcases hs with rfl | rfl <;> norm_num
    have hne : s * 2 ^ 62 ≠ 0 := by rcases hs with rfl | rfl <;> norm_num
    unfold roundBits
    rw [if_neg hne, habs, exponent_nat (k := 62) le_rfl (by norm_num)]
    dsimp only
    have hu : (2 : ℚ) ^ (((62 : ℕ) : ℤ) - ((p : ℤ) - 1)) = 2 ^ (63 - p) := by
      rw [← zpow_natCast]; congr 1; omega
    have hd : ((2 ^ 62 : ℕ) : ℚ) / 2 ^ (63 - p) = (2 ^ (p - 1) : ℤ) := by
      rw [div_eq_iff (by positivity)]
      push_cast
      rw [← pow_add, show p - 1 + (63 - p) = 62 by omega]
      norm_num
    rw [hu, hd, roundEven_near (z := 2 ^ (p - 1)) (by linarith) (by linarith), ← hd, div_mul_cancel₀ _ (by positivity)]
    rcases hs with rfl | rfl <;> norm_num
  refine ⟨by simpa using hb 1 (.inl rfl), ?_⟩
  by_cases h0 : x = 0
  · subst h0
    have := hb (-1) (.inr rfl)
    simpa using this
  have hx61 : x < 2 ^ 60 := hx.trans_le (Nat.pow_le_pow_right (by norm_num) (by omega))
  obtain ⟨y, hy⟩ : ∃ y : ℕ, y + x = 2 ^ 62 := ⟨2 ^ 62 - x, by omega⟩
  have hyq : (y : ℚ) + x = 2 ^ 62 := by exact_mod_cast hy
  have hneg : (x : ℚ) - 2 ^ 62 = -y := by linarith
  have hypos : (0 : ℚ) < y := by exact_mod_cast (by omega : 0 < y)
  unfold roundBits
  rw [hneg, if_neg (by linarith), abs_neg, abs_of_pos hypos, exponent_nat (k := 61) (by omega) (by omega)]
  dsimp only
  have hu : (2 : ℚ) ^ (((61 : ℕ) : ℤ) - ((p : ℤ) - 1)) = 2 ^ (62 - p) := by
    rw [← zpow_natCast]; congr 1; omega
  have hxq : (x : ℚ) / 2 ^ (62 - p) < 1 / 2 := by
    rw [div_lt_iff₀ (by positivity)]
    have e : (2 : ℚ) ^ (62 - p) = 2 ^ (61 - p) * 2 := by rw [← pow_succ]; congr 1; omega
    rw [e]
    have : (x : ℚ) < 2 ^ (61 - p) := by exact_mod_cast hx
    linarith
  have hxp : 0 < (x : ℚ) / 2 ^ (62 - p) := div_pos (by exact_mod_cast Nat.pos_of_ne_zero h0) (by positivity)
  have e2 : (2 : ℚ) ^ 62 = ((2 ^ p : ℤ) : ℚ) * 2 ^ (62 - p) := by
    push_cast
    rw [← pow_add]; congr 1; omega
  have hd : (y : ℚ) / 2 ^ (62 - p) = ((2 ^ p : ℤ) : ℚ) - x / 2 ^ (62 - p) := by
    have h3 : (y : ℚ) = 2 ^ 62 - x := by linarith
    rw [h3, sub_div, e2, mul_div_cancel_right₀ _ (by positivity)]
  rw [hu, roundEven_near (z := 2 ^ p) (by rw [hd]; linarith) (by rw [hd]; linarith), ← e2, if_pos (by linarith)]
  norm_num

/-- A model with one encrypted parameter, whose word is `x`, for two parties. -/
def castHeap (x : ℕ) : Heap 2 where
  mods := fun _ => ⟨[("weight", 0)], [], [], true⟩
  tens := fun _ => ⟨.shared (fun p => ⟨⟨if p = 0 then 2 ^ 62 else (x : ℚ) - 2 ^ 62, 0, .int64⟩, false⟩) (2 ^ 16), true, true, none⟩
  next := 1

/-- **C96 fails for types of numbers**: on an encrypted model `to(torch.float32)`, documented as a cast of the parameters, rounds the random shares. At every number `p` of significant bits, every word `x` below
`2 ^ (61 - p)` has a sharing from which only `0` is left (with `p = 24` and the default precision, every number below `2 ^ 21`). -/
theorem C96_cast_wrong {p : ℕ} (hp : 1 ≤ p) (hp' : p ≤ 60) {x : ℕ} (hx : x < 2 ^ (61 - p)) :
    (∃ s, ((castHeap x).tens 0).kind = .shared s (2 ^ 16) ∧ ∑ q, (s q).data.value = x ∧ ∀ q, ∃ z : ℤ, (s q).data.value = z ∧ -2 ^ 63 ≤ z ∧ z < 2 ^ 63) ∧
      ∃ s, ((move ⟨none, some (.float p)⟩ 1 (castHeap x) 0).tens 0).kind = .shared s (2 ^ 16) ∧ ∑ q, (s q).data.value = 0 := by
  obtain ⟨h1, h2⟩ := round_big hp hp' hx
  have hx61 : x < 2 ^ 60 := hx.trans_le (Nat.pow_le_pow_right (by norm_num) (by omega))
  constructor
  · refine ⟨_, rfl, by simp [Fin.sum_univ_two], fun q => ?_⟩
    by_cases hq : q = 0
    · exact ⟨2 ^ 62, by rw [if_pos hq]; norm_num, by norm_num, by norm_num⟩
    · exact ⟨x - 2 ^ 62, by rw [if_neg hq]; push_cast; rfl, by omega, by omega⟩
  · refine ⟨fun q => ⟨⟨if q = 0 then 2 ^ 62 else -2 ^ 62, 0, .float p⟩, false⟩, ?_, by simp [Fin.sum_univ_two]⟩
    have e : ((move ⟨none, some (.float p)⟩ 1 (castHeap x) 0).tens 0).kind =
        .shared (fun q => Share.to ⟨⟨if q = 0 then 2 ^ 62 else (x : ℚ) - 2 ^ 62, 0, .int64⟩, false⟩ ⟨none, some (.float p)⟩) (2 ^ 16) := rfl
    rw [e]
    congr 1
    funext q
    show (⟨⟨roundBits p (if q = 0 then 2 ^ 62 else (x : ℚ) - 2 ^ 62), 0, .float p⟩, false⟩ : Share) = _
    by_cases hq : q = 0
    · simp only [hq, if_true, h1]
    · simp only [hq, if_false, h2]

/-! ## Parameters from shares -/

theorem find_modify (l : List (String × ℕ)) (v : ℕ) (hnd : (l.map Prod.fst).Nodup) {i : ℕ} {name : String} {r : ℕ} (hget : l[i]? = some (name, r)) (name' : String) :
    ((l.modify i fun q => (q.1, v)).find? fun q => decide (q.1 = name')).map Prod.snd = if name' = name then some v else (l.find? fun q => decide (q.1 = name')).map Prod.snd := by
  induction l generalizing i with
  | nil => simp at hget
  | cons q l ih =>
    obtain ⟨hq, hl⟩ := List.nodup_cons.1 (show ((q.1 :: l.map Prod.fst)).Nodup from hnd)
    cases i with
    | zero =>
      simp only [List.getElem?_cons_zero, Option.some.injEq] at hget
      subst hget
      rw [List.modify_zero_cons, List.find?_cons, List.find?_cons]
      by_cases h : name = name'
      · simp [h]
      · simp [h, Ne.symm h]
    | succ i =>
      rw [List.getElem?_cons_succ] at hget
      rw [List.modify_succ_cons, List.find?_cons, List.find?_cons]
      by_cases h : q.1 = name'
      · have : name' ≠ name := fun e => hq (List.mem_map.2 ⟨_, List.mem_of_getElem? hget, by rw [← e, ← h]⟩)
        simp [h, this]
      · simp only [h, decide_false]
        exact ih hl hget

/-- **C96, parameters from shares**: the call succeeds exactly for an encrypted parameter of an encrypted model and without `src`; then the parameter is a new tensor with these shares, and no other parameter, buffer or
tensor changes. -/
theorem C96_from_shares {h : Heap n} (hv : Valid h) (m : ℕ) (name : String) (share : Fin n → Share) (precision : ℕ) (src : Option ℕ) :
    ((setFromShares h m name share precision src).isSome ↔ (h.mods m).encrypted = true ∧ (∃ r, named h m false name = some r ∧ (h.tens r).kind.Secret) ∧ src = none) ∧
      ∀ h', setFromShares h m name share precision src = some h' → (∃ r', named h' m false name = some r' ∧ (h'.tens r').kind = .shared share (2 ^ precision)) ∧
        (∀ c b name', (c, b, name') ≠ (m, false, name) → named h' c b name' = named h c b name') ∧ ∀ r < h.next, h'.tens r = h.tens r := by
  have hfind : ∀ l : List (String × ℕ), (l.findIdx? fun q => decide (q.1 = name)) = none → (l.find? fun q => decide (q.1 = name)) = none := fun l hl => by
    rw [List.find?_eq_none]; rw [List.findIdx?_eq_none_iff] at hl
    intro x hx; simpa using hl x hx
  unfold setFromShares
  cases he : (h.mods m).encrypted with
  | false => exact ⟨by simp, fun h' hh => by simp at hh⟩
  | true =>
    rw [if_pos rfl]
    cases hi : (h.mods m).params.findIdx? fun q => decide (q.1 = name) with
    | none =>
      have hn : named h m false name = none := by unfold named; rw [show (h.mods m).slots false = (h.mods m).params from rfl, hfind _ hi]; rfl
      exact ⟨by simp [hn], fun h' hh => by simp at hh⟩
    | some i =>
      obtain ⟨hlt, hp, -⟩ := List.findIdx?_eq_some_iff_getElem.1 hi
      have hname : ((h.mods m).params[i]).1 = name := by simpa using hp
      have hget : ((h.mods m).slots false)[i]? = some (name, ((h.mods m).params[i]).2) := by
        show (h.mods m).params[i]? = _
        rw [List.getElem?_eq_getElem hlt, ← hname]
      have hnamed : named h m false name = some ((h.mods m).params[i]).2 := (named_iff hv).2 ⟨i, hget⟩
      have hgetD : ((h.mods m).params.getD i ("", 0)) = (h.mods m).params[i] := by rw [List.getD_eq_getElem?_getD, List.getElem?_eq_getElem hlt]; rfl
      dsimp only
      rw [hgetD]
      cases hk : (h.tens ((h.mods m).params[i]).2).kind with
      | torch d =>
        refine ⟨?_, fun h' hh => by simp at hh⟩
        simp only [Option.isSome_none, Bool.false_eq_true, false_iff]
        rintro ⟨-, ⟨r, hr, hs⟩, -⟩
        rw [hnamed] at hr; cases hr
        rw [hk] at hs; exact hs
      | shared s c =>
        cases src with
        | some _ => exact ⟨by simp, fun h' hh => by simp at hh⟩
        | none =>
          refine ⟨by simp only [Option.isSome_some, true_iff]; exact ⟨trivial, ⟨_, hnamed, by rw [hk]; trivial⟩, trivial⟩, fun h' hh => ?_⟩
          cases hh
          have hnn : ∀ c b name', named ({ h with tens := Function.update h.tens h.next ⟨.shared share (2 ^ precision), false, true, none⟩, next := h.next + 1 }.setSlot m false i h.next) c b name' =
              if (c, b, name') = (m, false, name) then some h.next else named h c b name' := by
            intro c b name'
            unfold named
            rw [slots_setSlot]
            split
            · rename_i hcb
              obtain ⟨rfl, rfl⟩ := hcb
              refine (find_modify _ h.next (hv.names c false) hget name').trans ?_
              by_cases hn : name' = name
              · rw [if_pos hn, if_pos (by rw [hn])]
              · rw [if_neg hn, if_neg fun e => hn (congrArg (fun x => x.2.2) e)]
            · rename_i hcb
              rw [if_neg fun e => hcb ⟨congrArg Prod.fst e, congrArg (fun x => x.2.1) e⟩]
          refine ⟨⟨h.next, by rw [hnn, if_pos rfl], ?_⟩, fun c b name' hne => by rw [hnn, if_neg hne], fun r hr => ?_⟩
          · show (Function.update h.tens h.next _ h.next).kind = _
            rw [Function.update_self]
          · exact Function.update_of_ne (by omega) _ _

/-- **C96 fails for gradients of parameters from shares**: the parameter does not require a gradient any more, whether the model is in training mode or not, so that training leaves it unchanged. -/
theorem C96_from_shares_wrong {h : Heap n} (hv : Valid h) (m : ℕ) (name : String) (share : Fin n → Share) (precision : ℕ) (src : Option ℕ) (h' : Heap n) (hh : setFromShares h m name share precision src = some h')
    (r' : ℕ) (hr : named h' m false name = some r') : (h'.tens r').requiresGrad = false ∧ h.next ≤ r' := by
  obtain ⟨-, h2⟩ := C96_from_shares hv m name share precision src
  unfold setFromShares at hh
  split at hh
  · split at hh
    · cases hh
    · rename_i i hi
      split at hh
      · cases hh
        obtain ⟨hlt, hp, -⟩ := List.findIdx?_eq_some_iff_getElem.1 hi
        have hname : ((h.mods m).params[i]).1 = name := by simpa using hp
        have hget : ((h.mods m).slots false)[i]? = some (name, ((h.mods m).params[i]).2) := by
          show (h.mods m).params[i]? = _
          rw [List.getElem?_eq_getElem hlt, ← hname]
        unfold named at hr
        rw [slots_setSlot, if_pos ⟨rfl, rfl⟩] at hr
        have e := (find_modify _ h.next (hv.names m false) hget name).symm.trans hr
        rw [if_pos rfl] at e
        cases e
        exact ⟨congrArg Tens.requiresGrad (Function.update_self h.next _ h.tens), le_rfl⟩
      · cases hh
  · cases hh

/-! ## A case that meets the hypotheses -/

/-- An encrypted model with a submodule; both have the weight 0, whose word is 5, and the submodule has a plaintext buffer 1. The tensor 2 is the gradient of the weight. -/
def exHeap : Heap 2 where
  mods := fun m => if m = 0 then ⟨[("weight", 0)], [], [("layer", 1)], true⟩ else if m = 1 then ⟨[("weight", 0)], [("mean", 1)], [], true⟩ else ⟨[], [], [], true⟩
  tens := fun r => if r = 0 then ⟨.shared (fun p => ⟨⟨if p = 0 then 7 else -2, 0, .int64⟩, false⟩) (2 ^ 16), true, true, some 2⟩
    else if r = 1 then ⟨.torch ⟨1 / 2, 0, .float 24⟩, false, true, none⟩ else ⟨.shared (fun _ => ⟨⟨1, 0, .int64⟩, false⟩) (2 ^ 16), false, true, none⟩
  next := 3

theorem exHeap_acyclic : Acyclic exHeap fun m => if m = 0 then 1 else 0 := by
  intro m name c hc
  by_cases h0 : m = 0
  · subst h0
    simp only [exHeap, if_true, List.mem_singleton, Prod.mk.injEq] at hc
    obtain ⟨-, rfl⟩ := hc
    decide
  · by_cases h1 : m = 1 <;> simp [exHeap, h0, h1] at hc

theorem exHeap_valid : Valid exHeap where
  allocated := by
    intro m b q hq
    by_cases h0 : m = 0
    · cases b <;> simp [exHeap, Obj.slots, h0] at hq ⊢; simp [hq]
    · by_cases h1 : m = 1
      · cases b <;> simp [exHeap, Obj.slots, h1] at hq ⊢ <;> simp [hq]
      · cases b <;> simp [exHeap, Obj.slots, h0, h1] at hq
  names := by
    intro m b
    by_cases h0 : m = 0
    · cases b <;> simp [exHeap, Obj.slots, h0]
    · by_cases h1 : m = 1
      · cases b <;> simp [exHeap, Obj.slots, h1]
      · cases b <;> simp [exHeap, Obj.slots, h0, h1]
  words := by
    intro r
    by_cases h0 : r = 0
    · subst h0
      intro p
      refine ⟨rfl, if p = 0 then 7 else -2, ?_⟩
      by_cases hp : p = 0 <;> simp [hp]
    · by_cases h1 : r = 1
      · subst h1; trivial
      · have : (exHeap.tens r) = ⟨.shared (fun _ => ⟨⟨1, 0, .int64⟩, false⟩) (2 ^ 16), false, true, none⟩ := by simp [exHeap, h0, h1]
        rw [this]
        exact fun p => ⟨rfl, 1, by norm_num⟩
  floats := by
    intro r d hd hr
    by_cases h0 : r = 0
    · subst h0; cases hd
    · by_cases h1 : r = 1
      · subst h1; cases hr
      · simp [exHeap, h0, h1] at hr

theorem exHeap_part : Part exHeap 0 1 := .sub "layer" (List.mem_singleton.2 rfl) (.self 1)

/-- The model moves to `cuda:0`: the shared weight stays one tensor and is there; the buffer of the submodule is a new tensor; the gradient stays on the CPU. -/
example : ∃ r', named (cuda 0 2 exHeap 0) 1 true "mean" = some r' ∧ ((cuda 0 2 exHeap 0).tens r').kind.On 1 ∧ (exHeap.tens 1).kind.Same ((cuda 0 2 exHeap 0).tens r').kind :=
  (C96_cuda_cpu exHeap_valid exHeap_acyclic 0 2 0 (by decide) 1 exHeap_part true "mean" 1 rfl).1
example : named (cuda 0 2 exHeap 0) 1 false "weight" = some 0 ∧ named (cuda 0 2 exHeap 0) 0 false "weight" = some 0 :=
  ⟨C96_encrypted exHeap_valid 1 2 0 1 false "weight" 0 rfl trivial, C96_encrypted exHeap_valid 1 2 0 0 false "weight" 0 rfl trivial⟩
example : (cuda 0 2 exHeap 0).tens 2 = exHeap.tens 2 := (C96_others exHeap_valid 1 2 0 2 (by decide)).2.2.2 fun c hc b q hq => by
  by_cases h0 : c = 0
  · cases b <;> simp [exHeap, Obj.slots, h0] at hq; simp [hq]
  · by_cases h1 : c = 1
    · cases b <;> simp [exHeap, Obj.slots, h1] at hq <;> simp [hq]
    · cases b <;> simp [exHeap, Obj.slots, h0, h1] at hq
example : ∃ r', named (move ⟨some 1, none⟩ 2 exHeap 0) 1 true "mean" = some r' ∧ 3 ≤ r' ∧ ((move ⟨some 1, none⟩ 2 exHeap 0).tens r').leaf = true :=
  C96_plain_wrong exHeap_valid exHeap_acyclic 1 2 0 (by decide) 1 exHeap_part true "mean" 1 rfl id (by show ¬ (0 = 1); decide)
example : 1 ∈ buffers 2 exHeap 0 := (C96_buffers exHeap_acyclic 2 0 (by decide) 1).2 ⟨1, exHeap_part, "mean", List.mem_singleton.2 rfl⟩
example : (setFromShares exHeap 1 "weight" (fun _ => ⟨⟨3, 0, .int64⟩, false⟩) 16 none).isSome :=
  (C96_from_shares exHeap_valid 1 "weight" _ 16 none).1.2 ⟨rfl, ⟨0, rfl, trivial⟩, rfl⟩
/-- A plaintext model whose two weights are one tensor. -/
def tiedHeap : Heap 2 where
  mods := fun _ => ⟨[("a", 0), ("b", 0)], [], [], false⟩
  tens := fun _ => ⟨.torch ⟨1 / 2, 0, .float 24⟩, true, true, none⟩
  next := 1

theorem tiedHeap_valid : Valid tiedHeap where
  allocated := fun m b q hq => by cases b <;> simp [tiedHeap, Obj.slots] at hq ⊢; rcases hq with rfl | rfl <;> rfl
  names := fun m b => by cases b <;> simp [tiedHeap, Obj.slots]
  words := fun r => trivial
  floats := fun r d hd _ => by cases hd; rfl

example (p p' : ℕ) (hp : named (move ⟨some 1, none⟩ 1 tiedHeap 0) 0 false "a" = some p) (hp' : named (move ⟨some 1, none⟩ 1 tiedHeap 0) 0 false "b" = some p') : p ≠ p' :=
  C96_tied_wrong tiedHeap_valid (rank := fun _ => 0) (fun m name c hc => by simp [tiedHeap] at hc) 1 1 0 (by decide) 0 0 (.self 0) false false "a" "b" (by decide) 0 rfl id (by show ¬ (0 = 1); decide) p p' hp hp'

/-- `3.0` at the default precision is lost by `to(torch.float32)`. -/
example : ∃ s, ((move ⟨none, some (.float 24)⟩ 1 (castHeap (3 * 2 ^ 16)) 0).tens 0).kind = .shared s (2 ^ 16) ∧ ∑ q, (s q).data.value = 0 :=
  (C96_cast_wrong (p := 24) (by norm_num) (by norm_num) (x := 3 * 2 ^ 16) (by norm_num)).2

end CrypTen.Moving

import Verif.Spec.Privacy
import Verif.Lemmas.Proto

/-! Protocols whose transcript says nothing about the inputs of a party: `Hidden` and its rules. -/

namespace CrypTen.Privacy
variable {n : ℕ} {α β ι ι' κ : Type}

/-! ## Shares -/

/-- All parties except `h` hold the same. -/
def Off (h : Fin n) (s s' : Shares n ι) : Prop := ∀ p, p ≠ h → s p = s' p

theorem Off.refl {h : Fin n} (s : Shares n ι) : Off h s s := fun _ _ => rfl
theorem Off.trans {h : Fin n} {a b c : Shares n ι} (h1 : Off h a b) (h2 : Off h b c) : Off h a c := fun p hp => (h1 p hp).trans (h2 p hp)
theorem Off.symm {h : Fin n} {a b : Shares n ι} (h1 : Off h a b) : Off h b a := fun p hp => (h1 p hp).symm

theorem Off.ext {h : Fin n} {s s' : Shares n ι} (ho : Off h s s') (hh : s h = s' h) : s = s' := by
  funext p; by_cases e : p = h
  · rw [e, hh]
  · exact ho p e

theorem reveal_off {h : Fin n} {s s' : Shares n ι} (ho : Off h s s') : reveal s - reveal s' = s h - s' h := by
  unfold reveal
  rw [← Finset.sum_sub_distrib]
  exact Finset.sum_eq_single h (fun p _ hp => by rw [ho p hp, sub_self]) (fun hh => absurd (Finset.mem_univ h) hh)

theorem reveal_ext {h : Fin n} {s s' : Shares n ι} (ho : Off h s s') (hr : reveal s = reveal s') : s = s' := by
  refine ho.ext ?_
  have := reveal_off ho
  rw [hr, sub_self] at this
  exact (sub_eq_zero.1 this.symm)

theorem revealX_off {h : Fin n} {s s' : Shares n ι} (ho : Off h s s') (i : ι) : revealX s i ^^^ revealX s' i = s h i ^^^ s' h i := by
  rw [← revealX_xorShares]
  have : xorShares s s' = fun p i => if p = h then s h i ^^^ s' h i else 0#64 := by
    funext p i
    unfold xorShares
    split
    · rename_i e; rw [e]
    · rename_i e; rw [ho p e, BitVec.xor_self]
  rw [this, revealX_apply, xsum_single]

theorem xor_cancel {a b : I64} (h : a ^^^ b = 0#64) : a = b := by
  have := congrArg (· ^^^ b) h
  simpa [BitVec.xor_assoc] using this

theorem revealX_ext {h : Fin n} {s s' : Shares n ι} (ho : Off h s s') (hr : ∀ i, revealX s i = revealX s' i) : s = s' := by
  refine ho.ext (funext fun i => xor_cancel ?_)
  rw [← revealX_off ho, hr, BitVec.xor_self]

/-- The share of `h` changed so that the sharing reveals `v`. -/
def fix (h : Fin n) (s : Shares n ι) (v : Tensor ι) : Shares n ι := fun p => if p = h then s p + (v - reveal s) else s p

theorem fix_off (h : Fin n) (s : Shares n ι) (v : Tensor ι) : Off h s (fix h s v) := fun p hp => by simp [fix, hp]

theorem reveal_fix (h : Fin n) (s : Shares n ι) (v : Tensor ι) : reveal (fix h s v) = v := by
  have := reveal_off (fix_off h s v)
  simp only [fix, if_true] at this
  have e : s h - (s h + (v - reveal s)) = reveal s - v := by abel
  have e' := this.trans e
  have := sub_right_inj.1 e'
  simpa [fix] using this

/-- The share of `h` changed so that the XOR sharing reveals `v`. -/
def fixX (h : Fin n) (s : Shares n ι) (v : Tensor ι) : Shares n ι := fun p i => if p = h then s p i ^^^ (v i ^^^ revealX s i) else s p i

theorem fixX_off (h : Fin n) (s : Shares n ι) (v : Tensor ι) : Off h s (fixX h s v) := fun p hp => by funext i; simp [fixX, hp]

theorem revealX_fixX (h : Fin n) (s : Shares n ι) (v : Tensor ι) (i : ι) : revealX (fixX h s v) i = v i := by
  have := revealX_off (fixX_off h s v) i
  simp only [fixX, if_true] at this
  rw [← BitVec.xor_assoc, BitVec.xor_self, BitVec.zero_xor] at this
  have h2 := congrArg (revealX s i ^^^ ·) this
  simp only [← BitVec.xor_assoc, BitVec.xor_self, BitVec.zero_xor] at h2
  rw [BitVec.xor_comm (revealX s i) (v i), BitVec.xor_assoc, BitVec.xor_self, BitVec.xor_zero] at h2
  exact h2

/-! ## Streams of tuples -/

/-- What is handed out at request `k`. -/
def at' (T : Tuples n) (k : ℕ) : Tuples n where
  mul := fun _ {_ _ _} B => T.mul k B
  square := fun _ ι => T.square k ι
  bin := fun _ ι => T.bin k ι
  b2a := fun _ ι => T.b2a k ι
  wrap := fun _ ι => T.wrap k ι
  zeroA := fun _ ι => T.zeroA k ι
  zeroX := fun _ ι => T.zeroX k ι
  kbit := fun _ bits ι => T.kbit k bits ι

theorem at_mul {T T' : Tuples n} {k : ℕ} (e : at' T k = at' T' k) (B : BilinearOp ι ι' κ) : T.mul k B = T'.mul k B := congrArg (fun S : Tuples n => S.mul 0 B) e
theorem at_square {T T' : Tuples n} {k : ℕ} (e : at' T k = at' T' k) (ι : Type) : T.square k ι = T'.square k ι := congrArg (fun S : Tuples n => S.square 0 ι) e
theorem at_bin {T T' : Tuples n} {k : ℕ} (e : at' T k = at' T' k) (ι : Type) : T.bin k ι = T'.bin k ι := congrArg (fun S : Tuples n => S.bin 0 ι) e
theorem at_b2a {T T' : Tuples n} {k : ℕ} (e : at' T k = at' T' k) (ι : Type) : T.b2a k ι = T'.b2a k ι := congrArg (fun S : Tuples n => S.b2a 0 ι) e
theorem at_wrap {T T' : Tuples n} {k : ℕ} (e : at' T k = at' T' k) (ι : Type) : T.wrap k ι = T'.wrap k ι := congrArg (fun S : Tuples n => S.wrap 0 ι) e
theorem at_zeroA {T T' : Tuples n} {k : ℕ} (e : at' T k = at' T' k) (ι : Type) : T.zeroA k ι = T'.zeroA k ι := congrArg (fun S : Tuples n => S.zeroA 0 ι) e
theorem at_zeroX {T T' : Tuples n} {k : ℕ} (e : at' T k = at' T' k) (ι : Type) : T.zeroX k ι = T'.zeroX k ι := congrArg (fun S : Tuples n => S.zeroX 0 ι) e
theorem at_kbit {T T' : Tuples n} {k : ℕ} (e : at' T k = at' T' k) (bits : ℕ) (ι : Type) : T.kbit k bits ι = T'.kbit k bits ι := congrArg (fun S : Tuples n => S.kbit 0 bits ι) e

/-- The streams agree at the requests `k` with `P k`. -/
def SameOn (P : ℕ → Prop) (T T' : Tuples n) : Prop := ∀ k, P k → at' T k = at' T' k

theorem SameUnused.at {seen : ℕ → Option (Event n)} {T T' : Tuples n} (hs : SameUnused seen T T') {k : ℕ} (hk : seen k = none) : at' T k = at' T' k := by
  unfold at'
  congr 1
  · funext _ a b c B; exact hs.mul k B fun e d => by rw [hk]; exact (nomatch ·)
  · funext _ ι; exact hs.square k ι fun e => by rw [hk]; exact (nomatch ·)
  · funext _ ι; exact hs.bin k ι fun e d => by rw [hk]; exact (nomatch ·)
  · funext _ ι; exact hs.b2a k ι fun e => by rw [hk]; exact (nomatch ·)
  · funext _ ι; exact hs.wrap k ι fun e => by rw [hk]; exact (nomatch ·)
  · funext _ ι; exact hs.zeroA k ι
  · funext _ ι; exact hs.zeroX k ι
  · funext _ bits ι; exact hs.kbit k bits ι

theorem SameUnused.refl (seen : ℕ → Option (Event n)) (T : Tuples n) : SameUnused seen T T :=
  ⟨fun _ {_ _ _} _ _ => rfl, fun _ _ _ => rfl, fun _ _ _ => rfl, fun _ _ _ => rfl, fun _ _ _ => rfl, fun _ _ => rfl, fun _ _ => rfl, fun _ _ _ => rfl⟩

theorem SameForOthers.refl (h : Fin n) (T : Tuples n) : SameForOthers h T T :=
  ⟨fun _ {_ _ _} _ _ _ => ⟨rfl, rfl, rfl⟩, fun _ _ _ _ => ⟨rfl, rfl⟩, fun _ _ _ _ => ⟨rfl, rfl, rfl⟩, fun _ _ _ _ => ⟨rfl, rfl⟩, fun _ _ _ _ => ⟨rfl, rfl⟩, fun _ _ _ _ => rfl, fun _ _ _ _ => rfl,
    fun _ _ _ _ _ => rfl⟩

theorem SameForOthers.symm {h : Fin n} {T T' : Tuples n} (e : SameForOthers h T T') : SameForOthers h T' T :=
  ⟨fun k {_ _ _} B p hp => ⟨(e.mul k B p hp).1.symm, (e.mul k B p hp).2.1.symm, (e.mul k B p hp).2.2.symm⟩, fun k ι p hp => ⟨(e.square k ι p hp).1.symm, (e.square k ι p hp).2.symm⟩,
    fun k ι p hp => ⟨(e.bin k ι p hp).1.symm, (e.bin k ι p hp).2.1.symm, (e.bin k ι p hp).2.2.symm⟩, fun k ι p hp => ⟨(e.b2a k ι p hp).1.symm, (e.b2a k ι p hp).2.symm⟩,
    fun k ι p hp => ⟨(e.wrap k ι p hp).1.symm, (e.wrap k ι p hp).2.symm⟩, fun k ι p hp => (e.zeroA k ι p hp).symm, fun k ι p hp => (e.zeroX k ι p hp).symm, fun k b ι p hp => (e.kbit k b ι p hp).symm⟩

theorem SameForOthers.trans {h : Fin n} {T T' S : Tuples n} (e : SameForOthers h T T') (f : SameForOthers h T' S) : SameForOthers h T S :=
  ⟨fun k {_ _ _} B p hp => ⟨(e.mul k B p hp).1.trans (f.mul k B p hp).1, (e.mul k B p hp).2.1.trans (f.mul k B p hp).2.1, (e.mul k B p hp).2.2.trans (f.mul k B p hp).2.2⟩,
    fun k ι p hp => ⟨(e.square k ι p hp).1.trans (f.square k ι p hp).1, (e.square k ι p hp).2.trans (f.square k ι p hp).2⟩,
    fun k ι p hp => ⟨(e.bin k ι p hp).1.trans (f.bin k ι p hp).1, (e.bin k ι p hp).2.1.trans (f.bin k ι p hp).2.1, (e.bin k ι p hp).2.2.trans (f.bin k ι p hp).2.2⟩,
    fun k ι p hp => ⟨(e.b2a k ι p hp).1.trans (f.b2a k ι p hp).1, (e.b2a k ι p hp).2.trans (f.b2a k ι p hp).2⟩,
    fun k ι p hp => ⟨(e.wrap k ι p hp).1.trans (f.wrap k ι p hp).1, (e.wrap k ι p hp).2.trans (f.wrap k ι p hp).2⟩,
    fun k ι p hp => (e.zeroA k ι p hp).trans (f.zeroA k ι p hp), fun k ι p hp => (e.zeroX k ι p hp).trans (f.zeroX k ι p hp), fun k b ι p hp => (e.kbit k b ι p hp).trans (f.kbit k b ι p hp)⟩

/-- The two streams hand out the same tuples at the requests in the transcript. -/
structure SameUsed (seen : ℕ → Option (Event n)) (T T' : Tuples n) : Prop where
  mul : ∀ k {ι ι' κ : Type} (B : BilinearOp ι ι' κ) e d, seen k = some (.mul B e d) → T.mul k B = T'.mul k B
  square : ∀ k ι (e : Shares n ι), seen k = some (.square e) → T.square k ι = T'.square k ι
  bin : ∀ k ι (e d : Shares n ι), seen k = some (.bin e d) → T.bin k ι = T'.bin k ι
  b2a : ∀ k ι (z : Shares n ι), seen k = some (.b2a z) → T.b2a k ι = T'.b2a k ι
  wrap : ∀ k ι (z : Shares n ι), seen k = some (.wrap z) → T.wrap k ι = T'.wrap k ι

theorem SameUsed.none {T T' : Tuples n} : SameUsed (fun _ => none) T T' :=
  ⟨fun _ {_ _ _} _ _ _ e => (nomatch e), fun _ _ _ e => (nomatch e), fun _ _ _ _ e => (nomatch e), fun _ _ _ e => (nomatch e), fun _ _ _ e => (nomatch e)⟩

/-! ## Protocols that hide the inputs of `h` -/

/-- Two runs of a protocol, with results related by `R` as far as the parties except `h` are concerned: the transcript can be the same, for exactly one change of the tuples of `h`. -/
structure Hidden (h : Fin n) (R : α → α → Prop) (m m' : Proto n α) : Prop where
  keys : ∀ T c, T.Valid → c ≤ (m T c).ctr ∧ ∀ k, (m T c).seen k ≠ none → c ≤ k ∧ k < (m T c).ctr
  keys' : ∀ T c, T.Valid → c ≤ (m' T c).ctr ∧ ∀ k, (m' T c).seen k ≠ none → c ≤ k ∧ k < (m' T c).ctr
  exist : ∀ c T T₁, T.Valid → T₁.Valid → SameOn (c ≤ ·) T T₁ → ∃ T', T'.Valid ∧ SameForOthers h T₁ T' ∧ SameUnused (m T c).seen T₁ T' ∧
    (∀ T'', SameOn (· < (m T c).ctr) T' T'' → m' T'' c = m' T' c) ∧ (m T c).seen = (m' T' c).seen ∧ (m T c).ctr = (m' T' c).ctr ∧ R (m T c).val (m' T' c).val
  unique : ∀ c T T' T'', T.Valid → T'.Valid → T''.Valid → SameForOthers h T T' → SameForOthers h T T'' → (∀ k b ι, T'.kbit k b ι = T''.kbit k b ι) →
    (∀ k, k < (m T c).ctr → k < (m' T' c).ctr → (m T c).seen k = (m' T' c).seen k) → (∀ k, k < (m T c).ctr → k < (m' T'' c).ctr → (m T c).seen k = (m' T'' c).seen k) →
    (m T c).ctr = (m' T' c).ctr ∧ (m T c).ctr = (m' T'' c).ctr ∧ R (m T c).val (m' T' c).val ∧ (m' T' c).val = (m' T'' c).val ∧ SameUsed (m T c).seen T' T''

theorem Hidden.pure {h : Fin n} {R : α → α → Prop} {a a' : α} (hr : R a a') : Hidden h R (pure a) (pure a') where
  keys := fun _ c _ => ⟨le_refl c, fun _ hk => absurd rfl hk⟩
  keys' := fun _ c _ => ⟨le_refl c, fun _ hk => absurd rfl hk⟩
  exist := fun c T T₁ _ hv _ => ⟨T₁, hv, .refl h T₁, .refl _ T₁, fun _ _ => rfl, rfl, rfl, hr⟩
  unique := fun c T T' T'' _ _ _ _ _ _ _ _ => ⟨rfl, rfl, hr, rfl, .none⟩

theorem SameUnused.trans_split {c1 : ℕ} {s t : ℕ → Option (Event n)} {T₁ T₂ T₃ : Tuples n} (hs : ∀ k, c1 ≤ k → s k = none) (ht : ∀ k, k < c1 → t k = none) (h1 : SameUnused s T₁ T₂) (h2 : SameUnused t T₂ T₃) :
    SameUnused (fun k => if k < c1 then s k else t k) T₁ T₃ := by
  have low : ∀ k, k < c1 → at' T₂ k = at' T₃ k := fun k hk => h2.at (ht k hk)
  have high : ∀ k, ¬ k < c1 → at' T₁ k = at' T₂ k := fun k hk => h1.at (hs k (by omega))
  refine ⟨fun k {_ _ _} B hB => ?_, fun k ι hB => ?_, fun k ι hB => ?_, fun k ι hB => ?_, fun k ι hB => ?_, fun k ι => (h1.zeroA k ι).trans (h2.zeroA k ι), fun k ι => (h1.zeroX k ι).trans (h2.zeroX k ι),
    fun k b ι => (h1.kbit k b ι).trans (h2.kbit k b ι)⟩
  · by_cases hk : k < c1
    · simp only [if_pos hk] at hB; exact (h1.mul k B hB).trans (at_mul (low k hk) B)
    · simp only [if_neg hk] at hB; exact (at_mul (high k hk) B).trans (h2.mul k B hB)
  · by_cases hk : k < c1
    · simp only [if_pos hk] at hB; exact (h1.square k ι hB).trans (at_square (low k hk) ι)
    · simp only [if_neg hk] at hB; exact (at_square (high k hk) ι).trans (h2.square k ι hB)
  · by_cases hk : k < c1
    · simp only [if_pos hk] at hB; exact (h1.bin k ι hB).trans (at_bin (low k hk) ι)
    · simp only [if_neg hk] at hB; exact (at_bin (high k hk) ι).trans (h2.bin k ι hB)
  · by_cases hk : k < c1
    · simp only [if_pos hk] at hB; exact (h1.b2a k ι hB).trans (at_b2a (low k hk) ι)
    · simp only [if_neg hk] at hB; exact (at_b2a (high k hk) ι).trans (h2.b2a k ι hB)
  · by_cases hk : k < c1
    · simp only [if_pos hk] at hB; exact (h1.wrap k ι hB).trans (at_wrap (low k hk) ι)
    · simp only [if_neg hk] at hB; exact (at_wrap (high k hk) ι).trans (h2.wrap k ι hB)

theorem SameUsed.split {c1 : ℕ} {s t : ℕ → Option (Event n)} {T T' : Tuples n} (h1 : SameUsed s T T') (h2 : SameUsed t T T') : SameUsed (fun k => if k < c1 then s k else t k) T T' := by
  refine ⟨fun k {_ _ _} B e d hB => ?_, fun k ι e hB => ?_, fun k ι e d hB => ?_, fun k ι e hB => ?_, fun k ι e hB => ?_⟩ <;> by_cases hk : k < c1
  · simp only [if_pos hk] at hB; exact h1.mul k B e d hB
  · simp only [if_neg hk] at hB; exact h2.mul k B e d hB
  · simp only [if_pos hk] at hB; exact h1.square k ι e hB
  · simp only [if_neg hk] at hB; exact h2.square k ι e hB
  · simp only [if_pos hk] at hB; exact h1.bin k ι e d hB
  · simp only [if_neg hk] at hB; exact h2.bin k ι e d hB
  · simp only [if_pos hk] at hB; exact h1.b2a k ι e hB
  · simp only [if_neg hk] at hB; exact h2.b2a k ι e hB
  · simp only [if_pos hk] at hB; exact h1.wrap k ι e hB
  · simp only [if_neg hk] at hB; exact h2.wrap k ι e hB

theorem bind_run (m : Proto n α) (f : α → Proto n β) (T : Tuples n) (c : ℕ) : ((m >>= f) T c).val = (f (m T c).val T (m T c).ctr).val ∧ ((m >>= f) T c).ctr = (f (m T c).val T (m T c).ctr).ctr ∧
    ((m >>= f) T c).seen = fun k => if k < (m T c).ctr then (m T c).seen k else (f (m T c).val T (m T c).ctr).seen k := ⟨rfl, rfl, rfl⟩

theorem bind_congr {m : Proto n α} {f : α → Proto n β} {T T' : Tuples n} {c : ℕ} (h1 : m T c = m T' c) (h2 : f (m T' c).val T (m T' c).ctr = f (m T' c).val T' (m T' c).ctr) : (m >>= f) T c = (m >>= f) T' c := by
  show Run.mk _ _ _ _ = Run.mk _ _ _ _
  simp only [h1, h2]

theorem keys_bind {m : Proto n α} {f : α → Proto n β} {T : Tuples n} {c : ℕ} (h1 : c ≤ (m T c).ctr ∧ ∀ k, (m T c).seen k ≠ none → c ≤ k ∧ k < (m T c).ctr)
    (h2 : (m T c).ctr ≤ (f (m T c).val T (m T c).ctr).ctr ∧ ∀ k, (f (m T c).val T (m T c).ctr).seen k ≠ none → (m T c).ctr ≤ k ∧ k < (f (m T c).val T (m T c).ctr).ctr) :
    c ≤ ((m >>= f) T c).ctr ∧ ∀ k, ((m >>= f) T c).seen k ≠ none → c ≤ k ∧ k < ((m >>= f) T c).ctr := by
  obtain ⟨k1, k2⟩ := h1
  obtain ⟨k3, k4⟩ := h2
  rw [(bind_run m f T c).2.1, (bind_run m f T c).2.2]
  refine ⟨by omega, fun k hk => ?_⟩
  by_cases hlt : k < (m T c).ctr
  · simp only [if_pos hlt] at hk
    have := k2 k hk; omega
  · simp only [if_neg hlt] at hk
    have := k4 k hk; omega

theorem Hidden.bind {h : Fin n} {R : α → α → Prop} {S : β → β → Prop} {m m' : Proto n α} {f f' : α → Proto n β} (hR : ∀ a, R a a) (hm : Hidden h R m m')
    (hf : ∀ a a', R a a' → Hidden h S (f a) (f' a')) : Hidden h S (m >>= f) (m' >>= f') := by
  have fkeys : ∀ T c, T.Valid → (m T c).ctr ≤ (f (m T c).val T (m T c).ctr).ctr ∧
      ∀ k, (f (m T c).val T (m T c).ctr).seen k ≠ none → (m T c).ctr ≤ k ∧ k < (f (m T c).val T (m T c).ctr).ctr := fun T c hv => (hf _ _ (hR _)).keys T _ hv
  have fkeys' : ∀ T c, T.Valid → (m' T c).ctr ≤ (f' (m' T c).val T (m' T c).ctr).ctr ∧
      ∀ k, (f' (m' T c).val T (m' T c).ctr).seen k ≠ none → (m' T c).ctr ≤ k ∧ k < (f' (m' T c).val T (m' T c).ctr).ctr := fun T c hv => (hf _ _ (hR _)).keys' T _ hv
  refine ⟨fun T c hv => keys_bind (hm.keys T c hv) (fkeys T c hv), fun T c hv => keys_bind (hm.keys' T c hv) (fkeys' T c hv), fun c T T₁ hv hv₁ hon => ?_,
    fun c T T' T'' hv hv' hv'' ho ho' hk he he' => ?_⟩
  · obtain ⟨k1, k2⟩ := hm.keys T c hv
    obtain ⟨k3, k4⟩ := fkeys T c hv
    obtain ⟨T₂, v2, o2, u2, l2, s2, c2, r2⟩ := hm.exist c T T₁ hv hv₁ hon
    have hseen : ∀ k, (m T c).ctr ≤ k → (m T c).seen k = none := fun k hk => by
      by_contra hne
      have := k2 k hne; omega
    have hseen' : ∀ k, k < (m T c).ctr → (f (m T c).val T (m T c).ctr).seen k = none := fun k hk => by
      by_contra hne
      have := k4 k hne; omega
    have hon2 : SameOn ((m T c).ctr ≤ ·) T T₂ := fun k hk => (hon k (by omega)).trans (u2.at (hseen k hk))
    obtain ⟨T₃, v3, o3, u3, l3, s3, c3, r3⟩ := (hf _ _ r2).exist (m T c).ctr T T₂ hv v2 hon2
    have low : SameOn (· < (m T c).ctr) T₂ T₃ := fun k hk => u3.at (hseen' k hk)
    have e3 : m' T₃ c = m' T₂ c := l2 T₃ low
    refine ⟨T₃, v3, o2.trans o3, ?_, fun T'' hT'' => ?_, ?_, ?_, ?_⟩
    · rw [(bind_run m f T c).2.2]
      exact u2.trans_split hseen hseen' u3
    · rw [(bind_run m f T c).2.1] at hT''
      have e4 : m' T'' c = m' T₃ c := (l2 T'' fun k hk => (low k hk).trans (hT'' k (by omega))).trans e3.symm
      refine bind_congr e4 ?_
      rw [e3, ← c2]
      exact l3 T'' hT''
    · rw [(bind_run m f T c).2.2, (bind_run m' f' T₃ c).2.2, e3, ← c2, ← s2, ← s3]
    · rw [(bind_run m f T c).2.1, (bind_run m' f' T₃ c).2.1, e3, ← c2, ← c3]
    · rw [(bind_run m f T c).1, (bind_run m' f' T₃ c).1, e3, ← c2]
      exact r3
  · obtain ⟨k1, k2⟩ := hm.keys T c hv
    obtain ⟨k3, k4⟩ := fkeys T c hv
    rw [(bind_run m f T c).2.2, (bind_run m' f' T' c).2.2, (bind_run m f T c).2.1, (bind_run m' f' T' c).2.1] at he
    rw [(bind_run m f T c).2.2, (bind_run m' f' T'' c).2.2, (bind_run m f T c).2.1, (bind_run m' f' T'' c).2.1] at he'
    obtain ⟨k5, k5'⟩ := fkeys' T' c hv'
    obtain ⟨k6, k6'⟩ := fkeys' T'' c hv''
    have g1 : ∀ k, k < (m T c).ctr → k < (m' T' c).ctr → (m T c).seen k = (m' T' c).seen k := fun k h1 h2 => by
      have := he k (by omega) (by omega)
      simpa only [if_pos h1, if_pos h2] using this
    have g2 : ∀ k, k < (m T c).ctr → k < (m' T'' c).ctr → (m T c).seen k = (m' T'' c).seen k := fun k h1 h2 => by
      have := he' k (by omega) (by omega)
      simpa only [if_pos h1, if_pos h2] using this
    obtain ⟨a1, a2, a3, a4, a5⟩ := hm.unique c T T' T'' hv hv' hv'' ho ho' hk g1 g2
    rw [← a1] at he k5 k5'
    rw [← a2, ← a4] at he' k6 k6'
    have none_of : ∀ {g : ℕ → Option (Event n)} {c1 c2 : ℕ}, (∀ k, g k ≠ none → c1 ≤ k ∧ k < c2) → ∀ k, k < c1 → g k = none := fun hg k hk => by
      by_contra hne
      have := hg k hne; omega
    obtain ⟨b1, b2, b3, b4, b5⟩ := (hf _ _ a3).unique (m T c).ctr T T' T'' hv hv' hv'' ho ho' hk (fun k h1 h2 => by
        by_cases hlt : k < (m T c).ctr
        · rw [none_of k4 k hlt, none_of k5' k hlt]
        · simpa only [if_neg hlt] using he k h1 h2) (fun k h1 h2 => by
        by_cases hlt : k < (m T c).ctr
        · rw [none_of k4 k hlt, none_of k6' k hlt]
        · simpa only [if_neg hlt] using he' k h1 h2)
    refine ⟨?_, ?_, ?_, ?_, ?_⟩
    · rw [(bind_run m f T c).2.1, (bind_run m' f' T' c).2.1, ← a1]; exact b1
    · rw [(bind_run m f T c).2.1, (bind_run m' f' T'' c).2.1, ← a2, ← a4]; exact b2
    · rw [(bind_run m f T c).1, (bind_run m' f' T' c).1, ← a1]; exact b3
    · rw [(bind_run m' f' T' c).1, (bind_run m' f' T'' c).1, ← a1, ← a2, ← a4]; exact b4
    · rw [(bind_run m f T c).2.2]; exact a5.split b5

end CrypTen.Privacy

import Verif.Spec.Failure
import Verif.Props.Privacy
import Verif.Props.Program

/-! Counting outcomes. -/

namespace CrypTen.Failure
open CrypTen.Program CrypTen.Privacy
variable {n : ℕ} {sh : ℕ → Type} {α β ι ι' κ : Type} {Ω : Type}

theorem SameBefore.sameOn {c : ℕ} {T T' : Tuples n} (h : SameBefore c T T') : SameOn (· < c) T T' := by
  intro k hk
  unfold at'
  congr 1
  · funext _ a b c B; exact h.mul k hk B
  · funext _ ι; exact h.square k hk ι
  · funext _ ι; exact h.bin k hk ι
  · funext _ ι; exact h.b2a k hk ι
  · funext _ ι; exact h.wrap k hk ι
  · funext _ ι; exact h.zeroA k hk ι
  · funext _ ι; exact h.zeroX k hk ι
  · funext _ bits ι; exact h.kbit k hk bits ι

theorem SameBefore.mono {c c' : ℕ} {T T' : Tuples n} (h : SameBefore c T T') (hc : c' ≤ c) : SameBefore c' T T' :=
  ⟨fun k hk {_ _ _} B => h.mul k (by omega) B, fun k hk => h.square k (by omega), fun k hk => h.bin k (by omega), fun k hk => h.b2a k (by omega), fun k hk => h.wrap k (by omega),
    fun k hk => h.zeroA k (by omega), fun k hk => h.zeroX k (by omega), fun k hk => h.kbit k (by omega)⟩

theorem SameBefore.refl (c : ℕ) (T : Tuples n) : SameBefore c T T :=
  ⟨fun _ _ {_ _ _} _ => rfl, fun _ _ _ => rfl, fun _ _ _ => rfl, fun _ _ _ => rfl, fun _ _ _ => rfl, fun _ _ _ => rfl, fun _ _ _ => rfl, fun _ _ _ _ => rfl⟩

theorem SameBefore.symm {c : ℕ} {T T' : Tuples n} (h : SameBefore c T T') : SameBefore c T' T :=
  ⟨fun k hk {_ _ _} B => (h.mul k hk B).symm, fun k hk ι => (h.square k hk ι).symm, fun k hk ι => (h.bin k hk ι).symm, fun k hk ι => (h.b2a k hk ι).symm, fun k hk ι => (h.wrap k hk ι).symm,
    fun k hk ι => (h.zeroA k hk ι).symm, fun k hk ι => (h.zeroX k hk ι).symm, fun k hk b ι => (h.kbit k hk b ι).symm⟩

theorem SameBefore.trans {c : ℕ} {T T' S : Tuples n} (h : SameBefore c T T') (g : SameBefore c T' S) : SameBefore c T S :=
  ⟨fun k hk {_ _ _} B => (h.mul k hk B).trans (g.mul k hk B), fun k hk ι => (h.square k hk ι).trans (g.square k hk ι), fun k hk ι => (h.bin k hk ι).trans (g.bin k hk ι),
    fun k hk ι => (h.b2a k hk ι).trans (g.b2a k hk ι), fun k hk ι => (h.wrap k hk ι).trans (g.wrap k hk ι),
    fun k hk ι => (h.zeroA k hk ι).trans (g.zeroA k hk ι), fun k hk ι => (h.zeroX k hk ι).trans (g.zeroX k hk ι), fun k hk b ι => (h.kbit k hk b ι).trans (g.kbit k hk b ι)⟩

/-- A protocol depends only on the tuples it has requested. -/
theorem _root_.CrypTen.Privacy.Hidden.local {h : Fin n} {R : α → α → Prop} {m : Proto n α} (H : Hidden h R m m) {T T'' : Tuples n} (hv : T.Valid) (c : ℕ) (hs : SameBefore (m T c).ctr T T'') : m T'' c = m T c := by
  obtain ⟨T', v, o, u, l, s, e, r⟩ := H.exist c T T hv hv fun _ _ => rfl
  have hu := H.unique c T T' T hv v hv o (.refl h T) (fun k b ι => (u.kbit k b ι).symm) (fun k _ _ => by rw [s]) fun _ _ _ => rfl
  have ht : T' = T := SameForOthers.view_unique _ u (.refl _ T) hu.2.2.2.2
  subst ht
  exact l T'' hs.sameOn

theorem op_local [NeZero n] (k : ℕ) {R : Regs n sh} {d : ℕ} (op : Op n sh d) {T T'' : Tuples n} (hv : T.Valid) (c : ℕ) (hs : SameBefore (op.run k R T c).ctr T T'') : op.run k R T'' c = op.run k R T c :=
  (hide_op (h := 0) k (fun _ => ⟨rfl, fun _ _ => rfl⟩) op).local hv c hs

theorem op_ctr [NeZero n] (k : ℕ) {R : Regs n sh} {d : ℕ} (op : Op n sh d) {T : Tuples n} (hv : T.Valid) (c : ℕ) : c ≤ (op.run k R T c).ctr :=
  ((hide_op (h := 0) k (fun _ => ⟨rfl, fun _ _ => rfl⟩) op).keys T c hv).1

theorem run_ctr [NeZero n] (k : ℕ) {R : Regs n sh} (prog : Prog n sh) {T : Tuples n} (hv : T.Valid) (c : ℕ) : c ≤ (run k prog R T c).ctr := by
  induction prog generalizing R c with
  | nil => exact le_refl c
  | cons l rest ih =>
    obtain ⟨d, op⟩ := l
    exact (op_ctr k op hv c).trans (ih _)

/-! ## Averages -/

/-- Number of outcomes of `A` in the event `b`. -/
noncomputable def count (A : Finset Ω) (b : Ω → Prop) : ℚ := ((@Finset.filter Ω b (Classical.decPred b) A).card : ℚ)

/-- The outcomes of `A` in the event `b`. -/
noncomputable def sub (A : Finset Ω) (b : Ω → Prop) : Finset Ω := @Finset.filter Ω b (Classical.decPred b) A

theorem count_eq (A : Finset Ω) (b : Ω → Prop) : count A b = (sub A b).card := rfl

@[simp] theorem mem_sub {A : Finset Ω} {b : Ω → Prop} {ω : Ω} : ω ∈ sub A b ↔ ω ∈ A ∧ b ω := @Finset.mem_filter Ω b (Classical.decPred b) A ω

theorem count_congr {A A' : Finset Ω} {b b' : Ω → Prop} (h : ∀ ω, ω ∈ A ∧ b ω ↔ ω ∈ A' ∧ b' ω) : count A b = count A' b' := by
  rw [count_eq, count_eq]
  congr 2
  ext ω; simpa using h ω

theorem count_sub (A : Finset Ω) (b b' : Ω → Prop) : count (sub A b) b' = count A fun ω => b ω ∧ b' ω := count_congr fun ω => by simp [and_assoc]

theorem count_filter (A : Finset Ω) (b : Ω → Prop) [DecidablePred b] : count A b = ((A.filter b).card : ℚ) := by
  rw [count_eq]
  congr 2
  ext ω; simp

theorem count_mono (A : Finset Ω) {b b' : Ω → Prop} (h : ∀ ω ∈ A, b ω → b' ω) : count A b ≤ count A b' := by
  rw [count_eq, count_eq]
  exact_mod_cast Finset.card_le_card fun ω hω => by rw [mem_sub] at hω ⊢; exact ⟨hω.1, h ω hω.1 hω.2⟩

theorem count_nonneg (A : Finset Ω) (b : Ω → Prop) : 0 ≤ count A b := Nat.cast_nonneg _

theorem count_or (A : Finset Ω) (b b' : Ω → Prop) : count A (fun ω => b ω ∨ b' ω) ≤ count A b + count A b' := by
  classical
  rw [count_eq, count_eq, count_eq, show sub A (fun ω => b ω ∨ b' ω) = sub A b ∪ sub A b' by ext ω; simp [and_or_left]]
  exact_mod_cast Finset.card_union_le _ _

theorem count_exists {σ : Type} (F : Finset σ) (A : Finset Ω) (b : σ → Ω → Prop) : count A (fun ω => ∃ i ∈ F, b i ω) ≤ ∑ i ∈ F, count A (b i) := by
  classical
  have e : sub A (fun ω => ∃ i ∈ F, b i ω) = F.biUnion fun i => sub A (b i) := by
    ext ω; simp only [mem_sub, Finset.mem_biUnion]
    exact ⟨fun ⟨h, i, hi, g⟩ => ⟨i, hi, h, g⟩, fun ⟨i, hi, h, g⟩ => ⟨h, i, hi, g⟩⟩
  simp only [count_eq]
  rw [e]
  exact_mod_cast Finset.card_biUnion_le

/-- If an event has probability at most `X / D` in every class of an equivalence, it has at most that in every union of classes. -/
theorem card_classes (S : Finset Ω) (r : Ω → Ω → Prop) (hr : Equivalence r) (bad : Ω → Prop) (X D : ℚ)
    (h : ∀ ω ∈ S, count S (fun ω' => r ω ω' ∧ bad ω') * D ≤ X * count S (r ω)) : count S bad * D ≤ X * S.card := by
  classical
  let q : Setoid Ω := ⟨r, hr⟩
  let f : Ω → Quotient q := fun ω => Quotient.mk q ω
  have e1 : (sub S bad).card = ∑ b ∈ S.image f, ((sub S bad).filter fun ω => f ω = b).card :=
    Finset.card_eq_sum_card_fiberwise fun ω hω => Finset.mem_coe.2 (Finset.mem_image_of_mem f (mem_sub.1 (Finset.mem_coe.1 hω)).1)
  have e2 : S.card = ∑ b ∈ S.image f, (S.filter fun ω => f ω = b).card :=
    Finset.card_eq_sum_card_fiberwise fun ω hω => Finset.mem_coe.2 (Finset.mem_image_of_mem f (Finset.mem_coe.1 hω))
  rw [count_eq, e1, e2]
  push_cast
  rw [Finset.sum_mul, Finset.mul_sum]
  refine Finset.sum_le_sum fun b hb => ?_
  obtain ⟨ω, hω, rfl⟩ := Finset.mem_image.1 hb
  have hq : ∀ ω', f ω' = f ω ↔ r ω ω' := fun ω' => ⟨fun e => hr.symm (Quotient.exact e), fun e => Quotient.sound (hr.symm e)⟩
  have h1 := h ω hω
  rw [← count_filter, ← count_filter, count_sub]
  simp only [hq]
  rw [count_congr (b' := fun ω' => r ω ω' ∧ bad ω') (A' := S) fun ω' => by rw [and_comm (a := bad ω')]]
  exact h1

/-- Number of words a mask is drawn from. -/
irreducible_def words : ℚ := 2 ^ 64 - 1

theorem words_pos : (0 : ℚ) < words := by rw [words_def]; norm_num

/-- A spread word hits a set of words rarely. -/
theorem spread_hit {τ : Type} {T : Ω → Tuples n} {c : ℕ} {x : Ω → τ} {y : Ω → I64} (h : Spread T c x y) (A : Finset Ω) (hA : Decided T c x A) (S : Finset I64) :
    count A (fun ω => y ω ∈ S) * words ≤ S.card * A.card := by
  have h0 : ∀ w, count A (fun ω => y ω = w) * words ≤ A.card := by
    intro w
    have h1 := h A hA w
    have h2 : (((A.filter fun ω => y ω = w).card * (2 ^ 64 - 1) : ℕ) : ℚ) ≤ (A.card : ℕ) := Nat.cast_le.2 h1
    rw [Nat.cast_mul, Nat.cast_sub (Nat.one_le_two_pow)] at h2
    rw [words_def, count_filter]
    push_cast at h2
    exact h2
  have h1 : count A (fun ω => y ω ∈ S) ≤ ∑ w ∈ S, count A (fun ω => y ω = w) :=
    (count_mono A fun ω _ hω => ⟨y ω, hω, rfl⟩).trans (count_exists S A fun w ω => y ω = w)
  calc _ ≤ (∑ w ∈ S, count A (fun ω => y ω = w)) * words := mul_le_mul_of_nonneg_right h1 words_pos.le
    _ = ∑ w ∈ S, count A (fun ω => y ω = w) * words := Finset.sum_mul _ _ _
    _ ≤ ∑ _w ∈ S, (A.card : ℚ) := Finset.sum_le_sum fun w _ => h0 w
    _ = S.card * A.card := by rw [Finset.sum_const, nsmul_eq_mul]

/-- The same for a set of words that is decided before. -/
theorem spread_event {τ : Type} {T : Ω → Tuples n} {c : ℕ} {x : Ω → τ} {y : Ω → I64} (h : Spread T c x y) (A : Finset Ω) (hA : Decided T c x A) (S : Ω → Finset I64)
    (hS : ∀ ω ω', SameBefore c (T ω) (T ω') → x ω = x ω' → ω ∈ A → S ω = S ω') {K : ℚ} (hK : ∀ ω ∈ A, ((S ω).card : ℚ) ≤ K) :
    count A (fun ω => y ω ∈ S ω) * words ≤ K * A.card := by
  refine card_classes A (fun ω ω' => SameBefore c (T ω) (T ω') ∧ x ω = x ω') ⟨fun ω => ⟨.refl _ _, rfl⟩, fun h => ⟨h.1.symm, h.2.symm⟩, fun h g => ⟨h.1.trans g.1, h.2.trans g.2⟩⟩
    _ K _ fun ω hω => ?_
  have h1 := spread_hit h (sub A fun ω' => SameBefore c (T ω) (T ω') ∧ x ω = x ω') (fun ω₁ ω₂ hs hx hm => by
    rw [mem_sub] at hm ⊢
    exact ⟨hA _ _ hs hx hm.1, hm.2.1.trans hs, hm.2.2.trans hx⟩) (S ω)
  rw [count_sub, ← count_eq] at h1
  have e : count A (fun ω' => (SameBefore c (T ω) (T ω') ∧ x ω = x ω') ∧ y ω' ∈ S ω') = count A fun ω' => (SameBefore c (T ω) (T ω') ∧ x ω = x ω') ∧ y ω' ∈ S ω :=
    count_congr fun ω' => and_congr_right fun _ => and_congr_right fun hr => by rw [hS ω ω' hr.1 hr.2 hω]
  rw [e]
  exact h1.trans (mul_le_mul_of_nonneg_right (hK ω hω) (count_nonneg _ _))

/-- Union bound. -/
theorem card_exists [Fintype ι] (A : Finset Ω) (bad : ι → Ω → Prop) {X D : ℚ} (h : ∀ i, count A (bad i) * D ≤ X * A.card) (hD : 0 ≤ D) :
    count A (fun ω => ∃ i, bad i ω) * D ≤ Fintype.card ι * X * A.card := by
  have h1 : count A (fun ω => ∃ i, bad i ω) ≤ ∑ i, count A (bad i) := by
    refine (count_mono A fun ω _ hω => ?_).trans (count_exists Finset.univ A bad)
    obtain ⟨i, hi⟩ := hω
    exact ⟨i, Finset.mem_univ i, hi⟩
  calc _ ≤ (∑ i, count A (bad i)) * D := mul_le_mul_of_nonneg_right h1 hD
    _ = ∑ i, count A (bad i) * D := Finset.sum_mul _ _ _
    _ ≤ ∑ _i : ι, X * A.card := Finset.sum_le_sum fun i _ => h i
    _ = _ := by rw [Finset.sum_const, Finset.card_univ, nsmul_eq_mul]; ring

theorem card_or (A : Finset Ω) (b b' : Ω → Prop) {X Y D : ℚ} (h : count A b * D ≤ X * A.card) (h' : count A b' * D ≤ Y * A.card) (hD : 0 ≤ D) :
    count A (fun ω => b ω ∨ b' ω) * D ≤ (X + Y) * A.card := by
  nlinarith [mul_le_mul_of_nonneg_right (count_or A b b') hD]

theorem card_mono (A : Finset Ω) (b b' : Ω → Prop) {X D : ℚ} (hb : ∀ ω ∈ A, b ω → b' ω) (h : count A b' * D ≤ X * A.card) (hD : 0 ≤ D) : count A b * D ≤ X * A.card :=
  le_trans (mul_le_mul_of_nonneg_right (count_mono A hb) hD) h

/-! ## Bad words -/

noncomputable instance : Fintype I64 := Fintype.ofInjective BitVec.toFin fun _ _ h => BitVec.eq_of_toFin_eq h

/-- The words with a property. -/
noncomputable def bads (P : I64 → Prop) : Finset I64 := sub Finset.univ P

@[simp] theorem mem_bads {P : I64 → Prop} {w : I64} : w ∈ bads P ↔ P w := by simp [bads]

/-- Shifting does not change the number of words. -/
theorem card_shift (P : I64 → Prop) (o : I64) : (bads fun w => P (w + o)).card = {w : I64 | P w}.ncard := by
  rw [← Set.ncard_coe_finset]
  rw [← Set.ncard_image_of_injective (f := fun w : I64 => w + o) _ (add_left_injective o)]
  congr 1
  ext w
  simp only [Finset.mem_coe, mem_bads, Set.mem_image, Set.mem_ofPred_eq]
  exact ⟨fun ⟨v, hv, e⟩ => e ▸ hv, fun hw => ⟨w - o, by rwa [sub_add_cancel], sub_add_cancel _ _⟩⟩

theorem minCollisionsFrom_zero (l : List I64) (prev : I64) (h : ∀ w ∈ l, w.toInt ≠ -2 ^ 63) : minCollisionsFrom prev l = 0 := by
  induction l generalizing prev with
  | nil => rfl
  | cons w l ih => rw [minCollisionsFrom, if_neg fun e => h w (by simp) e.2, ih _ fun v hv => h v (by simp [hv])]

theorem minCollisions_zero (l : List I64) (h : ∀ w ∈ l, w.toInt ≠ -2 ^ 63) : minCollisions l = 0 := by
  cases l with
  | nil => rfl
  | cons w l => exact minCollisionsFrom_zero l w fun v hv => h v (by simp [hv])

theorem noMin_of {t : WrapPair n ι} {x : Shares n ι} {i : ι} (h1 : ∀ p, (t.r p i).toInt ≠ -2 ^ 63) (h2 : ∀ p, (x p i + t.r p i).toInt ≠ -2 ^ 63) : NoMinCollision t x i := by
  refine ⟨fun p => ?_, minCollisions_zero _ fun w hw => ?_, minCollisions_zero _ fun w hw => ?_⟩
  · exact minCollisionsFrom_zero _ _ fun w hw => by rw [List.mem_singleton] at hw; subst hw; exact h1 p
  · obtain ⟨p, rfl⟩ := List.mem_ofFn.1 hw; exact h1 p
  · obtain ⟨p, rfl⟩ := List.mem_ofFn.1 hw; exact h2 p

/-- More than two parties: the correction of wraps rarely fails. -/
theorem card_div_many [NeZero n] [Fintype ι] (hn : n > 2) {T : Ω → Tuples n} {c : ℕ} (A : Finset Ω) (hA : Decided T c (fun _ => ()) A) (x : Ω → Shares n ι)
    (hx : ∀ ω ω', SameBefore c (T ω) (T ω') → ω ∈ A → x ω = x ω') {X : ℚ} (hX : ∀ ω ∈ A, ∀ i, |((reveal (x ω) i).toInt : ℚ)| ≤ X)
    (h : ∀ p i, Spread T c (fun ω (q : {q : Fin n // q ≠ p}) => ((T ω).wrap c ι).r q.1) fun ω => ((T ω).wrap c ι).r p i) :
    count A (fun ω => ¬ ∀ i, DivGood ((T ω).wrap c ι) (x ω) i) * words ≤ Fintype.card ι * (X + 2 * n) * A.card := by
  have hD := words_pos.le
  have hA' : ∀ {τ : Type} (z : Ω → τ), Decided T c z A := fun z ω ω' hs _ hm => hA ω ω' hs rfl hm
  refine card_mono A _ (fun ω => ∃ i, ¬ DivGood ((T ω).wrap c ι) (x ω) i) (fun ω _ hb => not_forall.1 hb) ?_ hD
  refine card_exists A _ (fun i => ?_) hD
  have e1 : ∀ p, count A (fun ω => (((T ω).wrap c ι).r p i).toInt = -2 ^ 63 ∨ (x ω p i + ((T ω).wrap c ι).r p i).toInt = -2 ^ 63) * words ≤ 2 * A.card := by
    intro p
    refine card_mono A _ (fun ω => ((T ω).wrap c ι).r p i ∈ ({BitVec.ofInt 64 (-2 ^ 63), BitVec.ofInt 64 (-2 ^ 63) - x ω p i} : Finset I64)) (fun ω _ hb => ?_) ?_ hD
    · rw [Finset.mem_insert, Finset.mem_singleton]
      rcases hb with hb | hb
      · left; rw [← hb, ofInt_toInt]
      · right; rw [← hb, ofInt_toInt, add_sub_cancel_left]
    · refine spread_event (h p i) A (hA' _) _ (fun ω ω' hs _ hm => by rw [hx ω ω' hs hm]) fun ω _ => ?_
      exact_mod_cast Finset.card_le_two
  have e2 : count A (fun ω => (reveal (x ω) i).toInt + (reveal ((T ω).wrap c ι).r i).toInt ≠ (reveal (x ω) i + reveal ((T ω).wrap c ι).r i).toInt) * words ≤ X * A.card := by
    let rest : Ω → I64 := fun ω => ∑ q : {q : Fin n // q ≠ 0}, ((T ω).wrap c ι).r q.1 i
    have er : ∀ ω, reveal ((T ω).wrap c ι).r i = ((T ω).wrap c ι).r 0 i + rest ω := fun ω => by
      rw [reveal_apply, ← Finset.sum_add_sum_compl {0}, Finset.sum_singleton]
      congr 1
      exact (Finset.sum_subtype _ (fun q => by simp) _)
    refine card_mono A _ (fun ω => ((T ω).wrap c ι).r 0 i ∈ bads fun w => (reveal (x ω) i).toInt + (w + rest ω).toInt ≠ (reveal (x ω) i + (w + rest ω)).toInt) (fun ω _ hb => ?_) ?_ hD
    · rw [mem_bads]
      rwa [er] at hb
    · refine spread_event (h 0 i) A (hA' _) _ (fun ω ω' hs he hm => ?_) fun ω hω => ?_
      · have : rest ω = rest ω' := Finset.sum_congr rfl fun q _ => congrFun (congrFun he q) i
        rw [hx ω ω' hs hm, this]
      · rw [card_shift (fun w => (reveal (x ω) i).toInt + w.toInt ≠ (reveal (x ω) i + w).toInt), C15_bad_masks]
        refine le_trans (le_of_eq ?_) (hX ω hω i)
        rw [Nat.cast_natAbs]; push_cast; rfl
  have e3 := card_or A _ _ (card_exists A _ e1 hD) e2 hD
  refine card_mono A _ _ (fun ω _ hb => ?_) (e3.trans (le_of_eq (by rw [Fintype.card_fin]; ring))) hD
  unfold DivGood at hb
  rw [if_pos hn] at hb
  by_contra hcon
  push Not at hcon
  exact hb ⟨noMin_of (fun p => (hcon.1 p).1) fun p => (hcon.1 p).2, hcon.2⟩

/-- Two parties: if the share of the first party is random, the truncation of the shares rarely fails. -/
theorem card_div_two {τ : Type} [Fintype ι] {T : Ω → Tuples 2} {c : ℕ} {u : Ω → τ} (A : Finset Ω) (hA : Decided T c u A) (x : Ω → Shares 2 ι) (t : Ω → WrapPair 2 ι) (off : Ω → ι → I64) (y : Ω → ι → I64)
    (hy : ∀ ω i, x ω 0 i = y ω i + off ω i) (hoff : ∀ ω ω', SameBefore c (T ω) (T ω') → u ω = u ω' → ω ∈ A → off ω = off ω')
    (hx : ∀ ω ω', SameBefore c (T ω) (T ω') → ω ∈ A → reveal (x ω) = reveal (x ω')) {X : ℚ} (hX : ∀ ω ∈ A, ∀ i, |((reveal (x ω) i).toInt : ℚ)| ≤ X)
    (h : ∀ i, Spread T c u fun ω => y ω i) :
    count A (fun ω => ¬ ∀ i, DivGood (t ω) (x ω) i) * words ≤ Fintype.card ι * (X + 2 * (2 : ℕ)) * A.card := by
  have hD := words_pos.le
  refine card_mono A _ (fun ω => ∃ i, ¬ DivGood (t ω) (x ω) i) (fun ω _ hb => not_forall.1 hb) ?_ hD
  refine card_exists A _ (fun i => ?_) hD
  refine card_mono A _ (fun ω => y ω i ∈ bads fun w => (w + off ω i).toInt + (reveal (x ω) i - (w + off ω i)).toInt ≠ (reveal (x ω) i).toInt) (fun ω _ hb => ?_) ?_ hD
  · rw [mem_bads]
    unfold DivGood at hb
    rw [if_neg (by omega), Fin.sum_univ_two] at hb
    rw [← hy]
    have : x ω 1 i = reveal (x ω) i - x ω 0 i := by rw [reveal_apply, Fin.sum_univ_two, add_sub_cancel_left]
    rwa [← this]
  · refine spread_event (h i) A hA _ (fun ω ω' hs he hm => by rw [hx ω ω' hs hm, hoff ω ω' hs he hm]) fun ω hω => ?_
    rw [card_shift (fun w => w.toInt + (reveal (x ω) i - w).toInt ≠ (reveal (x ω) i).toInt), C14_bad_first_shares]
    have h1 := hX ω hω i
    have h2 : (((reveal (x ω) i).toInt + 1).natAbs : ℚ) = |((reveal (x ω) i).toInt : ℚ) + 1| := by
      rw [Nat.cast_natAbs]; push_cast; rfl
    rw [h2]
    have h3 := abs_add_le ((reveal (x ω) i).toInt : ℚ) 1
    rw [abs_one] at h3
    push_cast
    linarith

end CrypTen.Failure

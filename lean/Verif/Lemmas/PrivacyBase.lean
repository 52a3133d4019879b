import Verif.Lemmas.Privacy

/-! The requests for tuples hide the inputs of a party. -/

namespace CrypTen.Privacy
variable {n : ℕ} {α β ι ι' κ : Type}

/-! ## Changing one tuple of a stream -/

open Classical in
/-- The stream with the multiplication triple of request `c` for `B` replaced. -/
noncomputable def setMul (T : Tuples n) (c : ℕ) (B : BilinearOp ι ι' κ) (t : MulTriple n ι ι' κ) : Tuples n :=
  { T with mul := fun k {α α' β} B' =>
      if e : k = c ∧ (⟨ι, ι', κ, B⟩ : Σ a a' b, BilinearOp a a' b) = ⟨α, α', β, B'⟩ then
        cast (congrArg (fun s : Σ a a' b, BilinearOp a a' b => MulTriple n s.1 s.2.1 s.2.2.1) e.2) t
      else T.mul k B' }

theorem setMul_self (T : Tuples n) (c : ℕ) (B : BilinearOp ι ι' κ) (t : MulTriple n ι ι' κ) : (setMul T c B t).mul c B = t := by
  unfold setMul
  exact dif_pos ⟨rfl, rfl⟩

theorem setMul_ne (T : Tuples n) (c : ℕ) (B : BilinearOp ι ι' κ) (t : MulTriple n ι ι' κ) (k : ℕ) {α α' β : Type} (B' : BilinearOp α α' β)
    (e : ¬(k = c ∧ (⟨ι, ι', κ, B⟩ : Σ a a' b, BilinearOp a a' b) = ⟨α, α', β, B'⟩)) : (setMul T c B t).mul k B' = T.mul k B' := dif_neg e

open Classical in
/-- The value for one request and type replaced. -/
noncomputable def setAt {τ : Type → Type} (f : ℕ → (ι : Type) → τ ι) (c : ℕ) (t : τ ι) : ℕ → (ι : Type) → τ ι :=
  fun k α => if e : k = c ∧ ι = α then cast (congrArg τ e.2) t else f k α

theorem setAt_self {τ : Type → Type} (f : ℕ → (ι : Type) → τ ι) (c : ℕ) (t : τ ι) : setAt f c t c ι = t := by
  unfold setAt
  rw [dif_pos ⟨rfl, rfl⟩]
  rfl

theorem setAt_ne {τ : Type → Type} (f : ℕ → (ι : Type) → τ ι) (c : ℕ) (t : τ ι) (k : ℕ) (α : Type) (e : ¬(k = c ∧ ι = α)) : setAt f c t k α = f k α := dif_neg e

theorem setAt_all {τ : Type → Type} {P : (α : Type) → τ α → Prop} {f : ℕ → (ι : Type) → τ ι} {c : ℕ} {t : τ ι} (h1 : ∀ k α, P α (f k α)) (h2 : P ι t) (k : ℕ) (α : Type) : P α (setAt f c t k α) := by
  by_cases e : k = c ∧ ι = α
  · obtain ⟨rfl, rfl⟩ := e; rw [setAt_self]; exact h2
  · rw [setAt_ne _ _ _ _ _ e]; exact h1 k α

theorem setAt_all2 {τ : Type → Type} {P : (α : Type) → τ α → τ α → Prop} {f : ℕ → (ι : Type) → τ ι} {c : ℕ} {t : τ ι} (h1 : ∀ α a, P α a a) (h2 : P ι (f c ι) t) (k : ℕ) (α : Type) :
    P α (f k α) (setAt f c t k α) := by
  by_cases e : k = c ∧ ι = α
  · obtain ⟨rfl, rfl⟩ := e; rw [setAt_self]; exact h2
  · rw [setAt_ne _ _ _ _ _ e]; exact h1 α _

/-! ## Kinds of tuples -/

/-- One kind of tuples, requested at one counter value: how it is read from the stream and replaced. -/
structure Kind (h : Fin n) (τ : Type) (c : ℕ) where
  get : Tuples n → τ
  set : Tuples n → τ → Tuples n
  valid : τ → Prop
  off : τ → τ → Prop
  isEv : Event n → Prop
  get_valid : ∀ T : Tuples n, T.Valid → valid (get T)
  get_off : ∀ T T' : Tuples n, SameForOthers h T T' → off (get T) (get T')
  get_at : ∀ T T' : Tuples n, at' T c = at' T' c → get T = get T'
  get_set : ∀ T t, get (set T t) = t
  set_valid : ∀ T t, T.Valid → valid t → (set T t).Valid
  set_off : ∀ T t, off (get T) t → SameForOthers h T (set T t)
  set_unused : ∀ T t e, isEv e → SameUnused (seenAt c e) T (set T t)
  used : ∀ T T' e, isEv e → get T = get T' → SameUsed (seenAt c e) T T'

theorem seenAt_self (c : ℕ) (e : Event n) : seenAt c e c = some e := if_pos rfl

theorem seenAt_keys {c k : ℕ} {e : Event n} (hk : seenAt c e k ≠ none) : k = c := by
  unfold seenAt at hk
  split at hk
  · assumption
  · exact absurd rfl hk

theorem seenAt_some {c k : ℕ} {e e' : Event n} (hk : seenAt c e k = some e') : k = c ∧ e = e' := by
  unfold seenAt at hk
  split at hk
  · exact ⟨by assumption, Option.some.inj hk⟩
  · exact absurd hk nofun

theorem seenAt_of {c k : ℕ} {e E e' : Event n} (he : e = E) (hk : seenAt c e k = some e') : E = e' := he ▸ (seenAt_some hk).2

theorem Hidden.request {h : Fin n} {R : α → α → Prop} {τ : Type} (K : ∀ c, Kind h τ c) {m m' : Proto n α} (out out' : τ → α) (good good' : τ → Prop) (ev ev' : τ → Event n)
    (hm : ∀ T c, m T c = ⟨out ((K c).get T), c + 1, good ((K c).get T), seenAt c (ev ((K c).get T))⟩) (hm' : ∀ T c, m' T c = ⟨out' ((K c).get T), c + 1, good' ((K c).get T), seenAt c (ev' ((K c).get T))⟩)
    (hev : ∀ c t, (K c).isEv (ev t)) (h1 : ∀ c t, (K c).valid t → ∃ t', (K c).valid t' ∧ (K c).off t t' ∧ ev t = ev' t') (h2 : ∀ c t t', (K c).off t t' → ev t = ev' t' → R (out t) (out' t'))
    (h3 : ∀ c t t', (K c).valid t → (K c).valid t' → (K c).off t t' → ev' t = ev' t' → t = t') : Hidden h R m m' := by
  refine ⟨fun T c hv => ?_, fun T c hv => ?_, fun c T T₁ hv hv₁ hon => ?_, fun c T T' T'' hv hv' hv'' ho ho' _ he he' => ?_⟩
  · rw [hm]
    exact ⟨Nat.le_succ c, fun k hk => by have := seenAt_keys hk; show c ≤ k ∧ k < c + 1; omega⟩
  · rw [hm']
    exact ⟨Nat.le_succ c, fun k hk => by have := seenAt_keys hk; show c ≤ k ∧ k < c + 1; omega⟩
  · obtain ⟨t', v, o, e⟩ := h1 c ((K c).get T) ((K c).get_valid T hv)
    have hg := (K c).get_at T T₁ (hon c (le_refl c))
    have hgs := (K c).get_set T₁ t'
    refine ⟨(K c).set T₁ t', (K c).set_valid T₁ t' hv₁ v, (K c).set_off T₁ t' (hg ▸ o), ?_, fun T'' hT'' => ?_, ?_, ?_, ?_⟩
    · rw [hm]; exact (K c).set_unused T₁ t' _ (hev c _)
    · rw [hm] at hT''
      rw [hm', hm', (K c).get_at _ _ (hT'' c (Nat.lt_succ_self c))]
    · rw [hm, hm', hgs]; exact congrArg (seenAt c) e
    · rw [hm, hm']
    · rw [hm, hm', hgs]; exact h2 c _ _ o e
  · rw [hm, hm'] at he he'
    have e1 : ev ((K c).get T) = ev' ((K c).get T') := by
      have := he c (Nat.lt_succ_self c) (Nat.lt_succ_self c)
      simp only [seenAt_self] at this
      exact Option.some.inj this
    have e2 : ev ((K c).get T) = ev' ((K c).get T'') := by
      have := he' c (Nat.lt_succ_self c) (Nat.lt_succ_self c)
      simp only [seenAt_self] at this
      exact Option.some.inj this
    have hg := h3 c _ _ ((K c).get_valid T' hv') ((K c).get_valid T'' hv'') ((K c).get_off T' T'' (ho.symm.trans ho')) (e1.symm.trans e2)
    refine ⟨by rw [hm, hm'], by rw [hm, hm'], ?_, ?_, ?_⟩
    · rw [hm, hm']; exact h2 c _ _ ((K c).get_off T T' ho) e1
    · rw [hm', hm', hg]
    · rw [hm]; exact (K c).used T' T'' _ (hev c _) hg

/-- Multiplication triples. -/
noncomputable def kindMul (h : Fin n) (B : BilinearOp ι ι' κ) (c : ℕ) : Kind h (MulTriple n ι ι' κ) c where
  get := fun T => T.mul c B
  set := fun T t => setMul T c B t
  valid := fun t => t.Valid B
  off := fun t t' => Off h t.a t'.a ∧ Off h t.b t'.b ∧ Off h t.c t'.c
  isEv := fun e => ∃ x y, e = .mul B x y
  get_valid := fun T hv => hv.mul c B
  get_off := fun T T' ho => ⟨fun p hp => (ho.mul c B p hp).1, fun p hp => (ho.mul c B p hp).2.1, fun p hp => (ho.mul c B p hp).2.2⟩
  get_at := fun T T' e => at_mul e B
  get_set := fun T t => setMul_self T c B t
  set_valid := fun T t hv ht => ⟨fun k {α α' β} B' => by
      by_cases e : k = c ∧ (⟨ι, ι', κ, B⟩ : Σ a a' b, BilinearOp a a' b) = ⟨α, α', β, B'⟩
      · obtain ⟨rfl, e⟩ := e; cases e; rw [setMul_self]; exact ht
      · rw [setMul_ne _ _ _ _ _ _ e]; exact hv.mul k B', hv.square, hv.bin, hv.b2a, hv.wrap, hv.zeroA, hv.zeroX, hv.kbit⟩
  set_off := fun T t ho => ⟨fun k {α α' β} B' p hp => by
      by_cases e : k = c ∧ (⟨ι, ι', κ, B⟩ : Σ a a' b, BilinearOp a a' b) = ⟨α, α', β, B'⟩
      · obtain ⟨rfl, e⟩ := e; cases e; rw [setMul_self]; exact ⟨ho.1 p hp, ho.2.1 p hp, ho.2.2 p hp⟩
      · rw [setMul_ne _ _ _ _ _ _ e]; exact ⟨rfl, rfl, rfl⟩, fun _ _ _ _ => ⟨rfl, rfl⟩, fun _ _ _ _ => ⟨rfl, rfl, rfl⟩, fun _ _ _ _ => ⟨rfl, rfl⟩, fun _ _ _ _ => ⟨rfl, rfl⟩, fun _ _ _ _ => rfl,
      fun _ _ _ _ => rfl, fun _ _ _ _ _ => rfl⟩
  set_unused := fun T t e ⟨x, y, he⟩ => ⟨fun k {α α' β} B' hB => by
      by_cases e' : k = c ∧ (⟨ι, ι', κ, B⟩ : Σ a a' b, BilinearOp a a' b) = ⟨α, α', β, B'⟩
      · obtain ⟨rfl, e'⟩ := e'; cases e'; exact absurd (by rw [seenAt_self, he]) (hB x y)
      · rw [setMul_ne _ _ _ _ _ _ e'], fun _ _ _ => rfl, fun _ _ _ => rfl, fun _ _ _ => rfl, fun _ _ _ => rfl, fun _ _ => rfl, fun _ _ => rfl, fun _ _ _ => rfl⟩
  used := fun T T' e ⟨x, y, he⟩ hg => ⟨fun k {α α' β} B' u v hk => by
      obtain ⟨rfl, e'⟩ := seenAt_some hk
      rw [he] at e'; cases e'; exact hg, fun k _ _ hk => absurd (seenAt_of he hk) nofun, fun k _ _ _ hk => absurd (seenAt_of he hk) nofun,
      fun k _ _ hk => absurd (seenAt_of he hk) nofun, fun k _ _ hk => absurd (seenAt_of he hk) nofun⟩

/-- Square pairs. -/
noncomputable def kindSquare (h : Fin n) (ι : Type) (c : ℕ) : Kind h (SquarePair n ι) c where
  get := fun T => T.square c ι
  set := fun T t => { T with square := setAt T.square c t }
  valid := fun t => t.Valid
  off := fun t t' => Off h t.r t'.r ∧ Off h t.r2 t'.r2
  isEv := fun e => ∃ x : Shares n ι, e = .square x
  get_valid := fun T hv => hv.square c ι
  get_off := fun T T' ho => ⟨fun p hp => (ho.square c ι p hp).1, fun p hp => (ho.square c ι p hp).2⟩
  get_at := fun T T' e => at_square e ι
  get_set := fun T t => setAt_self _ c t
  set_valid := fun T t hv ht => ⟨hv.mul, setAt_all (τ := SquarePair n) (P := fun α (t : SquarePair n α) => t.Valid) hv.square ht, hv.bin, hv.b2a, hv.wrap, hv.zeroA, hv.zeroX, hv.kbit⟩
  set_off := fun T t ho => ⟨fun _ {_ _ _} _ _ _ => ⟨rfl, rfl, rfl⟩, setAt_all2 (τ := SquarePair n) (P := fun α (t t' : SquarePair n α) => ∀ p, p ≠ h → t.r p = t'.r p ∧ t.r2 p = t'.r2 p) (fun _ _ _ _ => ⟨rfl, rfl⟩) fun p hp => ⟨ho.1 p hp, ho.2 p hp⟩,
    fun _ _ _ _ => ⟨rfl, rfl, rfl⟩, fun _ _ _ _ => ⟨rfl, rfl⟩, fun _ _ _ _ => ⟨rfl, rfl⟩, fun _ _ _ _ => rfl, fun _ _ _ _ => rfl, fun _ _ _ _ _ => rfl⟩
  set_unused := fun T t e ⟨x, he⟩ => ⟨fun _ {_ _ _} _ _ => rfl, fun k α hB => by
      by_cases e' : k = c ∧ ι = α
      · obtain ⟨rfl, rfl⟩ := e'; exact absurd (by rw [seenAt_self, he]) (hB x)
      · exact (setAt_ne _ _ _ _ _ e').symm, fun _ _ _ => rfl, fun _ _ _ => rfl, fun _ _ _ => rfl, fun _ _ => rfl, fun _ _ => rfl, fun _ _ _ => rfl⟩
  used := fun T T' e ⟨x, he⟩ hg => ⟨fun k {α α' β} B' u v hk => absurd (seenAt_of he hk) nofun, fun k _ _ hk => by
      obtain ⟨rfl, e'⟩ := seenAt_some hk
      rw [he] at e'; cases e'; exact hg, fun k _ _ _ hk => absurd (seenAt_of he hk) nofun,
      fun k _ _ hk => absurd (seenAt_of he hk) nofun, fun k _ _ hk => absurd (seenAt_of he hk) nofun⟩

/-- Triples for AND. -/
noncomputable def kindBin (h : Fin n) (ι : Type) (c : ℕ) : Kind h (BinTriple n ι) c where
  get := fun T => T.bin c ι
  set := fun T t => { T with bin := setAt T.bin c t }
  valid := fun t => t.Valid
  off := fun t t' => Off h t.a t'.a ∧ Off h t.b t'.b ∧ Off h t.c t'.c
  isEv := fun e => ∃ x y : Shares n ι, e = .bin x y
  get_valid := fun T hv => hv.bin c ι
  get_off := fun T T' ho => ⟨fun p hp => (ho.bin c ι p hp).1, fun p hp => (ho.bin c ι p hp).2.1, fun p hp => (ho.bin c ι p hp).2.2⟩
  get_at := fun T T' e => at_bin e ι
  get_set := fun T t => setAt_self _ c t
  set_valid := fun T t hv ht => ⟨hv.mul, hv.square, setAt_all (τ := BinTriple n) (P := fun α (t : BinTriple n α) => t.Valid) hv.bin ht, hv.b2a, hv.wrap, hv.zeroA, hv.zeroX, hv.kbit⟩
  set_off := fun T t ho => ⟨fun _ {_ _ _} _ _ _ => ⟨rfl, rfl, rfl⟩, fun _ _ _ _ => ⟨rfl, rfl⟩,
    setAt_all2 (τ := BinTriple n) (P := fun α (t t' : BinTriple n α) => ∀ p, p ≠ h → t.a p = t'.a p ∧ t.b p = t'.b p ∧ t.c p = t'.c p) (fun _ _ _ _ => ⟨rfl, rfl, rfl⟩) fun p hp => ⟨ho.1 p hp, ho.2.1 p hp, ho.2.2 p hp⟩,
    fun _ _ _ _ => ⟨rfl, rfl⟩, fun _ _ _ _ => ⟨rfl, rfl⟩, fun _ _ _ _ => rfl, fun _ _ _ _ => rfl, fun _ _ _ _ _ => rfl⟩
  set_unused := fun T t e ⟨x, y, he⟩ => ⟨fun _ {_ _ _} _ _ => rfl, fun _ _ _ => rfl, fun k α hB => by
      by_cases e' : k = c ∧ ι = α
      · obtain ⟨rfl, rfl⟩ := e'; exact absurd (by rw [seenAt_self, he]) (hB x y)
      · exact (setAt_ne _ _ _ _ _ e').symm, fun _ _ _ => rfl, fun _ _ _ => rfl, fun _ _ => rfl, fun _ _ => rfl, fun _ _ _ => rfl⟩
  used := fun T T' e ⟨x, y, he⟩ hg => ⟨fun k {α α' β} B' u v hk => absurd (seenAt_of he hk) nofun, fun k _ _ hk => absurd (seenAt_of he hk) nofun,
      fun k _ _ _ hk => by
      obtain ⟨rfl, e'⟩ := seenAt_some hk
      rw [he] at e'; cases e'; exact hg,
      fun k _ _ hk => absurd (seenAt_of he hk) nofun, fun k _ _ hk => absurd (seenAt_of he hk) nofun⟩

/-- Pairs for the conversion of bits. -/
noncomputable def kindB2a (h : Fin n) (ι : Type) (c : ℕ) : Kind h (B2APair n ι) c where
  get := fun T => T.b2a c ι
  set := fun T t => { T with b2a := setAt T.b2a c t }
  valid := fun t => t.Valid
  off := fun t t' => Off h t.rA t'.rA ∧ Off h t.rB t'.rB
  isEv := fun e => ∃ x : Shares n ι, e = .b2a x
  get_valid := fun T hv => hv.b2a c ι
  get_off := fun T T' ho => ⟨fun p hp => (ho.b2a c ι p hp).1, fun p hp => (ho.b2a c ι p hp).2⟩
  get_at := fun T T' e => at_b2a e ι
  get_set := fun T t => setAt_self _ c t
  set_valid := fun T t hv ht => ⟨hv.mul, hv.square, hv.bin, setAt_all (τ := B2APair n) (P := fun α (t : B2APair n α) => t.Valid) hv.b2a ht, hv.wrap, hv.zeroA, hv.zeroX, hv.kbit⟩
  set_off := fun T t ho => ⟨fun _ {_ _ _} _ _ _ => ⟨rfl, rfl, rfl⟩, fun _ _ _ _ => ⟨rfl, rfl⟩, fun _ _ _ _ => ⟨rfl, rfl, rfl⟩,
    setAt_all2 (τ := B2APair n) (P := fun α (t t' : B2APair n α) => ∀ p, p ≠ h → t.rA p = t'.rA p ∧ t.rB p = t'.rB p) (fun _ _ _ _ => ⟨rfl, rfl⟩) fun p hp => ⟨ho.1 p hp, ho.2 p hp⟩,
    fun _ _ _ _ => ⟨rfl, rfl⟩, fun _ _ _ _ => rfl, fun _ _ _ _ => rfl, fun _ _ _ _ _ => rfl⟩
  set_unused := fun T t e ⟨x, he⟩ => ⟨fun _ {_ _ _} _ _ => rfl, fun _ _ _ => rfl, fun _ _ _ => rfl, fun k α hB => by
      by_cases e' : k = c ∧ ι = α
      · obtain ⟨rfl, rfl⟩ := e'; exact absurd (by rw [seenAt_self, he]) (hB x)
      · exact (setAt_ne _ _ _ _ _ e').symm, fun _ _ _ => rfl, fun _ _ => rfl, fun _ _ => rfl, fun _ _ _ => rfl⟩
  used := fun T T' e ⟨x, he⟩ hg => ⟨fun k {α α' β} B' u v hk => absurd (seenAt_of he hk) nofun, fun k _ _ hk => absurd (seenAt_of he hk) nofun,
      fun k _ _ _ hk => absurd (seenAt_of he hk) nofun, fun k _ _ hk => by
      obtain ⟨rfl, e'⟩ := seenAt_some hk
      rw [he] at e'; cases e'; exact hg, fun k _ _ hk => absurd (seenAt_of he hk) nofun⟩

/-- Pairs for counting wraps. -/
noncomputable def kindWrap (h : Fin n) (ι : Type) (c : ℕ) : Kind h (WrapPair n ι) c where
  get := fun T => T.wrap c ι
  set := fun T t => { T with wrap := setAt T.wrap c t }
  valid := fun t => t.Valid
  off := fun t t' => Off h t.r t'.r ∧ Off h t.theta t'.theta
  isEv := fun e => ∃ x : Shares n ι, e = .wrap x
  get_valid := fun T hv => hv.wrap c ι
  get_off := fun T T' ho => ⟨fun p hp => (ho.wrap c ι p hp).1, fun p hp => (ho.wrap c ι p hp).2⟩
  get_at := fun T T' e => at_wrap e ι
  get_set := fun T t => setAt_self _ c t
  set_valid := fun T t hv ht => ⟨hv.mul, hv.square, hv.bin, hv.b2a, setAt_all (τ := WrapPair n) (P := fun α (t : WrapPair n α) => t.Valid) hv.wrap ht, hv.zeroA, hv.zeroX, hv.kbit⟩
  set_off := fun T t ho => ⟨fun _ {_ _ _} _ _ _ => ⟨rfl, rfl, rfl⟩, fun _ _ _ _ => ⟨rfl, rfl⟩, fun _ _ _ _ => ⟨rfl, rfl, rfl⟩, fun _ _ _ _ => ⟨rfl, rfl⟩,
    setAt_all2 (τ := WrapPair n) (P := fun α (t t' : WrapPair n α) => ∀ p, p ≠ h → t.r p = t'.r p ∧ t.theta p = t'.theta p) (fun _ _ _ _ => ⟨rfl, rfl⟩) fun p hp => ⟨ho.1 p hp, ho.2 p hp⟩,
    fun _ _ _ _ => rfl, fun _ _ _ _ => rfl, fun _ _ _ _ _ => rfl⟩
  set_unused := fun T t e ⟨x, he⟩ => ⟨fun _ {_ _ _} _ _ => rfl, fun _ _ _ => rfl, fun _ _ _ => rfl, fun _ _ _ => rfl, fun k α hB => by
      by_cases e' : k = c ∧ ι = α
      · obtain ⟨rfl, rfl⟩ := e'; exact absurd (by rw [seenAt_self, he]) (hB x)
      · exact (setAt_ne _ _ _ _ _ e').symm, fun _ _ => rfl, fun _ _ => rfl, fun _ _ _ => rfl⟩
  used := fun T T' e ⟨x, he⟩ hg => ⟨fun k {α α' β} B' u v hk => absurd (seenAt_of he hk) nofun, fun k _ _ hk => absurd (seenAt_of he hk) nofun,
      fun k _ _ _ hk => absurd (seenAt_of he hk) nofun, fun k _ _ hk => absurd (seenAt_of he hk) nofun, fun k _ _ hk => by
      obtain ⟨rfl, e'⟩ := seenAt_some hk
      rw [he] at e'; cases e'; exact hg⟩

/-! ## Requests -/

theorem xor_shift (x x' a : Shares n ι) : xorShares x a = xorShares x' (xorShares a (xorShares x' x)) := by
  funext p i
  simp only [xorShares]
  rw [BitVec.xor_comm (a p i), ← BitVec.xor_assoc, ← BitVec.xor_assoc, BitVec.xor_self, BitVec.zero_xor]

theorem xor_off {h : Fin n} {x x' : Shares n ι} (hx : Off h x x') (a : Shares n ι) : Off h a (xorShares a (xorShares x' x)) := fun p hp => by
  funext i; simp [xorShares, hx p hp]

theorem xorShares_inj {x a b : Shares n ι} (e : xorShares x a = xorShares x b) : a = b := by
  funext p i
  have := congrArg (x p i ^^^ ·) (congrFun (congrFun e p) i)
  simpa [xorShares, ← BitVec.xor_assoc] using this

/-- The sharing is of bits. -/
def IsBit (x : Shares n ι) : Prop := ∀ i, ∃ b : Bool, revealX x i = boolI64 b

variable [NeZero n]

theorem addPublic_off {h : Fin n} {s s' : Shares n ι} (ho : Off h s s') (y : Tensor ι) : Off h (addPublic s y) (addPublic s' y) := fun p hp => by simp only [addPublic, ho p hp]

theorem Hidden.mul {h : Fin n} (B : BilinearOp ι ι' κ) {x x' : Shares n ι} {y y' : Shares n ι'} (hx : Off h x x') (hy : Off h y y') : Hidden h (Off h) (Proto.mul B x y) (Proto.mul B x' y') := by
  refine Hidden.request (kindMul h B) (fun t => beaverProduct B t x y) (fun t => beaverProduct B t x' y') (fun _ => True) (fun _ => True) (fun t => .mul B (subShares x t.a) (subShares y t.b))
    (fun t => .mul B (subShares x' t.a) (subShares y' t.b)) (fun T c => rfl) (fun T c => rfl) (fun c t => ⟨_, _, rfl⟩) (fun c t hv => ?_) (fun c t t' ho he => ?_) (fun c t t' hv hv' ho he => ?_)
  · refine ⟨⟨addShares t.a (subShares x' x), addShares t.b (subShares y' y), fix h t.c (B.apply (reveal (addShares t.a (subShares x' x))) (reveal (addShares t.b (subShares y' y))))⟩, reveal_fix _ _ _,
      ⟨fun p hp => ?_, fun p hp => ?_, fix_off _ _ _⟩, ?_⟩
    · simp [addShares, subShares, hx p hp]
    · simp [addShares, subShares, hy p hp]
    · congr 1
      · funext p; simp only [addShares, subShares]; abel
      · funext p; simp only [addShares, subShares]; abel
  · simp only [Event.mul.injEq, heq_eq_eq, true_and] at he
    intro p hp
    simp only [beaverProduct, beaverOpen, he.1, he.2]
    refine addPublic_off (fun p hp => ?_) _ p hp
    rw [ho.1 p hp, ho.2.1 p hp, ho.2.2 p hp]
  · simp only [Event.mul.injEq, heq_eq_eq, true_and] at he
    have ea : t.a = t'.a := by
      funext p
      exact sub_right_inj.1 (congrFun he.1 p)
    have eb : t.b = t'.b := by
      funext p
      exact sub_right_inj.1 (congrFun he.2 p)
    have ec : t.c = t'.c := reveal_ext ho.2.2 (by
      have e1 : reveal t.c = _ := hv
      have e2 : reveal t'.c = _ := hv'
      rw [e1, e2, ea, eb])
    cases t; cases t'; simp_all

theorem Hidden.square {h : Fin n} {x x' : Shares n ι} (hx : Off h x x') : Hidden h (Off h) (Proto.square x) (Proto.square x') := by
  refine Hidden.request (kindSquare h ι) (fun t => beaverSquare t x) (fun t => beaverSquare t x') (fun _ => True) (fun _ => True) (fun t => .square (subShares x t.r))
    (fun t => .square (subShares x' t.r)) (fun T c => rfl) (fun T c => rfl) (fun c t => ⟨_, rfl⟩) (fun c t hv => ?_) (fun c t t' ho he => ?_) (fun c t t' hv hv' ho he => ?_)
  · refine ⟨⟨addShares t.r (subShares x' x), fix h t.r2 (fun i => reveal (addShares t.r (subShares x' x)) i * reveal (addShares t.r (subShares x' x)) i)⟩, fun i => congrFun (reveal_fix h _ _) i,
      ⟨fun p hp => ?_, fix_off _ _ _⟩, ?_⟩
    · simp [addShares, subShares, hx p hp]
    · congr 1
      funext p; simp only [addShares, subShares]; abel
  · simp only [Event.square.injEq, heq_eq_eq, true_and] at he
    intro p hp
    simp only [beaverSquare, squareOpen, he]
    refine addPublic_off (fun p hp => ?_) _ p hp
    simp only [addShares, mulInt, ho.1 p hp, ho.2 p hp]
  · simp only [Event.square.injEq, heq_eq_eq, true_and] at he
    have ea : t.r = t'.r := by
      funext p
      exact sub_right_inj.1 (congrFun he p)
    have ec : t.r2 = t'.r2 := reveal_ext ho.2 (by funext i; rw [hv i, hv' i, ea])
    cases t; cases t'; simp_all

theorem xorPublic_off {h : Fin n} {s s' : Shares n ι} (ho : Off h s s') (y : Tensor ι) : Off h (xorPublic s y) (xorPublic s' y) := fun p hp => by funext i; simp only [xorPublic, ho p hp]

theorem Hidden.and {h : Fin n} {x x' y y' : Shares n ι} (hx : Off h x x') (hy : Off h y y') : Hidden h (Off h) (Proto.and x y) (Proto.and x' y') := by
  refine Hidden.request (kindBin h ι) (fun t => beaverAnd t x y) (fun t => beaverAnd t x' y') (fun _ => True) (fun _ => True) (fun t => .bin (xorShares x t.a) (xorShares y t.b))
    (fun t => .bin (xorShares x' t.a) (xorShares y' t.b)) (fun T c => rfl) (fun T c => rfl) (fun c t => ⟨_, _, rfl⟩) (fun c t hv => ?_) (fun c t t' ho he => ?_) (fun c t t' hv hv' ho he => ?_)
  · refine ⟨⟨xorShares t.a (xorShares x' x), xorShares t.b (xorShares y' y), fixX h t.c (fun i => revealX (xorShares t.a (xorShares x' x)) i &&& revealX (xorShares t.b (xorShares y' y)) i)⟩, fun i => revealX_fixX _ _ _ _,
      ⟨xor_off hx _, xor_off hy _, fixX_off _ _ _⟩, ?_⟩
    rw [← xor_shift, ← xor_shift]
  · simp only [Event.bin.injEq, heq_eq_eq, true_and] at he
    intro p hp
    simp only [beaverAnd, andOpen, he.1, he.2]
    funext i
    simp only [xorShares, ho.2.2 p hp]
    congr 1
    refine congrFun (xorPublic_off (fun p hp => ?_) _ p hp) i
    funext j; simp only [xorShares, andPublic, ho.1 p hp, ho.2.1 p hp]
  · simp only [Event.bin.injEq, heq_eq_eq, true_and] at he
    have ea : t.a = t'.a := xorShares_inj he.1
    have eb : t.b = t'.b := xorShares_inj he.2
    have ec : t.c = t'.c := revealX_ext ho.2.2 (fun i => by rw [hv i, hv' i, ea, eb])
    cases t; cases t'; simp_all

theorem Hidden.b2aBit {h : Fin n} {x x' : Shares n ι} (hx : Off h x x') (hb : IsBit x) (hb' : IsBit x') : Hidden h (Off h) (Proto.b2aBit x) (Proto.b2aBit x') := by
  refine Hidden.request (kindB2a h ι) (fun t => b2aSingleBit t x) (fun t => b2aSingleBit t x') (fun _ => True) (fun _ => True) (fun t => .b2a (xorShares x t.rB))
    (fun t => .b2a (xorShares x' t.rB)) (fun T c => rfl) (fun T c => rfl) (fun c t => ⟨_, rfl⟩) (fun c t hv => ?_) (fun c t t' ho he => ?_) (fun c t t' hv hv' ho he => ?_)
  · refine ⟨⟨fix h t.rA (fun i => revealX (xorShares t.rB (xorShares x' x)) i), xorShares t.rB (xorShares x' x)⟩, fun i => ?_, ⟨fix_off _ _ _, xor_off hx _⟩, ?_⟩
    · obtain ⟨b, e⟩ := hb i
      obtain ⟨b', e'⟩ := hb' i
      obtain ⟨r, _, er⟩ := hv i
      have : revealX (xorShares t.rB (xorShares x' x)) i = boolI64 (xor r (xor b' b)) := by
        rw [revealX_xorShares, revealX_xorShares, er, e, e']
        cases r <;> cases b <;> cases b' <;> rfl
      exact ⟨_, by rw [reveal_fix]; exact this, this⟩
    · rw [← xor_shift]
  · simp only [Event.b2a.injEq, heq_eq_eq, true_and] at he
    intro p hp
    simp only [b2aSingleBit, b2aOpen, he]
    split
    · exact hx p hp
    · refine addPublic_off (fun p hp => ?_) _ p hp
      simp only [mulInt, ho.1 p hp]
  · simp only [Event.b2a.injEq, heq_eq_eq, true_and] at he
    have ea : t.rB = t'.rB := xorShares_inj he
    have ec : t.rA = t'.rA := reveal_ext ho.1 (by
      funext i
      obtain ⟨b, e1, e2⟩ := hv i
      obtain ⟨b', e1', e2'⟩ := hv' i
      rw [e1, e1', ← e2, ← e2', ea])
    cases t; cases t'; simp_all

theorem wraps_off {h : Fin n} {t t' : WrapPair n ι} {x x' : Shares n ι} (hx : Off h x x') (hr : Off h t.r t'.r) (ht : Off h t.theta t'.theta) (hz : addShares x t.r = addShares x' t'.r) :
    Off h (wrapsProtocol t x) (wrapsProtocol t' x') := fun p hp => by
  funext i
  simp only [wrapsProtocol, hz, subShares, Pi.sub_apply, hx p hp, hr p hp, ht p hp]

theorem truncLocal_off {h : Fin n} {x x' : Shares n ι} (hx : Off h x x') (y : ι → ℤ) : Off h (truncLocal x y) (truncLocal x' y) := fun p hp => by
  funext i; simp only [truncLocal, hx p hp]

theorem Hidden.divInt {h : Fin n} {x x' : Shares n ι} (hx : Off h x x') (y : ι → ℤ) : Hidden h (Off h) (Proto.divInt x y) (Proto.divInt x' y) := by
  by_cases hn : n > 2
  · refine Hidden.request (kindWrap h ι) (fun t => CrypTen.divInt t x y) (fun t => CrypTen.divInt t x' y) (fun t => ∀ i, DivGood t x i) (fun t => ∀ i, DivGood t x' i) (fun t => .wrap (addShares x t.r))
      (fun t => .wrap (addShares x' t.r)) (fun T c => by unfold Proto.divInt; rw [if_pos hn]; rfl) (fun T c => by unfold Proto.divInt; rw [if_pos hn]; rfl) (fun c t => ⟨_, rfl⟩) (fun c t hv => ?_) (fun c t t' ho he => ?_)
      (fun c t t' hv hv' ho he => ?_)
    · refine ⟨⟨addShares t.r (subShares x x'), fix h t.theta (fun i => countWraps (List.ofFn fun p => addShares t.r (subShares x x') p i))⟩, fun i => congrFun (reveal_fix h _ _) i, ⟨fun p hp => ?_, fix_off _ _ _⟩, ?_⟩
      · simp [addShares, subShares, hx p hp]
      · congr 1
        funext p; simp only [addShares, subShares]; abel
    · simp only [Event.wrap.injEq, heq_eq_eq, true_and] at he
      simp only [CrypTen.divInt, if_pos hn]
      intro p hp
      simp only [truncateBeaver, subShares, mulInt, truncLocal_off hx y p hp, wraps_off hx ho.1 ho.2 he p hp]
    · simp only [Event.wrap.injEq, heq_eq_eq, true_and] at he
      have ea : t.r = t'.r := by
        funext p
        exact add_left_cancel (congrFun he p)
      have ec : t.theta = t'.theta := reveal_ext ho.2 (by funext i; rw [hv i, hv' i, ea])
      cases t; cases t'; simp_all
  · have e : ∀ (z : Shares n ι) (T : Tuples n) c, Proto.divInt z y T c = ⟨truncLocal z y, c + 1, ∀ i, DivGood (T.wrap c ι) z i, fun _ => none⟩ := fun z T c => by
      unfold Proto.divInt CrypTen.divInt; rw [if_neg hn, if_neg hn]
    refine ⟨fun T c _ => ?_, fun T c _ => ?_, fun c T T₁ hv hv₁ hon => ⟨T₁, hv₁, .refl h T₁, .refl _ T₁, fun T'' hT'' => ?_, ?_, ?_, ?_⟩, fun c T T' T'' _ _ _ _ _ _ _ _ => ?_⟩
    · rw [e]; exact ⟨Nat.le_succ c, fun _ hk => absurd rfl hk⟩
    · rw [e]; exact ⟨Nat.le_succ c, fun _ hk => absurd rfl hk⟩
    · rw [e] at hT''; rw [e, e, at_wrap (hT'' c (Nat.lt_succ_self c))]
    · rw [e, e]
    · rw [e, e]
    · rw [e, e]; exact truncLocal_off hx y
    · rw [e, e, e]; exact ⟨rfl, rfl, truncLocal_off hx y, rfl, .none⟩

omit [NeZero n] in
/-- A protocol that sends nothing, whose result depends on the tuples of this request only and is the same for the others. -/
theorem Hidden.quiet {h : Fin n} {R : α → α → Prop} {m m' : Proto n α} (out out' : Tuples n → ℕ → α) (hm : ∀ T c, m T c = ⟨out T c, c + 1, True, fun _ => none⟩)
    (hm' : ∀ T c, m' T c = ⟨out' T c, c + 1, True, fun _ => none⟩) (h1 : ∀ T T' : Tuples n, T.Valid → T'.Valid → SameForOthers h T T' → ∀ c, R (out T c) (out' T' c))
    (h2 : ∀ T T' c, at' T c = at' T' c → out T c = out T' c) (h3 : ∀ T T' c, at' T c = at' T' c → out' T c = out' T' c)
    (h4 : ∀ T T' : Tuples n, T.Valid → T'.Valid → SameForOthers h T T' → (∀ k b ι, T.kbit k b ι = T'.kbit k b ι) → ∀ c, out' T c = out' T' c) : Hidden h R m m' := by
  refine ⟨fun T c _ => ?_, fun T c _ => ?_, fun c T T₁ hv hv₁ hon => ⟨T₁, hv₁, .refl h T₁, .refl _ T₁, fun T'' hT'' => ?_, ?_, ?_, ?_⟩, fun c T T' T'' hv hv' hv'' ho ho' hk _ _ => ?_⟩
  · rw [hm]; exact ⟨Nat.le_succ c, fun _ hk => absurd rfl hk⟩
  · rw [hm']; exact ⟨Nat.le_succ c, fun _ hk => absurd rfl hk⟩
  · rw [hm] at hT''; rw [hm', hm', h3 _ _ _ (hT'' c (Nat.lt_succ_self c))]
  · rw [hm, hm']
  · rw [hm, hm']
  · rw [hm, hm', h2 T T₁ c (hon c (le_refl c))]; exact h1 T₁ T₁ hv₁ hv₁ (.refl h T₁) c
  · rw [hm, hm', hm']; exact ⟨rfl, rfl, h1 T T' hv hv' ho c, h4 T' T'' hv' hv'' (ho.symm.trans ho') hk c, .none⟩

omit [NeZero n] in
theorem Hidden.encryptA {h : Fin n} {src : Fin n} {x x' : Tensor ι} (hx : src ≠ h → x = x') : Hidden h (Off h) (Proto.encryptA src x) (Proto.encryptA src x') := by
  refine Hidden.quiet _ _ (fun _ _ => rfl) (fun _ _ => rfl) (fun T T' hv hv' ho c p hp => ?_) (fun T T' c e => ?_) (fun T T' c e => ?_) (fun T T' hv hv' ho hk c => ?_)
  · beta_reduce
    split
    · rename_i e; rw [ho.zeroA c ι p hp, hx (e ▸ hp)]
    · exact ho.zeroA c ι p hp
  · rw [at_zeroA e]
  · rw [at_zeroA e]
  · rw [reveal_ext (h := h) (s := T.zeroA c ι) (s' := T'.zeroA c ι) (fun p hp => ho.zeroA c ι p hp) (funext fun i => by rw [hv.zeroA, hv'.zeroA])]

omit [NeZero n] in
theorem Hidden.encryptX {h : Fin n} {src : Fin n} {x x' : Tensor ι} (hx : src ≠ h → x = x') : Hidden h (Off h) (Proto.encryptX src x) (Proto.encryptX src x') := by
  refine Hidden.quiet _ _ (fun _ _ => rfl) (fun _ _ => rfl) (fun T T' hv hv' ho c p hp => ?_) (fun T T' c e => ?_) (fun T T' c e => ?_) (fun T T' hv hv' ho hk c => ?_)
  · beta_reduce
    split
    · rename_i e; rw [ho.zeroX c ι p hp, hx (e ▸ hp)]
    · exact ho.zeroX c ι p hp
  · rw [at_zeroX e]
  · rw [at_zeroX e]
  · rw [revealX_ext (h := h) (s := T.zeroX c ι) (s' := T'.zeroX c ι) (fun p hp => ho.zeroX c ι p hp) (fun i => by rw [hv.zeroX, hv'.zeroX])]

omit [NeZero n] in
theorem Hidden.kbit {h : Fin n} (bits : ℕ) (ι : Type) : Hidden h (Off h) (Proto.kbit bits ι : Proto n (Shares n ι)) (Proto.kbit bits ι) := by
  refine Hidden.quiet _ _ (fun _ _ => rfl) (fun _ _ => rfl) (fun T T' hv hv' ho c p hp => ?_) (fun T T' c e => ?_) (fun T T' c e => ?_) (fun T T' hv hv' ho hk c => ?_)
  · exact ho.kbit c bits ι p hp
  · rw [at_kbit e]
  · rw [at_kbit e]
  · exact hk c bits ι

end CrypTen.Privacy
